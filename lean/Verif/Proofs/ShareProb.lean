/-
What client programs can do to problems and plans (for C85).
-/
import Verif.Proofs.ShareDom
import Verif.Proofs.ProblemText

namespace Pddl.Share
open Spec

/-! ### Problems -/

theorem reqs_some {h : Heap} {b : Addr} {l : List Req} : h.reqs b = some l ↔ ∃ fr, h[b]? = some (.cell fr (.reqs l)) := by
  unfold Heap.reqs Heap.cell
  constructor
  · intro h'
    split at h'
    · rename_i d hd
      split at hd
      · rename_i fr c hc
        simp only [Option.some.injEq] at hd h'
        subst hd h'
        exact ⟨fr, hc⟩
      · cases hd
    · cases h'
  · rintro ⟨fr, e⟩
    rw [e]

theorem problem_some {h : Heap} {a : Addr} {p : Problem} : h.problem a = some p ↔ ∃ o d rs, h[a]? = some (.problem o) ∧
    h.domainAt o.domain = some d ∧ h.reqsAt o.reqs_ = some rs ∧
    p = ⟨o.name, d, o.domainName_, rs, o.objects, o.init, o.goal, o.metric⟩ := by
  unfold Heap.problem
  constructor
  · intro h'
    split at h'
    · rename_i o ho
      simp only [Option.bind_eq_bind, Option.bind_eq_some_iff, Option.some.injEq] at h'
      obtain ⟨d, h1, rs, h2, rfl⟩ := h'
      exact ⟨o, d, rs, ho, h1, h2, rfl⟩
    · cases h'
  · rintro ⟨o, d, rs, h1, h2, h3, rfl⟩
    rw [h1]
    simp [h2, h3]

/-- A problem is changed itself only by assigning its domain. -/
theorem Effect.problem_kept {w w' : World} {op : Op} {a : Addr} {o : ProbObj} (h : Effect w op w')
    (ho : w.heap[a]? = some (.problem o)) (hs : ¬ SetsDomain a w op) : w'.heap[a]? = some (.problem o) := by
  have hlt : a < w.heap.length := (List.getElem?_eq_some_iff.1 ho).1
  cases h with
  | nothing => exact ho
  | make os vs _ _ => rw [List.getElem?_append_left hlt]; exact ho
  | write y l b c c' _ hb hc' _ _ =>
    have hne : b ≠ a := by
      rintro rfl
      rw [ho] at hc'
      cases hc'
    rw [List.getElem?_set_ne hne]; exact ho
  | assign y z b b2 p n e hb hb2 hp _ =>
    have hne : b ≠ a := by
      rintro rfl
      exact hs ⟨y, z, e, hb⟩
    rw [List.getElem?_set_ne hne]; exact ho
  | reveal y f b b2 p _ _ _ _ => exact ho

/-- A problem whose own set of requirements nobody else has. -/
structure Kept (w : World) (a : Addr) (p : Problem) : Prop where
  view : w.heap.problem a = some p
  own : ∀ o x, w.heap[a]? = some (.problem o) → o.reqs_ = .own x → Private w a x

theorem given_problem {o : ProbObj} {f : Field} {x : Addr} (hx : x ∈ (Obj.problem o).given f) :
    f = .domain ∧ o.domain = some x ∨ f = .requirements ∧ o.reqs_ = .own x := by
  cases f <;> simp only [Obj.given, List.not_mem_nil] at hx
  · right
    refine ⟨rfl, ?_⟩
    split at hx
    · rename_i e
      simp only [List.mem_singleton] at hx
      rw [hx]; exact e
    · cases hx
  · left
    simpa using hx

theorem domainAt_step {F : FloatOf} {w : World} {op : Op} {b : Option Addr} {d : Option Domain} (h : w.heap.domainAt b = some d)
    (hw : ∀ x o, b = some x → w.heap[x]? = some (.domain o) → ¬ WritesTo o.types w op ∧ ¬ WritesTo o.functions w op) :
    (w.step F op).1.heap.domainAt b = some d := by
  cases b with
  | none => exact h
  | some x =>
    simp only [Heap.domainAt, Option.map_eq_some_iff] at h ⊢
    obtain ⟨d', h, rfl⟩ := h
    exact ⟨d', domain_step h (fun o ho => hw x o rfl ho), rfl⟩

theorem Kept.step {F : FloatOf} {w : World} {op : Op} {a : Addr} {p : Problem} (h : Kept w a p)
    (hs : ¬ SetsDomain a w op) (hr : ¬ AsksFor a .requirements w op) (hd : ¬ ChangesDomainOf a w op) :
    Kept (w.step F op).1 a p := by
  have he := step_effect F w op
  obtain ⟨o, d, rs, h1, h2, h3, rfl⟩ := problem_some.1 h.view
  have hk := he.problem_kept h1 hs
  have hown : ∀ x, o.reqs_ = .own x → Private (w.step F op).1 a x ∧ (w.step F op).1.heap[x]? = w.heap[x]? := by
    intro x hx
    have hc : ∃ fr c, w.heap[x]? = some (.cell fr c) := by
      rw [hx] at h3
      simp only [Heap.reqsAt, Option.map_eq_some_iff] at h3
      obtain ⟨l, h3, _⟩ := h3
      obtain ⟨fr, h3⟩ := reqs_some.1 h3
      exact ⟨fr, _, h3⟩
    refine he.private_ (h.own o x h1 hx) ?_ hc
    intro v f o' e hv ho hx'
    rw [h1, Option.some.injEq] at ho
    subst ho
    rcases given_problem hx' with ⟨rfl, hx2⟩ | ⟨rfl, _⟩
    · -- the domain of the problem is not its set of requirements
      obtain ⟨fr, c, hc⟩ := hc
      rw [hx2] at h2
      simp only [Heap.domainAt, Option.map_eq_some_iff] at h2
      obtain ⟨d', h2, _⟩ := h2
      obtain ⟨_, _, _, _, _, h2, _⟩ := domain_some.1 h2
      rw [h2] at hc
      cases hc
    · exact hr ⟨v, e, hv⟩
  refine ⟨problem_some.2 ⟨o, d, rs, hk, ?_, ?_, rfl⟩, ?_⟩
  · refine domainAt_step h2 (fun x o' hx ho' => ?_)
    refine ⟨fun hw => hd ?_, fun hw => hd ?_⟩
    · exact ⟨o, x, o', h1, hx, ho', .inl hw⟩
    · exact ⟨o, x, o', h1, hx, ho', .inr hw⟩
  · cases hq : o.reqs_ with
    | none => rw [hq] at h3; exact h3
    | frozen l => rw [hq] at h3; exact h3
    | own x =>
      rw [hq] at h3
      simp only [Heap.reqsAt, Option.map_eq_some_iff] at h3 ⊢
      obtain ⟨l, h3, rfl⟩ := h3
      refine ⟨l, ?_, rfl⟩
      rw [reqs_some, (hown x hq).2]
      exact reqs_some.1 h3
  · intro o' x ho' hx
    rw [hk] at ho'
    cases ho'
    exact (hown x hx).1

theorem Kept.run {F : FloatOf} {ops : List Op} {w : World} {a : Addr} {p : Problem} (h : Kept w a p)
    (hq : Along F (fun w op => ¬ SetsDomain a w op ∧ ¬ AsksFor a .requirements w op ∧ ¬ ChangesDomainOf a w op) w ops) :
    Kept (w.run F ops) a p := by
  induction ops generalizing w with
  | nil => exact h
  | cons op ops ih => exact ih (h.step hq.1.1 hq.1.2.1 hq.1.2.2) hq.2

theorem domain_append {h os : Heap} {b : Addr} {d : Domain} (hd : h.domain b = some d) : (h ++ os : Heap).domain b = some d := by
  obtain ⟨o, fr, fr', ts, fs, h1, h2, h3, rfl⟩ := domain_some.1 hd
  have key : ∀ (i : Nat) (x : Obj), h[i]? = some x → (h ++ os)[i]? = some x := fun i x hi => by
    rw [List.getElem?_append_left (List.getElem?_eq_some_iff.1 hi).1]; exact hi
  exact domain_some.2 ⟨o, fr, fr', ts, fs, key _ _ h1, key _ _ h2, key _ _ h3, rfl⟩

theorem domainAt_append {h os : Heap} {b : Option Addr} {d : Option Domain} (hd : h.domainAt b = some d) :
    (h ++ os : Heap).domainAt b = some d := by
  cases b with
  | none => exact hd
  | some b =>
    simp only [Heap.domainAt, Option.map_eq_some_iff] at hd ⊢
    obtain ⟨d', hd, rfl⟩ := hd
    exact ⟨d', domain_append hd, rfl⟩

/-- The new problem object has the value that `Problem(...)` gives. -/
theorem kept_new {w : World} {p : Problem} {da : Option Addr} (hc : Closed w) (hd : w.heap.domainAt da = some p.domain) :
    ∃ a, (w.storeProblem p da).vars = w.vars ++ [a] ∧ Kept (w.storeProblem p da) a p := by
  have h0 : ∀ os : List Obj, (w.heap ++ os)[w.heap.length]? = os[0]? := fun os => getElem?_new (i := 0)
  unfold World.storeProblem
  split
  · rename_i rs hr
    simp only [World.alloc, World.push, List.append_assoc, List.length_append, List.length_cons, List.length_nil, Nat.zero_add,
      List.cons_append, List.nil_append]
    refine ⟨w.heap.length + 1, rfl, problem_some.2 ⟨_, p.domain, p.reqs_, getElem?_new, domainAt_append hd, ?_, rfl⟩, ?_⟩
    · simp only [Heap.reqsAt, Option.map_eq_some_iff]
      exact ⟨rs, reqs_some.2 ⟨false, h0 _⟩, hr.symm⟩
    · intro o x ho hx
      rw [getElem?_new] at ho
      simp only [List.getElem?_cons_succ, List.getElem?_cons_zero, Option.some.injEq, Obj.problem.injEq] at ho
      subst ho
      simp only [ReqsAt.own.injEq] at hx
      subst hx
      refine private_new hc (Nat.le_refl _) (by simp) (by simp) ?_
      intro i o h hne
      rcases two_cases h with ⟨rfl, rfl⟩ | ⟨rfl, rfl⟩
      · simp [Obj.refs]
      · omega
  · rename_i hr
    refine ⟨w.heap.length, rfl, problem_some.2 ⟨_, p.domain, p.reqs_, h0 _, domainAt_append hd, ?_, rfl⟩, ?_⟩
    · simp [Heap.reqsAt, hr]
    · intro o x ho hx
      simp only [World.push] at ho
      rw [h0] at ho
      simp only [List.getElem?_cons_zero, Option.some.injEq, Obj.problem.injEq] at ho
      subst ho
      cases hx
  · rename_i hr
    refine ⟨w.heap.length, rfl, problem_some.2 ⟨_, p.domain, p.reqs_, h0 _, domainAt_append hd, ?_, rfl⟩, ?_⟩
    · simp [Heap.reqsAt, hr]
    · intro o x ho hx
      simp only [World.push] at ho
      rw [h0] at ho
      simp only [List.getElem?_cons_zero, Option.some.injEq, Obj.problem.injEq] at ho
      subst ho
      cases hx

theorem mkProblem_domain {a : ProblemArgs} {p : Problem} (h : mkProblem a = .ok p) : p.domain = a.domain ∧
    ∀ d, p.domain = some d → p.check d = .ok () := by
  unfold mkProblem at h
  obtain ⟨_, _, h⟩ := bind_ok_iff.1 h
  obtain ⟨_, _, h⟩ := bind_ok_iff.1 h
  obtain ⟨_, _, h⟩ := bind_ok_iff.1 h
  obtain ⟨_, _, h⟩ := bind_ok_iff.1 h
  obtain ⟨_, hc, h⟩ := bind_ok_iff.1 h
  simp only [pure_ok, Except.ok.injEq] at h
  subst h
  refine ⟨rfl, fun d hd => ?_⟩
  simp only at hd
  rw [hd] at hc ⊢
  exact hc

theorem parsed_no_domain {F : FloatOf} {σ σ' : List (Str × Term)} {text : Str} {p : Problem}
    (h : parseProblem F σ text = .ok (p, σ')) : p.domain = none := by
  obtain ⟨ts, _, ⟨P⟩⟩ := parseProblem_ok h
  exact (mkProblem_fields P.hproblem).2.1

/-- What `Problem(...)` and the parser put into the heap. -/
theorem makes_problem {F : FloatOf} {w : World} {op : Op} (hop : Op.makesProblem op) (hok : (w.step F op).2 = .ok ()) :
    ∃ p da, (w.step F op).1 = w.storeProblem p da ∧ w.heap.domainAt da = some p.domain ∧
      ∀ d, p.domain = some d → p.check d = .ok () := by
  cases op <;> simp only [Op.makesProblem] at hop
  case problem name domain domainName reqs objects init goal metric =>
    simp only [World.step] at hok ⊢
    split at hok
    · cases hok
    · rename_i args ha
      split at hok
      · cases hok
      · rename_i p hm
        obtain ⟨e, hch⟩ := mkProblem_domain hm
        refine ⟨p, _, rfl, ?_, hch⟩
        simp only [Option.bind_eq_bind, Option.bind_eq_some_iff, Option.some.injEq] at ha
        obtain ⟨da, h1, d, h2, _, _, _, _, _, _, rfl⟩ := ha
        rw [e]
        cases domain with
        | none =>
          simp only [Option.some.injEq] at h1
          subst h1
          exact h2
        | some x =>
          simp only [Option.map_eq_some_iff] at h1
          obtain ⟨b, h1, rfl⟩ := h1
          simp only [Option.bind_some, h1]
          exact h2
  case parseProblem text =>
    simp only [World.step] at hok ⊢
    split at hok
    · rename_i p _ hp
      have := parsed_no_domain hp
      exact ⟨p, none, rfl, by rw [this]; rfl, fun d hd => by rw [this] at hd; cases hd⟩
    · cases hok

/-! ### Plans -/

theorem terms_some {h : Heap} {b : Addr} {l : List Term} : h.terms b = some l ↔ ∃ fr, h[b]? = some (.cell fr (.terms l)) := by
  unfold Heap.terms Heap.cell
  constructor
  · intro h'
    split at h'
    · rename_i d hd
      split at hd
      · rename_i fr c hc
        simp only [Option.some.injEq] at hd h'
        subst hd h'
        exact ⟨fr, hc⟩
      · cases hd
    · cases h'
  · rintro ⟨fr, e⟩
    rw [e]

theorem steps_some {h : Heap} {b : Addr} {l : List (Str × Addr)} :
    h.steps b = some l ↔ ∃ fr, h[b]? = some (.cell fr (.steps l)) := by
  unfold Heap.steps Heap.cell
  constructor
  · intro h'
    split at h'
    · rename_i d hd
      split at hd
      · rename_i fr c hc
        simp only [Option.some.injEq] at hd h'
        subst hd h'
        exact ⟨fr, hc⟩
      · cases hd
    · cases h'
  · rintro ⟨fr, e⟩
    rw [e]

theorem stepValues_some {h : Heap} {l : List (Str × Addr)} {ls : List (Str × List Term)} : h.stepValues l = some ls ↔
    List.Forall₂ (fun p q => q.1 = p.1 ∧ h.terms p.2 = some q.2) l ls := by
  induction l generalizing ls with
  | nil => cases ls <;> simp [Heap.stepValues]
  | cons p l ih =>
    obtain ⟨n, a⟩ := p
    simp only [Heap.stepValues, Option.bind_eq_bind, Option.bind_eq_some_iff, Option.some.injEq]
    constructor
    · rintro ⟨t, h1, r, h2, rfl⟩
      exact .cons ⟨rfl, h1⟩ (ih.1 h2)
    · intro h'
      cases h' with
      | cons h1 h2 =>
        rename_i q r
        exact ⟨q.2, h1.2, r, ih.2 h2, by have := h1.1; simp only at this; rw [← this]⟩

theorem plan_some {h : Heap} {a : Addr} {p : Plan} : h.plan a = some p ↔ ∃ s fr l, h[a]? = some (.plan s) ∧
    h[s]? = some (.cell fr (.steps l)) ∧ h.stepValues l = some p.steps := by
  unfold Heap.plan
  constructor
  · intro h'
    split at h'
    · rename_i s hs
      simp only [Option.bind_eq_bind, Option.bind_eq_some_iff, Option.some.injEq] at h'
      obtain ⟨l, h1, ls, h2, rfl⟩ := h'
      obtain ⟨fr, h1⟩ := steps_some.1 h1
      exact ⟨s, fr, l, hs, h1, h2⟩
    · cases h'
  · rintro ⟨s, fr, l, h1, h2, h3⟩
    rw [h1]
    simp only [Option.bind_eq_bind, Option.bind_eq_some_iff, Option.some.injEq]
    exact ⟨l, steps_some.2 ⟨fr, h2⟩, p.steps, h3, rfl⟩

theorem forall2_imp_left {α β : Type} {R S : α → β → Prop} {l : List α} {l' : List β} (h : List.Forall₂ R l l')
    (hi : ∀ a b, a ∈ l → R a b → S a b) : List.Forall₂ S l l' := by
  induction h with
  | nil => exact .nil
  | cons h _ ih => exact .cons (hi _ _ (by simp) h) (ih (fun a b ha => hi a b (by simp [ha])))

/-- A plan whose lists nobody else has. -/
structure Alone (w : World) (a : Addr) (p : Plan) : Prop where
  view : w.heap.plan a = some p
  list : ∀ s, w.heap[a]? = some (.plan s) → Private w a s
  args : ∀ s fr l, w.heap[a]? = some (.plan s) → w.heap[s]? = some (.cell fr (.steps l)) → ∀ q ∈ l, Private w s q.2

theorem Alone.step {F : FloatOf} {w : World} {op : Op} {a : Addr} {p : Plan} (h : Alone w a p)
    (hr : ¬ AsksFor a .actions w op) : Alone (w.step F op).1 a p := by
  have he := step_effect F w op
  obtain ⟨s, fr, l, h1, h2, h3⟩ := plan_some.1 h.view
  have hk := he.kept h1 (by simp) (by simp)
  have hp := h.list s h1
  obtain ⟨p1, e1⟩ := he.private_ hp (fun v f o e hv ho hx => by
    rw [h1, Option.some.injEq] at ho
    subst ho
    cases f <;> simp only [Obj.given, List.not_mem_nil] at hx
    exact hr ⟨v, e, hv⟩) ⟨_, _, h2⟩
  have hargs : ∀ q ∈ l, (∃ fr c, w.heap[q.2]? = some (.cell fr c)) → Private (w.step F op).1 s q.2 ∧
      (w.step F op).1.heap[q.2]? = w.heap[q.2]? := by
    intro q hq hc
    refine he.private_ (h.args s fr l h1 h2 q hq) ?_ hc
    intro v f o e hv ho hx
    exact hp.vars (List.mem_of_getElem? hv)
  have hcell : ∀ q ∈ l, ∃ fr t, w.heap[q.2]? = some (.cell fr (.terms t)) := by
    intro q hq
    obtain ⟨r, _, _, h5⟩ := forall2_mem' (stepValues_some.1 h3) q hq
    obtain ⟨fr, h5⟩ := terms_some.1 h5
    exact ⟨fr, r.2, h5⟩
  refine ⟨plan_some.2 ⟨s, fr, l, hk, e1 ▸ h2, ?_⟩, ?_, ?_⟩
  · rw [stepValues_some]
    have := stepValues_some.1 h3
    refine forall2_imp_left this ?_
    intro q r hq ⟨h4, h5⟩
    refine ⟨h4, ?_⟩
    obtain ⟨fr', t, hc⟩ := hcell q hq
    rw [terms_some, (hargs q hq ⟨_, _, hc⟩).2]
    exact terms_some.1 h5
  · intro s' hs'
    rw [hk] at hs'
    cases hs'
    exact p1
  · intro s' fr' l' hs' hl' q hq
    rw [hk] at hs'
    cases hs'
    rw [e1, h2] at hl'
    cases hl'
    obtain ⟨fr', t, hc⟩ := hcell q hq
    exact (hargs q hq ⟨_, _, hc⟩).1

theorem Alone.run {F : FloatOf} {ops : List Op} {w : World} {a : Addr} {p : Plan} (h : Alone w a p)
    (hq : Along F (fun w op => ¬ AsksFor a .actions w op) w ops) : Alone (w.run F ops) a p := by
  induction ops generalizing w with
  | nil => exact h
  | cons op ops ih => exact ih (h.step hq.1) hq.2

theorem alone_new {w : World} {p : Plan} (hc : Closed w) :
    Alone (w.storePlan p) (w.heap.length + p.steps.length + 1) p := by
  rw [storePlan_eq]
  have hplan : ∀ x y : Obj, (w.heap ++ (p.steps.map (fun q => Obj.cell false (.terms q.2)) ++ [x, y]))[w.heap.length + p.steps.length + 1]? =
      some y := by
    intro x y
    rw [Nat.add_assoc, getElem?_new, List.getElem?_append_right (by simp)]
    simp
  have hlist : ∀ x y : Obj, (w.heap ++ (p.steps.map (fun q => Obj.cell false (.terms q.2)) ++ [x, y]))[w.heap.length + p.steps.length]? =
      some x := by
    intro x y
    rw [getElem?_new, List.getElem?_append_right (by simp)]
    simp
  have hval : ∀ (x y : Obj), List.Forall₂ (fun (q : Str × Addr) (r : Str × List Term) => r.1 = q.1 ∧
      (w.heap ++ (p.steps.map (fun q => Obj.cell false (.terms q.2)) ++ [x, y]) : Heap).terms q.2 = some r.2)
      ((p.steps.map Prod.fst).zip (List.range' w.heap.length p.steps.length)) p.steps := by
    intro x y
    rw [List.forall₂_iff_get]
    refine ⟨by simp, ?_⟩
    intro i h1 h2
    simp only [List.get_eq_getElem, List.getElem_zip, List.getElem_map, List.getElem_range', true_and, Nat.one_mul]
    rw [terms_some]
    refine ⟨false, ?_⟩
    rw [getElem?_new, List.getElem?_append_left (by simpa using h2)]
    simp [h2]
  have hrefs : ∀ (i : Nat) (o : Obj) (s : List (Str × Addr)) (t : Addr),
      (p.steps.map (fun q => Obj.cell false (.terms q.2)) ++ [.cell false (.steps s), .plan t])[i]? = some o →
      (∃ l, o = .cell false (.terms l)) ∨ i = p.steps.length ∧ o = .cell false (.steps s) ∨ i = p.steps.length + 1 ∧ o = .plan t := by
    intro i o s t h
    rw [List.getElem?_append] at h
    split at h
    · left
      have := List.mem_of_getElem? h
      simp only [List.mem_map] at this
      obtain ⟨q, _, rfl⟩ := this
      exact ⟨_, rfl⟩
    · rename_i hlt
      right
      simp only [List.length_map] at h hlt
      rcases two_cases h with ⟨hi, rfl⟩ | ⟨hi, rfl⟩
      · exact .inl ⟨by omega, rfl⟩
      · exact .inr ⟨by omega, rfl⟩
  refine ⟨plan_some.2 ⟨_, false, _, hplan _ _, hlist _ _, stepValues_some.2 (hval _ _)⟩, ?_, ?_⟩
  · intro s hs
    rw [hplan] at hs
    simp only [Option.some.injEq, Obj.plan.injEq] at hs
    subst hs
    refine private_new hc (by omega) (by simp) (by simp) ?_
    intro i o h hne
    rcases hrefs i o _ _ h with ⟨l, rfl⟩ | ⟨rfl, rfl⟩ | ⟨rfl, rfl⟩
    · simp [Obj.refs]
    · simp only [Obj.refs, List.mem_map, not_exists, not_and]
      rintro ⟨n, y⟩ hy rfl
      have := (List.of_mem_zip hy).2
      simp only [List.mem_range'_1] at this
      omega
    · omega
  · intro s fr l hs hl q hq
    rw [hplan] at hs
    simp only [Option.some.injEq, Obj.plan.injEq] at hs
    subst hs
    rw [hlist] at hl
    simp only [Option.some.injEq, Obj.cell.injEq, Cell.steps.injEq] at hl
    obtain ⟨_, rfl⟩ := hl
    obtain ⟨n, y⟩ := q
    have hy := (List.of_mem_zip hq).2
    simp only [List.mem_range'_1] at hy
    refine private_new hc hy.1 (by simp; omega) (by simp; omega) ?_
    intro i o h hne
    rcases hrefs i o _ _ h with ⟨l, rfl⟩ | ⟨rfl, rfl⟩ | ⟨rfl, rfl⟩
    · simp [Obj.refs]
    · omega
    · simp only [Obj.refs, List.mem_singleton]
      omega

end Pddl.Share
