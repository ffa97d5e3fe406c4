/-
Clients that do not get hold of the collections of domains and problems keep them consistent (for C85).
-/
import Verif.Proofs.ShareProb

namespace Pddl.Share
open Spec

/-- All domains and problems are in order. -/
structure Sound (w : World) : Prop where
  closed : Closed w
  dicts : Dicts w
  domains : ∀ a o, w.heap[a]? = some (.domain o) → ∃ d, Isolated w a d ∧ ExistsDomain d
  problems : ∀ a o, w.heap[a]? = some (.problem o) → ∃ p, Kept w a p ∧ ∀ d, p.domain = some d → p.check d = .ok ()

theorem Effect.back {w w' : World} {op : Op} {a : Addr} {o : Obj} (h : Effect w op w') (ho : w'.heap[a]? = some o)
    (hlt : a < w.heap.length) (hc : ∀ fr c, o ≠ .cell fr c) :
    w.heap[a]? = some o ∨ ∃ p q, o = .problem p ∧ w.heap[a]? = some (.problem q) := by
  cases h with
  | nothing => exact .inl ho
  | make os vs _ _ => rw [List.getElem?_append_left hlt] at ho; exact .inl ho
  | write y l b c c' _ hb hc' _ _ =>
    rw [List.getElem?_set] at ho
    split at ho
    · split at ho
      · simp only [Option.some.injEq] at ho
        exact absurd ho.symm (hc _ _)
      · cases ho
    · exact .inl ho
  | assign y z b b2 p n e hb hb2 hp _ =>
    rw [List.getElem?_set] at ho
    split at ho
    · rename_i e
      subst e
      split at ho
      · simp only [Option.some.injEq] at ho
        exact .inr ⟨_, p, ho.symm, hp⟩
      · contradiction
    · exact .inl ho
  | reveal y f b b2 p _ _ _ _ => exact .inl ho

/-- New objects other than collections and plans come from the constructors and parsers. -/
theorem new_object {F : FloatOf} {w : World} {op : Op} {a : Addr} {o : Obj} (h : (w.step F op).1.heap[a]? = some o)
    (ha : w.heap.length ≤ a) (hc : ∀ fr c, o ≠ .cell fr c) (hp : ∀ s, o ≠ .plan s) (hd : Op.discreet op) :
    (Op.makesDomain op ∧ (w.step F op).2 = .ok ()) ∨ (Op.makesProblem op ∧ (w.step F op).2 = .ok ()) := by
  have hold : ∀ vs, (World.mk w.heap vs).heap[a]? = some o → False := fun vs h => by
    have := (List.getElem?_eq_some_iff.1 h).1
    simp only at this
    omega
  have hset : ∀ b x, (w.heap.set b x)[a]? = some o → False := fun b x h => by
    have := (List.getElem?_eq_some_iff.1 h).1
    simp only [List.length_set] at this
    omega
  have hpush : ∀ x : Obj, (w.push x).heap[a]? = some o → o = x := fun x h => by
    simp only [World.push] at h
    rw [List.getElem?_append_right ha] at h
    have := List.mem_of_getElem? h
    simpa using this
  cases op with
  | new fr l =>
    simp only [World.step] at h
    split at h
    · exact absurd (hpush _ h) (hc _ _)
    · exact (hold w.vars h).elim
  | write x l =>
    simp only [World.step] at h
    split at h
    · split at h
      · split at h
        · exact (hset _ _ h).elim
        · exact (hold w.vars h).elim
      · exact (hold w.vars h).elim
    · exact (hold w.vars h).elim
  | domain name reqs types constants predicates functions derived actions =>
    cases functions with
    | some x => exact hd.elim
    | none =>
      left
      refine ⟨trivial, ?_⟩
      simp only [World.step] at h ⊢
      split at h
      · exact (hold w.vars h).elim
      · split at h
        · exact (hold w.vars h).elim
        · rfl
  | problem name domain domainName reqs objects init goal metric =>
    right
    refine ⟨trivial, ?_⟩
    simp only [World.step] at h ⊢
    split at h
    · exact (hold w.vars h).elim
    · split at h
      · exact (hold w.vars h).elim
      · rfl
  | plan x =>
    simp only [World.step] at h
    split at h
    · split at h
      · exact absurd (hpush _ h) (hp _)
      · exact (hold w.vars h).elim
    · exact (hold w.vars h).elim
  | parseDomain text =>
    left
    refine ⟨trivial, ?_⟩
    simp only [World.step] at h ⊢
    split at h
    · rfl
    · exact (hold w.vars h).elim
  | parseProblem text =>
    right
    refine ⟨trivial, ?_⟩
    simp only [World.step] at h ⊢
    split at h
    · rfl
    · exact (hold w.vars h).elim
  | parsePlan text =>
    simp only [World.step] at h
    split at h
    · rw [storePlan_eq] at h
      simp only at h
      rw [List.getElem?_append_right ha] at h
      have := List.mem_of_getElem? h
      simp only [List.mem_append, List.mem_map, List.mem_cons, List.not_mem_nil, or_false] at this
      rcases this with ⟨q, _, rfl⟩ | rfl | rfl
      · exact absurd rfl (hc _ _)
      · exact absurd rfl (hc _ _)
      · exact absurd rfl (hp _)
    · exact (hold w.vars h).elim
  | setDomain x y =>
    simp only [World.step] at h
    split at h
    · split at h
      · exact (hset _ _ h).elim
      · exact (hold w.vars h).elim
    · exact (hold w.vars h).elim
  | read x f =>
    simp only [World.step] at h
    split at h
    · rename_i b hb
      exfalso
      unfold World.readField at h
      simp only at h
      split at h <;> (try split at h) <;> (try split at h) <;>
        first
        | exact (hold _ h).elim
        | exact absurd (hpush _ h) (hc _ _)
    · exact (hold w.vars h).elim

theorem discreet_asks {a : Addr} {w : World} {op : Op} (h : Op.discreet op) : ¬ AsksFor a .types w op ∧
    ¬ AsksFor a .functions w op ∧ ¬ AsksFor a .requirements w op :=
  ⟨fun ⟨_, e, _⟩ => by subst e; exact h, fun ⟨_, e, _⟩ => by subst e; exact h, fun ⟨_, e, _⟩ => by subst e; exact h⟩

theorem domainAt_exists {w : World} {a : Addr} {o : ProbObj} {p : Problem} (hp : w.heap.problem a = some p)
    (ho : w.heap[a]? = some (.problem o)) : w.heap.domainAt o.domain = some p.domain := by
  obtain ⟨o', d, rs, h1, h2, h3, rfl⟩ := problem_some.1 hp
  rw [h1, Option.some.injEq, Obj.problem.injEq] at ho
  subst ho
  exact h2

/-- Nobody can write to the dictionaries of a domain in order. -/
theorem Sound.not_changes {w : World} (h : Sound w) {a : Addr} {op : Op} : ¬ ChangesDomainOf a w op := by
  rintro ⟨o, b, d, h1, h2, h3, h4⟩
  obtain ⟨d', hi, _⟩ := h.domains b d h3
  rcases h4 with h4 | h4
  · exact (hi.types d h3).not_writes h4
  · exact (hi.functions d h3).not_writes h4

theorem store_problem_addr {w : World} {p : Problem} {da : Option Addr} {b : Addr} {o : ProbObj}
    (h : (w.storeProblem p da).heap[b]? = some (.problem o)) (hb : w.heap.length ≤ b) :
    (w.storeProblem p da).vars = w.vars ++ [b] := by
  obtain ⟨i, rfl⟩ := Nat.exists_eq_add_of_le hb
  unfold World.storeProblem at h ⊢
  split at h
  · simp only [World.alloc, World.push, List.append_assoc, List.length_append, List.length_cons, List.length_nil, Nat.zero_add,
      List.cons_append, List.nil_append] at h ⊢
    rw [getElem?_new] at h
    rcases two_cases h with ⟨rfl, e⟩ | ⟨rfl, e⟩
    · cases e
    · rfl
  all_goals
    simp only [World.push] at h ⊢
    rw [getElem?_new] at h
    rcases i with _ | i
    · rfl
    · simp at h

theorem store_domain_addr {w : World} {d : Domain} {b : Addr} {o : DomObj}
    (h : (w.storeDomain d none).heap[b]? = some (.domain o)) (hb : w.heap.length ≤ b) : b = w.heap.length + 2 := by
  obtain ⟨i, rfl⟩ := Nat.exists_eq_add_of_le hb
  rw [storeDomain_none] at h
  simp only at h
  rw [getElem?_new] at h
  rcases three_cases h with ⟨rfl, e⟩ | ⟨rfl, e⟩ | ⟨rfl, e⟩
  · cases e
  · cases e
  · rfl

theorem store_domain_problem {w : World} {d : Domain} {b : Addr} {o : ProbObj}
    (h : (w.storeDomain d none).heap[b]? = some (.problem o)) (hb : w.heap.length ≤ b) : False := by
  obtain ⟨i, rfl⟩ := Nat.exists_eq_add_of_le hb
  rw [storeDomain_none] at h
  simp only at h
  rw [getElem?_new] at h
  rcases three_cases h with ⟨rfl, e⟩ | ⟨rfl, e⟩ | ⟨rfl, e⟩ <;> cases e

theorem store_problem_domain {w : World} {p : Problem} {da : Option Addr} {b : Addr} {o : DomObj}
    (h : (w.storeProblem p da).heap[b]? = some (.domain o)) (hb : w.heap.length ≤ b) : False := by
  obtain ⟨i, rfl⟩ := Nat.exists_eq_add_of_le hb
  unfold World.storeProblem at h
  split at h
  · simp only [World.alloc, World.push, List.append_assoc, List.length_append, List.length_cons, List.length_nil, Nat.zero_add,
      List.cons_append, List.nil_append] at h
    rw [getElem?_new] at h
    rcases two_cases h with ⟨rfl, e⟩ | ⟨rfl, e⟩ <;> cases e
  all_goals
    simp only [World.push] at h
    rw [getElem?_new] at h
    rcases i with _ | i <;> simp at h

theorem Sound.step {F : FloatOf} {w : World} {op : Op} (h : Sound w) (hd : Op.discreet op)
    (ha : Op.assigns op → (w.step F op).2 = .ok ()) : Sound (w.step F op).1 := by
  have he := step_effect F w op
  refine ⟨step_closed h.closed, dicts_step h.dicts op, ?_, ?_⟩
  · intro a o ho
    obtain ⟨q1, q2, _⟩ := discreet_asks (a := a) (w := w) hd
    by_cases hlt : a < w.heap.length
    · rcases he.back ho hlt (by simp) with h1 | ⟨_, _, e, _⟩
      · obtain ⟨d, hi, hx⟩ := h.domains a o h1
        exact ⟨d, hi.step q1 q2, hx⟩
      · cases e
    · have hle : w.heap.length ≤ a := by omega
      rcases new_object ho hle (by simp) (by simp) hd with ⟨m, hok⟩ | ⟨m, hok⟩
      · obtain ⟨d, hx, e⟩ := makes_domain h.dicts m hok
        rw [e] at ho ⊢
        rw [store_domain_addr ho hle]
        exact ⟨d, isolated_new h.closed, hx⟩
      · obtain ⟨p, da, e, _⟩ := makes_problem m hok
        rw [e] at ho
        exact (store_problem_domain ho hle).elim
  · intro a o ho
    obtain ⟨_, _, q3⟩ := discreet_asks (a := a) (w := w) hd
    by_cases hlt : a < w.heap.length
    · have hold : ∃ o', w.heap[a]? = some (.problem o') := by
        rcases he.back ho hlt (by simp) with h1 | ⟨_, q, _, h1⟩
        · exact ⟨_, h1⟩
        · exact ⟨q, h1⟩
      obtain ⟨o', ho'⟩ := hold
      obtain ⟨p, hk, hp⟩ := h.problems a o' ho'
      by_cases hs : SetsDomain a w op
      · obtain ⟨x, y, rfl, hx⟩ := hs
        have hok := ha trivial
        cases hy : w.vars[y]? with
        | none => simp [World.step, hx, hy] at hok
        | some b =>
          cases hdb : w.heap.domain b with
          | none => simp [World.step, hx, hy, ho', hdb] at hok
          | some d =>
            have hstep : w.step F (.setDomain x y) = (⟨w.heap.set a (.problem { o' with domain := some b, domainName_ := d.name }), w.vars⟩,
                (p.setDomain d).2) := by
              simp [World.step, hx, hy, ho', hdb, hk.view]
            have hdom : (w.step F (.setDomain x y)).1.heap.domain b = some d :=
              domain_step hdb (fun o _ => ⟨(fun ⟨_, _, e, _⟩ => by cases e), (fun ⟨_, _, e, _⟩ => by cases e)⟩)
            have hobj : (w.step F (.setDomain x y)).1.heap[a]? = some (.problem { o' with domain := some b, domainName_ := d.name }) := by
              rw [hstep]
              simp [hlt]
            obtain ⟨o2, d2, rs, h1, h2, h3, rfl⟩ := problem_some.1 hk.view
            rw [ho', Option.some.injEq, Obj.problem.injEq] at h1
            subst h1
            have hown : ∀ z, o'.reqs_ = .own z → Private (w.step F (.setDomain x y)).1 a z ∧
                (w.step F (.setDomain x y)).1.heap[z]? = w.heap[z]? := by
              intro z hz
              refine he.private_ (hk.own o' z ho' hz) (fun _ _ _ e => by cases e) ?_
              rw [hz] at h3
              simp only [Heap.reqsAt, Option.map_eq_some_iff] at h3
              obtain ⟨l, h3, _⟩ := h3
              obtain ⟨fr, h3⟩ := reqs_some.1 h3
              exact ⟨fr, _, h3⟩
            refine ⟨_, ⟨problem_some.2 ⟨_, some d, rs, hobj, ?_, ?_, rfl⟩, ?_⟩, ?_⟩
            · simp only [Heap.domainAt, hdom, Option.map_some]
            · simp only
              cases hq : o'.reqs_ with
              | none => rw [hq] at h3; exact h3
              | frozen l => rw [hq] at h3; exact h3
              | own z =>
                rw [hq] at h3
                simp only [Heap.reqsAt, Option.map_eq_some_iff] at h3 ⊢
                obtain ⟨l, h3, rfl⟩ := h3
                refine ⟨l, ?_, rfl⟩
                rw [reqs_some, (hown z hq).2]
                exact reqs_some.1 h3
            · intro o3 z ho3 hz
              rw [hobj, Option.some.injEq, Obj.problem.injEq] at ho3
              subst ho3
              exact (hown z hz).1
            · intro d' e
              simp only [Option.some.injEq] at e
              subst e
              rw [hstep] at hok
              exact hok
      · exact ⟨p, hk.step hs q3 h.not_changes, hp⟩
    · have hle : w.heap.length ≤ a := by omega
      rcases new_object ho hle (by simp) (by simp) hd with ⟨m, hok⟩ | ⟨m, hok⟩
      · obtain ⟨d, hx, e⟩ := makes_domain h.dicts m hok
        rw [e] at ho
        exact (store_domain_problem ho hle).elim
      · obtain ⟨p, da, e, h1, h2⟩ := makes_problem m hok
        obtain ⟨a', e', hk⟩ := kept_new h.closed h1
        rw [e] at ho ⊢
        have := store_problem_addr ho hle
        rw [e'] at this
        simp only [List.append_cancel_left_eq, List.cons.injEq, and_true] at this
        subst this
        exact ⟨p, hk, h2⟩

theorem Sound.run {F : FloatOf} {ops : List Op} {w : World} (h : Sound w)
    (hq : Along F (fun w op => Op.discreet op ∧ (Op.assigns op → (w.step F op).2 = .ok ())) w ops) : Sound (w.run F ops) := by
  induction ops generalizing w with
  | nil => exact h
  | cons op ops ih => exact ih (h.step hq.1.1 hq.1.2) hq.2

theorem sound_start : Sound World.start :=
  ⟨closed_start, dicts_start, by simp [World.start], by simp [World.start]⟩

/-! ### Domains with a dictionary of functions from outside -/

/-- A domain that uses the dictionary at `fa`, and whose dictionary of types nobody else has. -/
structure Guarded (w : World) (a fa : Addr) (d : Domain) : Prop where
  view : w.heap.domain a = some d
  types : ∀ o, w.heap[a]? = some (.domain o) → Private w a o.types ∧ o.functions = fa ∧ o.types ≠ fa

theorem Guarded.step {F : FloatOf} {w : World} {op : Op} {a fa : Addr} {d : Domain} (h : Guarded w a fa d)
    (ht : ¬ AsksFor a .types w op) (hf : ¬ WritesTo fa w op) : Guarded (w.step F op).1 a fa d := by
  have he := step_effect F w op
  obtain ⟨o, fr, fr', ts, fs, h1, h2, h3, rfl⟩ := domain_some.1 h.view
  have hk := he.kept h1 (by simp) (by simp)
  obtain ⟨hp, e, hne⟩ := h.types o h1
  obtain ⟨p1, e1⟩ := he.private_ hp (by
    intro v f o' e' hv ho hx
    rw [h1, Option.some.injEq] at ho
    subst ho
    cases f <;> simp only [Obj.given, List.not_mem_nil, List.mem_singleton] at hx
    · exact ht ⟨v, e', hv⟩
    · exact hne (hx.trans e)) ⟨_, _, h2⟩
  refine ⟨domain_some.2 ⟨o, fr, fr', ts, fs, hk, e1 ▸ h2, he.cell_kept h3 (e ▸ hf), rfl⟩, ?_⟩
  intro o' ho'
  rw [hk] at ho'
  cases ho'
  exact ⟨p1, e, hne⟩

theorem Guarded.run {F : FloatOf} {ops : List Op} {w : World} {a fa : Addr} {d : Domain} (h : Guarded w a fa d)
    (hq : Along F (fun w op => ¬ AsksFor a .types w op ∧ ¬ WritesTo fa w op) w ops) : Guarded (w.run F ops) a fa d := by
  induction ops generalizing w with
  | nil => exact h
  | cons op ops ih => exact ih (h.step hq.1.1 hq.1.2) hq.2

theorem funs_some {h : Heap} {b : Addr} {l : FunDict} : h.funs b = some l ↔ ∃ fr, h[b]? = some (.cell fr (.funs l)) := by
  unfold Heap.funs Heap.cell
  constructor
  · intro h'
    split at h'
    · rename_i d hd
      split at hd
      · rename_i fr c hc
        simp only [Option.some.injEq] at hd h'
        subst hd h'
        exact ⟨fr, hc⟩
      · cases hd
    · cases h'
  · rintro ⟨fr, e⟩
    rw [e]

/-- `Domain(...)` keeps the dictionary of functions it is given. -/
theorem guarded_new {F : FloatOf} {w : World} {name : Str} {reqs types constants predicates derived actions : Option Nat} {x : Nat}
    (hd : Dicts w) (hc : Closed w) (hok : (w.step F (.domain name reqs types constants predicates (some x) derived actions)).2 = .ok ()) :
    ∃ a fa d, w.vars[x]? = some fa ∧ ExistsDomain d ∧
      (w.step F (.domain name reqs types constants predicates (some x) derived actions)).1.vars = w.vars ++ [a] ∧
      Guarded (w.step F (.domain name reqs types constants predicates (some x) derived actions)).1 a fa d := by
  simp only [World.step] at hok ⊢
  split at hok
  · cases hok
  · rename_i args ha
    split at hok
    · cases hok
    · rename_i d hm
      have hx := domainArgs_types hd ha
      have hfun : d.functions = args.functions := by
        rw [((mkDomain_ok hx).1 hm).2.2.2.2.2.2.2.2]
        rfl
      have ha' := ha
      simp only [World.domainArgs, World.arg, Option.bind_eq_bind, Option.bind_eq_some_iff, Option.some.injEq] at ha'
      obtain ⟨_, _, _, _, _, _, _, _, fs, ⟨fa, hfa, hfs⟩, _, _, _, _, e⟩ := ha'
      obtain ⟨fr, hfs'⟩ := funs_some.1 hfs
      have hlt : fa < w.heap.length := hc.vars fa (List.mem_of_getElem? hfa)
      have h0 : ∀ os : List Obj, (w.heap ++ os)[w.heap.length]? = os[0]? := fun os => getElem?_new (i := 0)
      refine ⟨w.heap.length + 1, fa, d, hfa, ⟨args, hx, hm⟩, ?_⟩
      simp only [Option.bind_some, hfa]
      rw [storeDomain_some]
      refine ⟨rfl, domain_some.2 ⟨_, false, fr, _, fs, getElem?_new, h0 _, ?_, ?_⟩, ?_⟩
      · simp only
        rw [List.getElem?_append_left hlt]
        exact hfs'
      · have : d.functions = fs := by rw [hfun, ← e]
        rw [← this]
      · intro o ho
        rw [getElem?_new] at ho
        simp only [List.getElem?_cons_succ, List.getElem?_cons_zero, Option.some.injEq, Obj.domain.injEq] at ho
        subst ho
        refine ⟨private_new hc (Nat.le_refl _) (by simp) (by simp) ?_, rfl, by simp only; omega⟩
        intro i o h hne
        rcases two_cases h with ⟨rfl, rfl⟩ | ⟨rfl, rfl⟩
        · simp [Obj.refs]
        · omega

/-! ### Plans made from a list -/

theorem kept_run {F : FloatOf} {ops : List Op} {w : World} {a : Addr} {o : Obj} (ho : w.heap[a]? = some o)
    (hk : ∀ fr c, o ≠ .cell fr c) (hq : ∀ p, o ≠ .problem p) : (w.run F ops).heap[a]? = some o := by
  induction ops generalizing w with
  | nil => exact ho
  | cons op ops ih => exact ih ((step_effect F w op).kept ho hk hq)

end Pddl.Share
