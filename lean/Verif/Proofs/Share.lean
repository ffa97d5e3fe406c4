/-
What the calls of a client do to the heap (for C85).
-/
import Verif.Spec.Share
import Verif.Proofs.Problem

namespace Pddl.Share
open Spec

/-- The addresses an object mentions. -/
def Obj.refs : Obj → List Addr
  | .cell _ (.steps l) => l.map Prod.snd
  | .cell _ _ => []
  | .domain o => [o.types, o.functions]
  | .problem o => o.domain.toList ++ (match o.reqs_ with | .own a => [a] | _ => [])
  | .plan s => [s]

/-- The addresses a property of an object can return. -/
def Obj.given : Obj → Field → List Addr
  | .domain o, .types => [o.types]
  | .domain o, .functions => [o.functions]
  | .problem o, .domain => o.domain.toList
  | .problem o, .requirements => match o.reqs_ with | .own a => [a] | _ => []
  | .plan s, .actions => [s]
  | .cell _ (.steps l), .args _ => l.map Prod.snd
  | _, _ => []

/-- Addresses and objects that come into being. -/
inductive Effect (w : World) (op : Op) : World → Prop
  | nothing : Effect w op w
  | make (os : List Obj) (vs : List Addr) :
      (∀ v ∈ vs, w.heap.length ≤ v ∧ v < w.heap.length + os.length) →
      (∀ o ∈ os, ∀ x ∈ o.refs, x ∈ w.vars ∨ w.heap.length ≤ x ∧ x < w.heap.length + os.length) →
      Effect w op ⟨w.heap ++ os, w.vars ++ vs⟩
  | write (x : Nat) (l : Lit) (a : Addr) (c c' : Cell) : op = .write x l → w.vars[x]? = some a →
      w.heap[a]? = some (.cell false c') → c.like c' = true → (∀ b ∈ (Obj.cell false c).refs, b ∈ w.vars) →
      w.eval l = some c →
      Effect w op ⟨w.heap.set a (.cell false c), w.vars⟩
  | assign (x y : Nat) (a b : Addr) (o : ProbObj) (n : Str) : op = .setDomain x y → w.vars[x]? = some a → w.vars[y]? = some b →
      w.heap[a]? = some (.problem o) → (∃ d, w.heap.domain b = some d ∧ n = d.name) →
      Effect w op ⟨w.heap.set a (.problem { o with domain := some b, domainName_ := n }), w.vars⟩
  | reveal (x : Nat) (f : Field) (a b : Addr) (o : Obj) : op = .read x f → w.vars[x]? = some a → w.heap[a]? = some o →
      b ∈ o.given f → Effect w op ⟨w.heap, w.vars ++ [b]⟩

theorem addrs_mem {w : World} {l : List (Str × Nat)} {r : List (Str × Addr)} (h : w.addrs l = some r) :
    ∀ b ∈ r.map Prod.snd, b ∈ w.vars := by
  induction l generalizing r with
  | nil => simp only [World.addrs, Option.some.injEq] at h; subst h; simp
  | cons p l ih =>
    obtain ⟨n, x⟩ := p
    simp only [World.addrs, Option.bind_eq_bind, Option.bind_eq_some_iff, Option.some.injEq] at h
    obtain ⟨a, h1, r', h2, rfl⟩ := h
    intro b hb
    simp only [List.map_cons, List.mem_cons] at hb
    rcases hb with rfl | hb
    · exact List.mem_of_getElem? h1
    · exact ih h2 b hb

theorem eval_refs {w : World} {l : Lit} {c : Cell} (h : w.eval l = some c) (fr : Bool) :
    ∀ b ∈ (Obj.cell fr c).refs, b ∈ w.vars := by
  cases l <;> simp only [World.eval, Option.map_eq_some_iff, Option.some.injEq] at h
  case steps l =>
    obtain ⟨r, h, rfl⟩ := h
    exact addrs_mem h
  all_goals subst h; simp [Obj.refs]

theorem push_eq (w : World) (o : Obj) : w.push o = ⟨w.heap ++ [o], w.vars ++ [w.heap.length]⟩ := rfl

theorem effect_push {w : World} {op : Op} {o : Obj} (h : ∀ x ∈ o.refs, x ∈ w.vars) : Effect w op (w.push o) :=
  .make [o] [w.heap.length] (by simp) (fun o' ho x hx => by
    simp only [List.mem_singleton] at ho
    subst ho
    exact .inl (h x hx))

theorem effect_domain {w : World} {op : Op} {d : Domain} {fa : Option Addr} (h : ∀ a, fa = some a → a ∈ w.vars) :
    Effect w op (w.storeDomain d fa) := by
  cases fa with
  | none =>
    have := Effect.make (w := w) (op := op) [.cell false (.types d.types), .cell false (.funs d.functions),
      .domain ⟨d.name, d.reqs, w.heap.length, d.constants, d.predicates, w.heap.length + 1, d.derived, d.actions⟩] [w.heap.length + 2]
      (by simp) (by simp [Obj.refs])
    simpa [World.storeDomain, World.alloc, World.push] using this
  | some fa =>
    have := Effect.make (w := w) (op := op) [.cell false (.types d.types),
      .domain ⟨d.name, d.reqs, w.heap.length, d.constants, d.predicates, fa, d.derived, d.actions⟩] [w.heap.length + 1]
      (by simp) (by simp [Obj.refs, h fa rfl])
    simpa [World.storeDomain, World.alloc, World.push] using this

theorem effect_problem {w : World} {op : Op} {p : Problem} {da : Option Addr} (h : ∀ a, da = some a → a ∈ w.vars) :
    Effect w op (w.storeProblem p da) := by
  unfold World.storeProblem
  split
  · rename_i rs hr
    have := Effect.make (w := w) (op := op) [.cell false (.reqs rs),
      .problem ⟨p.name, none, p.domainName_, .own w.heap.length, p.objects, p.init, p.goal, p.metric⟩] [w.heap.length + 1]
      (by simp) (by simp [Obj.refs])
    simpa [World.alloc, World.push] using this
  · refine effect_push ?_
    intro x hx
    simp only [Obj.refs, List.append_nil, Option.mem_toList, Option.mem_def] at hx
    exact h x hx
  · refine effect_push ?_
    intro x hx
    simp only [Obj.refs, List.append_nil, Option.mem_toList, Option.mem_def] at hx
    exact h x hx

theorem storeArgs_eq (w : World) (l : List (Str × List Term)) :
    w.storeArgs l = (⟨w.heap ++ l.map (fun p => .cell false (.terms p.2)), w.vars⟩,
      (l.map Prod.fst).zip (List.range' w.heap.length l.length)) := by
  induction l generalizing w with
  | nil => simp [World.storeArgs]
  | cons p l ih =>
    obtain ⟨n, ts⟩ := p
    simp [World.storeArgs, ih, World.alloc, List.range'_succ]

theorem storePlan_eq (w : World) (p : Plan) :
    w.storePlan p = ⟨w.heap ++ (p.steps.map (fun q => .cell false (.terms q.2)) ++
      [.cell false (.steps ((p.steps.map Prod.fst).zip (List.range' w.heap.length p.steps.length))),
        .plan (w.heap.length + p.steps.length)]), w.vars ++ [w.heap.length + p.steps.length + 1]⟩ := by
  unfold World.storePlan
  rw [storeArgs_eq]
  simp [World.alloc, World.push, Nat.add_assoc]

theorem effect_plan {w : World} {op : Op} {p : Plan} : Effect w op (w.storePlan p) := by
  rw [storePlan_eq]
  refine .make _ _ (by simp; omega) ?_
  intro o ho x hx
  right
  simp only [List.mem_append, List.mem_map, List.mem_cons, List.not_mem_nil, or_false] at ho
  rcases ho with ⟨q, _, rfl⟩ | rfl | rfl
  · simp [Obj.refs] at hx
  · simp only [Obj.refs, List.mem_map] at hx
    obtain ⟨⟨n, y⟩, hy, rfl⟩ := hx
    have := (List.of_mem_zip hy).2
    simp only [List.mem_range'_1] at this
    simp only [List.length_append, List.length_map, List.length_cons, List.length_nil]
    omega
  · simp only [Obj.refs, List.mem_singleton] at hx
    subst hx
    simp only [List.length_append, List.length_map, List.length_cons, List.length_nil]
    omega

theorem effect_read {w : World} {x : Nat} {f : Field} {a : Addr} (ha : w.vars[x]? = some a) :
    Effect w (.read x f) (w.readField a f).1 := by
  unfold World.readField
  simp only
  split
  case h_13 h =>
    split
    · rename_i hl
      exact .reveal x _ a _ _ rfl ha h (List.mem_map.2 ⟨_, List.mem_of_getElem? hl, rfl⟩)
    · exact .nothing
  case h_9 h =>
    split
    · split
      · exact effect_push (by simp [Obj.refs])
      · exact .nothing
    · split
      · exact effect_push (by simp [Obj.refs])
      · exact effect_push (by simp [Obj.refs])
      · exact .reveal x _ a _ _ rfl ha h (by simp [Obj.given, *])
  case h_8 h =>
    split
    · exact .reveal x _ a _ _ rfl ha h (by simp [Obj.given, *])
    · exact .nothing
  all_goals
    first
    | exact .nothing
    | exact effect_push (by simp [Obj.refs])
    | (rename_i h; exact .reveal x _ a _ _ rfl ha h (by simp [Obj.given]))

theorem bind_var {w : World} {x : Option Nat} : ∀ a, (x.bind (fun x => w.vars[x]?)) = some a → a ∈ w.vars := by
  intro a h
  simp only [Option.bind_eq_some_iff] at h
  obtain ⟨x, _, h⟩ := h
  exact List.mem_of_getElem? h

/-- Every call does one of five things to the heap. -/
theorem step_effect (F : FloatOf) (w : World) (op : Op) : Effect w op (w.step F op).1 := by
  cases op with
  | new fr l =>
    simp only [World.step]
    split
    · rename_i c hc
      exact effect_push (eval_refs hc fr)
    · exact .nothing
  | write x l =>
    simp only [World.step]
    split
    · rename_i a c ha hc
      split
      · rename_i c' hc'
        split
        · rename_i hl
          exact .write x l a c c' rfl ha hc' hl (eval_refs hc false) hc
        · exact .nothing
      · exact .nothing
    · exact .nothing
  | domain name reqs types constants predicates functions derived actions =>
    simp only [World.step]
    split
    · exact .nothing
    · split
      · exact .nothing
      · exact effect_domain bind_var
  | problem name domain domainName reqs objects init goal metric =>
    simp only [World.step]
    split
    · exact .nothing
    · split
      · exact .nothing
      · exact effect_problem bind_var
  | plan x =>
    simp only [World.step]
    split
    · rename_i a ha
      split
      · exact effect_push (fun x hx => by
          simp only [Obj.refs, List.mem_singleton] at hx
          subst hx
          exact List.mem_of_getElem? ha)
      · exact .nothing
    · exact .nothing
  | parseDomain text =>
    simp only [World.step]
    split
    · exact effect_domain (fa := none) (fun a h => by cases h)
    · exact .nothing
  | parseProblem text =>
    simp only [World.step]
    split
    · exact effect_problem (da := none) (fun a h => by cases h)
    · exact .nothing
  | parsePlan text =>
    simp only [World.step]
    split
    · exact effect_plan
    · exact .nothing
  | setDomain x y =>
    simp only [World.step]
    split
    · rename_i a b ha hb
      split
      · rename_i o d p ho hd hp
        exact .assign x y a b o d.name rfl ha hb ho ⟨d, hd, rfl⟩
      · exact .nothing
    · exact .nothing
  | read x f =>
    simp only [World.step]
    split
    · rename_i a ha
      exact effect_read ha
    · exact .nothing

/-- No address that does not exist is held or mentioned. -/
structure Closed (w : World) : Prop where
  vars : ∀ a ∈ w.vars, a < w.heap.length
  refs : ∀ o ∈ w.heap, ∀ a ∈ o.refs, a < w.heap.length

theorem closed_start : Closed World.start := ⟨by simp [World.start], by simp [World.start]⟩

theorem given_refs {o : Obj} {f : Field} {b : Addr} (h : b ∈ o.given f) : b ∈ o.refs := by
  unfold Obj.given at h
  split at h
  · simp only [List.mem_singleton] at h; subst h; simp [Obj.refs]
  · simp only [List.mem_singleton] at h; subst h; simp [Obj.refs]
  · simp only [Obj.refs, List.mem_append]; exact .inl h
  · simp only [Obj.refs, List.mem_append]; exact .inr h
  · exact h
  · exact h
  · simp at h

theorem Effect.closed {w w' : World} {op : Op} (h : Effect w op w') (hc : Closed w) : Closed w' := by
  cases h with
  | nothing => exact hc
  | make os vs hv hr =>
    constructor
    · intro a ha
      simp only [List.mem_append, List.length_append] at ha ⊢
      rcases ha with ha | ha
      · have := hc.vars a ha; omega
      · exact (hv a ha).2
    · intro o ho a ha
      simp only [List.mem_append, List.length_append] at ho ⊢
      rcases ho with ho | ho
      · have := hc.refs o ho a ha; omega
      · rcases hr o ho a ha with h | h
        · have := hc.vars a h; omega
        · exact h.2
  | write x l a c c' _ ha hc' _ hr =>
    constructor
    · simpa using hc.vars
    · intro o ho b hb
      simp only [List.length_set]
      rcases List.mem_or_eq_of_mem_set ho with ho | rfl
      · exact hc.refs o ho b hb
      · exact hc.vars b (hr b hb)
  | assign x y a b o n _ ha hb ho _ =>
    constructor
    · simpa using hc.vars
    · intro o' ho' b' hb'
      simp only [List.length_set]
      rcases List.mem_or_eq_of_mem_set ho' with ho' | rfl
      · exact hc.refs o' ho' b' hb'
      · simp only [Obj.refs, Option.toList_some, List.cons_append, List.nil_append, List.mem_cons] at hb'
        rcases hb' with rfl | hb'
        · exact hc.vars _ (List.mem_of_getElem? hb)
        · refine hc.refs _ (List.mem_of_getElem? ho) b' ?_
          simp only [Obj.refs, List.mem_append]
          exact .inr hb'
  | reveal x f a b o _ ha ho hb =>
    constructor
    · intro a' ha'
      simp only [List.mem_append, List.mem_singleton] at ha'
      rcases ha' with ha' | rfl
      · exact hc.vars a' ha'
      · exact hc.refs o (List.mem_of_getElem? ho) _ (given_refs hb)
    · exact hc.refs

theorem step_closed {F : FloatOf} {w : World} {op : Op} (hc : Closed w) : Closed (w.step F op).1 := (step_effect F w op).closed hc

theorem run_closed {F : FloatOf} {ops : List Op} {w : World} (hc : Closed w) : Closed (w.run F ops) := by
  induction ops generalizing w with
  | nil => exact hc
  | cons op ops ih => exact ih (step_closed hc)

/-- Only the object at `a` mentions the address `x`. -/
structure Private (w : World) (a x : Addr) : Prop where
  vars : x ∉ w.vars
  refs : ∀ b o, w.heap[b]? = some o → b ≠ a → x ∉ o.refs
  lt : x < w.heap.length

/-- The contents of a private collection stay, and it stays private, unless the owner is asked for it. -/
theorem Effect.private_ {w w' : World} {op : Op} {a x : Addr} (h : Effect w op w') (hp : Private w a x)
    (hx : ∀ v f o, op = .read v f → w.vars[v]? = some a → w.heap[a]? = some o → x ∉ o.given f)
    (hxp : ∃ fr c, w.heap[x]? = some (.cell fr c)) :
    Private w' a x ∧ w'.heap[x]? = w.heap[x]? := by
  cases h with
  | nothing => exact ⟨hp, rfl⟩
  | make os vs hv hr =>
    refine ⟨⟨?_, ?_, ?_⟩, ?_⟩
    · simp only [List.mem_append, not_or]
      refine ⟨hp.vars, fun h => ?_⟩
      have := (hv x h).1
      have := hp.lt
      omega
    · intro b o hb hne
      rw [List.getElem?_append] at hb
      split at hb
      · exact hp.refs b o hb hne
      · intro hx'
        rcases hr o (List.mem_of_getElem? hb) x hx' with h | h
        · exact hp.vars h
        · have := hp.lt
          omega
    · have := hp.lt
      simp only [List.length_append]
      omega
    · rw [List.getElem?_append_left hp.lt]
  | write y l b c c' _ hb hc' _ hr =>
    have hne : b ≠ x := fun h => hp.vars (h ▸ List.mem_of_getElem? hb)
    refine ⟨⟨hp.vars, ?_, by simpa using hp.lt⟩, by rw [List.getElem?_set_ne hne]⟩
    intro b' o hb' hne'
    rw [List.getElem?_set] at hb'
    split at hb'
    · split at hb'
      · simp only [Option.some.injEq] at hb'
        subst hb'
        exact fun h => hp.vars (hr x h)
      · cases hb'
    · exact hp.refs b' o hb' hne'
  | assign y z b b2 o n _ hb hb2 ho _ =>
    have hne : b ≠ x := by
      rintro rfl
      obtain ⟨fr, c, hc⟩ := hxp
      rw [ho] at hc
      cases hc
    refine ⟨⟨hp.vars, ?_, by simpa using hp.lt⟩, by rw [List.getElem?_set_ne hne]⟩
    intro b' o' hb' hne'
    rw [List.getElem?_set] at hb'
    split at hb'
    · rename_i e
      subst e
      split at hb'
      · simp only [Option.some.injEq] at hb'
        subst hb'
        simp only [Obj.refs, Option.toList_some, List.cons_append, List.nil_append, List.mem_cons, not_or]
        refine ⟨fun h => hp.vars (h ▸ List.mem_of_getElem? hb2), fun h => hp.refs b _ ho hne' ?_⟩
        simp only [Obj.refs, List.mem_append]
        exact .inr h
      · cases hb'
    · exact hp.refs b' o' hb' hne'
  | reveal y f b b2 o e hb ho hb2 =>
    refine ⟨⟨?_, hp.refs, hp.lt⟩, rfl⟩
    simp only [List.mem_append, List.mem_singleton, not_or]
    refine ⟨hp.vars, ?_⟩
    rintro rfl
    by_cases hba : b = a
    · subst hba
      exact hx y f o e hb ho hb2
    · exact hp.refs b o ho hba (given_refs hb2)

/-- Domains and plans are never changed themselves. -/
theorem Effect.kept {w w' : World} {op : Op} {a : Addr} {o : Obj} (h : Effect w op w') (ho : w.heap[a]? = some o)
    (hk : ∀ fr c, o ≠ .cell fr c) (hq : ∀ p, o ≠ .problem p) : w'.heap[a]? = some o := by
  have hlt : a < w.heap.length := (List.getElem?_eq_some_iff.1 ho).1
  cases h with
  | nothing => exact ho
  | make os vs _ _ => rw [List.getElem?_append_left hlt]; exact ho
  | write y l b c c' _ hb hc' _ _ =>
    have hne : b ≠ a := by
      rintro rfl
      rw [ho] at hc'
      exact hk _ _ (Option.some.inj hc')
    rw [List.getElem?_set_ne hne]; exact ho
  | assign y z b b2 p n _ hb hb2 hp _ =>
    have hne : b ≠ a := by
      rintro rfl
      rw [ho] at hp
      exact hq _ (Option.some.inj hp)
    rw [List.getElem?_set_ne hne]; exact ho
  | reveal y f b b2 p _ _ _ _ => exact ho

/-- A collection stays unless it is written to. -/
theorem Effect.cell_kept {w w' : World} {op : Op} {a : Addr} {fr : Bool} {c : Cell} (h : Effect w op w')
    (ho : w.heap[a]? = some (.cell fr c)) (hw : ¬ WritesTo a w op) : w'.heap[a]? = some (.cell fr c) := by
  have hlt : a < w.heap.length := (List.getElem?_eq_some_iff.1 ho).1
  cases h with
  | nothing => exact ho
  | make os vs _ _ => rw [List.getElem?_append_left hlt]; exact ho
  | write y l b c c' e hb hc' _ _ =>
    have hne : b ≠ a := by
      rintro rfl
      exact hw ⟨y, l, e, hb⟩
    rw [List.getElem?_set_ne hne]; exact ho
  | assign y z b b2 p n _ hb hb2 hp _ =>
    have hne : b ≠ a := by
      rintro rfl
      rw [ho] at hp
      cases hp
    rw [List.getElem?_set_ne hne]; exact ho
  | reveal y f b b2 p _ _ _ _ => exact ho

/-- The domain at `a` with its dictionaries. -/
theorem domain_some {h : Heap} {a : Addr} {d : Domain} : h.domain a = some d ↔ ∃ o fr fr' ts fs, h[a]? = some (.domain o) ∧
    h[o.types]? = some (.cell fr (.types ts)) ∧ h[o.functions]? = some (.cell fr' (.funs fs)) ∧
    d = ⟨o.name, o.reqs, ts, o.constants, o.predicates, fs, o.derived, o.actions⟩ := by
  have ht : ∀ b ts, h.types b = some ts ↔ ∃ fr, h[b]? = some (.cell fr (.types ts)) := by
    intro b ts
    unfold Heap.types Heap.cell
    constructor
    · intro h'
      split at h'
      · rename_i d hd
        split at hd
        · rename_i fr c hc
          simp only [Option.some.injEq] at hd h'
          subst hd h'
          exact ⟨fr, hc⟩
        · cases hd
      · cases h'
    · rintro ⟨fr, e⟩
      rw [e]
  have hf : ∀ b ts, h.funs b = some ts ↔ ∃ fr, h[b]? = some (.cell fr (.funs ts)) := by
    intro b ts
    unfold Heap.funs Heap.cell
    constructor
    · intro h'
      split at h'
      · rename_i d hd
        split at hd
        · rename_i fr c hc
          simp only [Option.some.injEq] at hd h'
          subst hd h'
          exact ⟨fr, hc⟩
        · cases hd
      · cases h'
    · rintro ⟨fr, e⟩
      rw [e]
  unfold Heap.domain
  constructor
  · intro h'
    split at h'
    · rename_i o ho
      simp only [Option.bind_eq_bind, Option.bind_eq_some_iff, Option.some.injEq] at h'
      obtain ⟨ts, h1, fs, h2, rfl⟩ := h'
      obtain ⟨fr, h1⟩ := (ht _ _).1 h1
      obtain ⟨fr', h2⟩ := (hf _ _).1 h2
      exact ⟨o, fr, fr', ts, fs, ho, h1, h2, rfl⟩
    · cases h'
  · rintro ⟨o, fr, fr', ts, fs, h1, h2, h3, rfl⟩
    rw [h1]
    simp only [Option.bind_eq_bind, Option.bind_eq_some_iff, Option.some.injEq]
    exact ⟨ts, (ht _ _).2 ⟨fr, h2⟩, fs, (hf _ _).2 ⟨fr', h3⟩, rfl⟩

end Pddl.Share
