/- C16-C23: cycles, type hierarchies, type checking, requirements, domains. -/
import Verif.Proofs.Types
import Verif.Proofs.DecEq
import Mathlib.Data.Fintype.EquivFin
import Mathlib.Data.Set.Finite.List

namespace Pddl.Props
open Pddl Spec

/-! ### C16 -/

/-- `find_cycle` terminates on every graph, with exactly one result. -/
theorem C16_terminates (g : Graph) : ∃ r, FindCycle g r ∧ ∀ r', FindCycle g r' → r' = r :=
  ⟨findCycle g, findCycle_spec g, fun _ h => findCycle_det h (findCycle_spec g)⟩

/-- It returns `None` iff the graph has no cycle. -/
theorem C16_exact (g : Graph) : FindCycle g none ↔ ¬ Cyclic g := findCycle_none_iff

/-- A returned sequence is a walk whose last node has an edge to a node of the walk. -/
theorem C16_path (g : Graph) (p : List Str) (h : FindCycle g (some p)) :
    Walk g p ∧ ∃ a, p.getLast? = some a ∧ ∃ b ∈ p, Edge g a b := by
  obtain ⟨n, h⟩ := h
  obtain ⟨h1, a, ha, h2⟩ := run_sound stackOk_init h
  exact ⟨h1, a, ha, h2⟩

/-- A lead-in `c` before the cycle `a -> b -> a` is part of the returned sequence. -/
example : FindCycle [(s%"c", some [s%"a"]), (s%"a", some [s%"b"]), (s%"b", some [s%"a"])]
    (some [s%"c", s%"a", s%"b"]) := ⟨10, by decide +kernel⟩
example : FindCycle [(s%"a", some [s%"b", s%"c"]), (s%"b", some [s%"c"]), (s%"c", none)] none :=
  ⟨20, by decide +kernel⟩

/-! ### C17 -/

/-- `Types(d, requirements)` succeeds iff all names are type names and the
hierarchy is in order. -/
theorem C17_accepted (d : TypeDict) (rs : List Req) (hd : IsDict d) :
    (∃ d', mkTypes d rs = .ok d') ↔ TypeNamesOk d ∧ HierarchyOk d rs := by
  constructor
  · rintro ⟨d', h⟩
    obtain ⟨h1, h2, _⟩ := (mkTypes_ok hd).mp h
    exact ⟨h1, h2⟩
  · rintro ⟨h1, h2⟩
    exact ⟨_, (mkTypes_ok hd).mpr ⟨h1, h2, rfl⟩⟩

/-- In an accepted hierarchy there is no infinite chain of supertypes. -/
theorem C17_wellfounded (d d' : TypeDict) (rs : List Req) (hd : IsDict d)
    (h : mkTypes d rs = .ok d') : ¬ ∃ chain : Nat → Str, ∀ i, Parent d (chain i) (chain (i + 1)) := by
  rintro ⟨s, hs⟩
  obtain ⟨_, h2, _⟩ := (mkTypes_ok hd).mp h
  have hk : ∀ i, s i ∈ d.map Prod.fst := fun i =>
    List.mem_map.mpr ⟨_, lookup_mem (hs i).1, rfl⟩
  have hr : ∀ i k, Relation.TransGen (Parent d) (s i) (s (i + k + 1)) := by
    intro i k
    induction k with
    | zero => exact .single (hs i)
    | succ k ih => exact .tail ih (hs (i + k + 1))
  let f : Nat → {x // x ∈ d.map Prod.fst} := fun i => ⟨s i, hk i⟩
  have hfin : Finite {x // x ∈ d.map Prod.fst} := List.finite_toSet _
  have hinj := not_injective_infinite_finite f
  simp only [Function.Injective, not_forall] at hinj
  obtain ⟨i, j, he, hne⟩ := hinj
  have he : s i = s j := congrArg Subtype.val he
  rcases Nat.lt_or_gt_of_ne hne with hlt | hlt
  · obtain ⟨k, rfl⟩ := Nat.exists_eq_add_of_lt hlt
    have := hr i k
    rw [← he] at this
    exact h2.acyclic _ this
  · obtain ⟨k, rfl⟩ := Nat.exists_eq_add_of_lt hlt
    have := hr j k
    rw [he] at this
    exact h2.acyclic _ this

/-- A rejected hierarchy of proper type names is rejected with a validation error. -/
theorem C17_rejected (d : TypeDict) (rs : List Req) (hd : IsDict d) (hn : TypeNamesOk d)
    (h : ¬ HierarchyOk d rs) : mkTypes d rs = .error .validation := by
  unfold mkTypes
  rw [(toTypes_ok hd).mpr ⟨hn, rfl⟩, ok_bind]
  cases hc : checkTypeDict (cleanDict d) rs with
  | ok u => exact absurd ((checkTypeDict_ok hd).mp hc) h
  | error e => rw [checkTypeDict_error hc]; rfl

example : mkTypes [(s%"truck", some s%"vehicle"), (s%"vehicle", some s%"object")] [.typing]
    = .ok [(s%"truck", some s%"vehicle"), (s%"vehicle", some s%"object")] := by decide +kernel
example : mkTypes [(s%"a", some s%"b"), (s%"b", some s%"a")] [.typing] = .error .validation := by
  decide +kernel

/-! ### C18 -/

/-- The type checker accepts a formula or effect iff all its terms are well-typed. -/
theorem C18_formula (c : TCtx) (e : Expr) :
    c.checkExpr e = .ok () ↔ WellTyped (· ∈ c.all) c.reqs e := checkExpr_ok

/-- A collection of terms, formulas or actions is accepted iff every member is. -/
theorem C18_collections (c : TCtx) (ts : List Term) (es : List Expr) (as : List Action) :
    (checkEach c.checkTerm ts = .ok () ↔ ∀ t ∈ ts, WellTypedTerm (· ∈ c.all) c.reqs t) ∧
    (checkEach c.checkExpr es = .ok () ↔ ∀ e ∈ es, WellTyped (· ∈ c.all) c.reqs e) ∧
    ((∀ a ∈ as, a.pre ≠ none ∧ a.eff ≠ none) →
      (checkEach c.checkAction as = .ok () ↔ ∀ a ∈ as, WellTypedAction (· ∈ c.all) c.reqs a)) := by
  refine ⟨checkTerms_ok, ?_, ?_⟩
  · rw [checkEach_ok]; simp only [checkExpr_ok]
  · intro h
    rw [checkEach_ok]
    simp only [checkAction_ok]
    constructor
    · intro h1 a ha; exact (h1 a ha).2.2
    · intro h1 a ha; exact ⟨(h a ha).1, (h a ha).2, h1 a ha⟩

/-- An action with precondition and effect is accepted iff all its terms (parameters
included) are well-typed. -/
theorem C18_action (c : TCtx) (a : Action) (hp : a.pre ≠ none) (he : a.eff ≠ none) :
    c.checkAction a = .ok () ↔ WellTypedAction (· ∈ c.all) c.reqs a := by
  rw [checkAction_ok]; simp [hp, he]

/-- A derived predicate is accepted iff the terms of its head and its condition are
well-typed. -/
theorem C18_derived (c : TCtx) (d : Derived) : c.checkDerived d = .ok () ↔
    (∀ t ∈ d.pred.terms, WellTypedTerm (· ∈ c.all) c.reqs t) ∧ WellTyped (· ∈ c.all) c.reqs d.cond := by
  unfold TCtx.checkDerived
  rw [bind_unit_ok, checkTerms_ok, checkExpr_ok]

/-- A formula that is not accepted raises a validation error. -/
theorem C18_error (c : TCtx) (e : Expr) (h : ¬ WellTyped (· ∈ c.all) c.reqs e) :
    c.checkExpr e = .error .validation := by
  cases hc : c.checkExpr e with
  | ok u => exact absurd (checkExpr_ok.mp hc) h
  | error x => rw [checkExpr_error hc]

/-- (forall (?x - t) (p ?x)) needs `t` declared and typing in force. -/
def demoTyped : Expr := .quant .all [⟨s%"x", [s%"t"]⟩] (.pred ⟨s%"p", [.var ⟨s%"x", [s%"t"]⟩]⟩)
example : (TCtx.checkExpr ⟨[s%"t"], [.adl]⟩ demoTyped = .ok ()) ∧
    (TCtx.checkExpr ⟨[s%"t"], [.strips]⟩ demoTyped = .error .validation) ∧
    (TCtx.checkExpr ⟨[s%"u"], [.typing]⟩ demoTyped = .error .validation) := by decide +kernel

/-! ### C19 -/

/-- The effective requirement set: exactly the requirements in force. -/
theorem C19_closure (rs : List Req) (r : Req) : r ∈ extendReqs rs ↔ InForce rs r := mem_extendReqs

theorem C19_contains (rs : List Req) (r : Req) (h : r ∈ rs) : r ∈ extendReqs rs :=
  mem_extendReqs.mpr (Or.inl h)

theorem C19_monotone (rs rs' : List Req) (h : ∀ r ∈ rs, r ∈ rs') (r : Req) (hr : r ∈ extendReqs rs) :
    r ∈ extendReqs rs' := by
  rw [mem_extendReqs] at *
  rcases hr with hr | ⟨h1, h2⟩ | ⟨h1, h2⟩ | ⟨h1, h2⟩
  · exact Or.inl (h r hr)
  · exact Or.inr (Or.inl ⟨h _ h1, h2⟩)
  · exact Or.inr (Or.inr (Or.inl ⟨h _ h1, h2⟩))
  · exact Or.inr (Or.inr (Or.inr ⟨h _ h1, h2⟩))

theorem C19_idempotent (rs : List Req) (r : Req) : r ∈ extendReqs (extendReqs rs) ↔ r ∈ extendReqs rs := by
  constructor
  · intro h
    rw [mem_extendReqs] at h
    have hq : Req.quantifiedPrecondition ∈ extendReqs rs → Req.quantifiedPrecondition ∈ rs := by
      rw [mem_extendReqs]; simp [InForce]
    have ha : Req.adl ∈ extendReqs rs → Req.adl ∈ rs := by rw [mem_extendReqs]; simp [InForce]
    have hf : Req.fluents ∈ extendReqs rs → Req.fluents ∈ rs := by rw [mem_extendReqs]; simp [InForce]
    rcases h with h | ⟨h1, h2⟩ | ⟨h1, h2⟩ | ⟨h1, h2⟩
    · exact h
    · exact mem_extendReqs.mpr (Or.inr (Or.inl ⟨hq h1, h2⟩))
    · exact mem_extendReqs.mpr (Or.inr (Or.inr (Or.inl ⟨ha h1, h2⟩)))
    · exact mem_extendReqs.mpr (Or.inr (Or.inr (Or.inr ⟨hf h1, h2⟩)))
  · exact C19_contains _ r

example : Req.universalPrecondition ∈ extendReqs [.adl] ∧ Req.fluents ∉ extendReqs [.numericFluents] := by
  decide +kernel

/-! ### C20 -/

/-- The full statement: only the effective requirement set matters. -/
def C20_full : Prop :=
  ∀ (d : TypeDict) (rs rs' : List Req), IsDict d → (∀ r, r ∈ extendReqs rs ↔ r ∈ extendReqs rs') →
    ((∃ d', mkTypes d rs = .ok d') ↔ ∃ d', mkTypes d rs' = .ok d')

/-- It is false: `:adl` alone is rejected, `:adl :typing` is accepted. -/
theorem C20_fails : ¬ C20_full := by
  intro h
  have := h [(s%"a", some s%"b")] [.adl] [.adl, .typing] (by simp [IsDict]) (by
    intro r; rw [mem_extendReqs, mem_extendReqs]; simp [InForce]; tauto)
  obtain ⟨d', hd⟩ := this.mpr ⟨[(s%"a", some s%"b")], by decide +kernel⟩
  have : mkTypes [(s%"a", some s%"b")] [.adl] = .error .validation := by decide +kernel
  rw [this] at hd
  simp at hd

/-- What holds: a dictionary without supertypes is accepted whatever the requirements,
and otherwise acceptance depends on whether `:typing` itself is declared. -/
theorem C20_partial (d : TypeDict) (rs rs' : List Req) (hd : IsDict d)
    (h : (∃ a b, Parent d a b) → (Req.typing ∈ rs ↔ Req.typing ∈ rs')) :
    (∃ d', mkTypes d rs = .ok d') ↔ ∃ d', mkTypes d rs' = .ok d' := by
  rw [C17_accepted _ _ hd, C17_accepted _ _ hd]
  constructor
  · rintro ⟨h1, h2⟩
    exact ⟨h1, fun e => (h e).mp (h2.typing e), h2.object, h2.acyclic⟩
  · rintro ⟨h1, h2⟩
    exact ⟨h1, fun e => (h e).mpr (h2.typing e), h2.object, h2.acyclic⟩

example : mkTypes [(s%"a", none)] [.adl] = .ok [(s%"a", none)] := by decide +kernel

/-! ### C22 -/

/-- Which functions need which requirement. -/
def FunctionsOk (fs : FunDict) (rs : List Req) : Prop :=
  ((∃ p ∈ fs, p.1.name = "total-cost".toList) → Req.actionCosts ∈ rs) ∧
  ((∃ p ∈ fs, p.1.name ≠ "total-cost".toList) → Req.numericFluents ∈ rs ∨ Req.fluents ∈ rs)

/-- The check of the functions passes iff `total-cost` comes with `:action-costs` and
other functions with `:numeric-fluents` or `:fluents`. -/
theorem C22_functions (fs : FunDict) (rs : List Req) :
    checkTotalCost fs rs = .ok () ↔ FunctionsOk fs rs := checkTotalCost_ok

theorem C22_domain (a : DomainArgs) (d : Domain) (ht : IsDict a.types) (h : mkDomain a = .ok d) :
    FunctionsOk a.functions a.reqs := ((mkDomain_ok ht).mp h).2.2.2.1

/-- Without functions neither requirement is needed. -/
theorem C22_none (rs : List Req) : checkTotalCost [] rs = .ok () := rfl

example : checkTotalCost [(⟨s%"total-cost", []⟩, none), (⟨s%"f", []⟩, none)] [.actionCosts]
    = .error .validation := by decide +kernel
example : checkTotalCost [(⟨s%"total-cost", []⟩, none), (⟨s%"f", []⟩, none)] [.actionCosts, .fluents]
    = .ok () := by decide +kernel

/-! ### C21 and C23 -/

/-- The parts of a domain are in order. -/
structure DomainOk (a : DomainArgs) : Prop where
  name : ValidName a.name
  typeNames : TypeNamesOk a.types
  hierarchy : HierarchyOk a.types a.reqs
  functions : FunctionsOk a.functions a.reqs
  constants : ∀ t ∈ firstOcc Term.pyEq a.constants, WellTypedTerm (Declared a.types) a.reqs t
  predicates : ∀ p ∈ firstOcc Pred.pyEq a.predicates, ∀ t ∈ p.terms,
    WellTypedTerm (Declared a.types) a.reqs t
  actions : ∀ x ∈ firstOcc Action.pyEq a.actions, WellTypedAction (Declared a.types) a.reqs x
  derived : ∀ x ∈ firstOcc Derived.pyEq a.derived, ∀ t ∈ x.pred.terms,
    WellTypedTerm (Declared a.types) a.reqs t

/-- The full statement. (Collections are sets: of equal elements the first is kept,
`firstOcc`.) -/
def C21_full : Prop :=
  ∀ a : DomainArgs, IsDict a.types → ((∃ d, mkDomain a = .ok d) ↔ DomainOk a)

/-- It is false: typed terms in the head of a derived predicate are accepted without
the typing requirement. -/
theorem C21_fails : ¬ C21_full := by
  intro h
  have := h { name := s%"d", types := [(s%"t", none)],
              derived := [⟨⟨s%"p", [.var ⟨s%"x", [s%"t"]⟩]⟩, .bin .and []⟩] } (by simp [IsDict])
  have h1 := (this.mp ⟨_, rfl⟩).derived ⟨⟨s%"p", [.var ⟨s%"x", [s%"t"]⟩]⟩, .bin .and []⟩
    (by simp [firstOcc]) (.var ⟨s%"x", [s%"t"]⟩) (by simp)
  have := h1.2 (by simp [Term.tags])
  simp [HasTyping] at this

/-- The exact condition: as in `DomainOk`, except that the heads of derived predicates
only need declared types, and that actions need both a precondition and an effect. -/
theorem C21_partial (a : DomainArgs) (ht : IsDict a.types) :
    (∃ d, mkDomain a = .ok d) ↔
      ValidName a.name ∧ TypeNamesOk a.types ∧ HierarchyOk a.types a.reqs ∧
      FunctionsOk a.functions a.reqs ∧
      (∀ t ∈ firstOcc Term.pyEq a.constants, WellTypedTerm (Declared a.types) a.reqs t) ∧
      (∀ p ∈ firstOcc Pred.pyEq a.predicates, ∀ t ∈ p.terms, WellTypedTerm (Declared a.types) a.reqs t) ∧
      (∀ x ∈ firstOcc Action.pyEq a.actions, x.pre ≠ none ∧ x.eff ≠ none ∧
        WellTypedAction (Declared a.types) a.reqs x) ∧
      (∀ x ∈ firstOcc Derived.pyEq a.derived, ∀ t ∈ x.pred.terms, ∀ y ∈ t.tags, Declared a.types y) := by
  constructor
  · rintro ⟨d, h⟩
    obtain ⟨h1, h2, h3, h4, h5, h6, h7, h8, _⟩ := (mkDomain_ok ht).mp h
    exact ⟨h1, h2, h3, h4, h5, h6, h7, h8⟩
  · rintro ⟨h1, h2, h3, h4, h5, h6, h7, h8⟩
    exact ⟨_, (mkDomain_ok ht).mpr ⟨h1, h2, h3, h4, h5, h6, h7, h8, rfl⟩⟩

/-- What a domain object contains, given the arguments it was made from. -/
theorem C21_contents (a : DomainArgs) (d : Domain) (ht : IsDict a.types) (h : mkDomain a = .ok d) :
    d.name = a.name ∧ (∀ r, r ∈ d.reqs ↔ r ∈ a.reqs) ∧
    (∀ x y, d.types.lookup x = some (some y) ↔ Parent a.types x y) ∧
    d.constants = firstOcc Term.pyEq a.constants ∧ d.predicates = firstOcc Pred.pyEq a.predicates ∧
    d.functions = a.functions ∧ d.derived = firstOcc Derived.pyEq a.derived ∧
    d.actions = firstOcc Action.pyEq a.actions := by
  obtain ⟨_, _, _, _, _, _, _, _, rfl⟩ := (mkDomain_ok ht).mp h
  refine ⟨rfl, fun r => mem_reqSet, fun x y => parent_clean, dedup_firstOcc eqv_term _,
    dedup_firstOcc eqv_pred _, rfl, dedup_firstOcc eqv_derived _, dedup_firstOcc eqv_action _⟩

def demoDomainArgs : DomainArgs :=
  { name := s%"logistics", reqs := [.typing], types := [(s%"truck", some s%"vehicle")]
    constants := [.const s%"t1" (some s%"truck")]
    predicates := [⟨s%"at", [.var ⟨s%"x", [s%"vehicle"]⟩]⟩]
    actions := [⟨s%"go", [.var ⟨s%"x", [s%"truck"]⟩], some (.pred ⟨s%"at", [.var ⟨s%"x", [s%"truck"]⟩]⟩),
      some (.bin .and [])⟩] }
example : ∃ d, mkDomain demoDomainArgs = .ok d := ⟨_, rfl⟩

/-- The full statement of C23: omitting a part of an action does not matter. -/
def C23_full : Prop :=
  ∀ a : DomainArgs, IsDict a.types → DomainOk a → (∀ x ∈ a.actions, x.pre = none ∨ x.eff = none) →
    ∃ d, mkDomain a = .ok d

/-- It is false. -/
theorem C23_fails : ¬ C23_full := by
  intro h
  have := h { name := s%"d", actions := [⟨s%"go", [], none, some (.bin .and [])⟩] } (by simp [IsDict])
    ⟨(parseName_ok.mp (show parseName s%"d" = .ok s%"d" by decide +kernel)).2, by simp [TypeNamesOk],
     ⟨by simp [Parent], by simp [Parent], fun a h => by
       obtain ⟨b, h, _⟩ := Relation.TransGen.head'_iff.mp h
       simp [Parent] at h⟩, by simp [FunctionsOk], by simp [firstOcc], by simp [firstOcc],
     by simp [firstOcc, WellTypedAction, termsOpt, terms, termsAll], by simp [firstOcc]⟩ (by simp)
  obtain ⟨d, hd⟩ := this
  have : mkDomain { name := s%"d", actions := [⟨s%"go", [], none, some (.bin .and [])⟩] }
    = .error .notImplemented := rfl
  rw [this] at hd
  simp at hd

/-- In fact no domain can hold such an action. -/
theorem C23_never (a : DomainArgs) (d : Domain) (ht : IsDict a.types) (x : Action) (hx : x ∈ a.actions)
    (hp : x.pre = none ∨ x.eff = none) : mkDomain a ≠ .ok d := by
  intro h
  have h7 := ((mkDomain_ok ht).mp h).2.2.2.2.2.2.1
  rw [← dedup_firstOcc eqv_action] at h7
  obtain ⟨y, hy, e⟩ := memBy_iff.mp (dedupBy_cover (eq := Action.pyEq) (fun a => eqv_action.refl a) hx)
  obtain ⟨h1, h2, _⟩ := h7 y hy
  have e' : (x.pre.map Expr.norm = y.pre.map Expr.norm) ∧ (x.eff.map Expr.norm = y.eff.map Expr.norm) := by
    simp only [Action.pyEq, Bool.and_eq_true] at e
    exact ⟨optEq_iff.mp e.1.2, optEq_iff.mp e.2⟩
  rcases hp with hp | hp
  · rw [hp] at e'
    have := e'.1
    simp at this
    exact h1 this
  · rw [hp] at e'
    have := e'.2
    simp at this
    exact h2 this

end Pddl.Props
