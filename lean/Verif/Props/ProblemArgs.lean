/-
C65 and C66: what `Problem(...)` accepts and keeps; instances of derived predicates.
-/
import Verif.Spec.ProblemArgs
import Verif.Props.Problem
import Verif.Props.Raises

namespace Pddl.Props
open Pddl Spec

/-! ### C65 -/

theorem parseDomainName_ok {o : Option Domain} {n : Option Str} {x : Str} :
    parseDomainName o n = .ok x ↔ (o ≠ none ∨ n ≠ none) ∧ (∀ m, n = some m → ValidName m) ∧
      (∀ d m, o = some d → n = some m → d.name = m) ∧ x = (match o with | some d => d.name | none => n.getD []) := by
  cases o with
  | none =>
    cases n with
    | none => simp [parseDomainName]
    | some m => simp [parseDomainName, parseName_ok, and_comm]
  | some d =>
    cases n with
    | none => simp [parseDomainName, eq_comm]
    | some m =>
      simp only [parseDomainName, bind_ok_iff, check_ok, decide_eq_true_eq]
      constructor
      · rintro ⟨_, h1, h2⟩
        obtain ⟨rfl, h3⟩ := parseName_ok.1 h2
        exact ⟨.inl (by simp), by simp [h3], by simp [h1], by simp [h1]⟩
      · rintro ⟨_, h1, h2, rfl⟩
        have := h2 d m rfl rfl
        subst this
        exact ⟨(), rfl, parseName_ok.2 ⟨rfl, h1 _ rfl⟩⟩

theorem reqsEq_iff {a b : List Req} : reqsEq a b = true ↔ ∀ r, r ∈ a ↔ r ∈ b := by
  unfold reqsEq setEqBy
  simp only [Bool.and_eq_true, List.all_eq_true, memBy_iff, decide_eq_true_eq, exists_eq_right']
  exact ⟨fun h r => ⟨h.1 r, h.2 r⟩, fun h => ⟨fun r => (h r).1, fun r => (h r).2⟩⟩

theorem mkAnd_nil : mkAnd [] = .bin .and [] := rfl

theorem parseReqs_ok {o : Option Domain} {rs x : Option (List Req)} :
    parseReqs o rs = .ok x ↔ (∀ d l, o = some d → rs = some l → ∀ r, r ∈ l ↔ r ∈ d.reqs) ∧
      x = (match o with | some d => some d.reqs | none => rs.map reqSet) := by
  cases o with
  | none => cases rs <;> simp [parseReqs, eq_comm]
  | some d =>
    cases rs with
    | none => simp [parseReqs, eq_comm]
    | some l =>
      simp only [parseReqs, bind_ok_iff, check_ok, reqsEq_iff, pure_ok, Except.ok.injEq]
      constructor
      · rintro ⟨_, h1, rfl⟩
        exact ⟨by simpa using h1, rfl⟩
      · rintro ⟨h1, rfl⟩
        exact ⟨(), h1 d l rfl rfl, rfl⟩

/-- The problem that the arguments make. -/
def problemOf (a : ProblemArgs) : Problem :=
  { name := a.name, domain := a.domain
    domainName_ := match a.domain with | some d => d.name | none => a.domainName.getD []
    reqs_ := match a.domain with | some d => some d.reqs | none => a.reqs.map reqSet
    objects := dedupBy Term.pyEq a.objects, init := dedupBy Expr.pyEq a.init
    goal := a.goal.getD (mkAnd []), metric := a.metric }

theorem mkProblem_ok {a : ProblemArgs} {p : Problem} (hd : ∀ d, a.domain = some d → ExistsDomain d) :
    mkProblem a = .ok p ↔ ProblemArgsOk a ∧ p = problemOf a := by
  have hlit : ((dedupBy Expr.pyEq a.init).all isLiteral = true) ↔ ∀ e ∈ a.init, Literal e := by
    rw [List.all_eq_true]
    constructor
    · intro h e he
      obtain ⟨e', he', hq⟩ := memBy_iff.mp (dedupBy_cover (eq := Expr.pyEq) Expr.pyEq_refl he)
      exact literal_congr hq (literal_iff.1 (h e' he'))
    · intro h e he
      exact literal_iff.2 (h e (dedupBy_subset he))
  have hfit : (problemOf a).checkConsistency = .ok () ↔ ∀ d, a.domain = some d → ArgsFit a d := by
    unfold Problem.checkConsistency
    cases h : a.domain with
    | none => simp [problemOf, h]
    | some d =>
      have e1 : (problemOf a).domain = some d := h
      rw [e1]
      have h1 : (problemOf a).check d = .ok () ↔ Fits (problemOf a) d := problemCheck_ok (hd d h)
      refine h1.trans ?_
      simp only [Option.some.injEq, forall_eq']
      have e2 : (problemOf a).domainName = d.name := by simp [Problem.domainName, e1]
      have e3 : (problemOf a).reqs_ = some d.reqs := by simp [problemOf, h]
      have e4 : (problemOf a).objects = firstOcc Term.pyEq a.objects := dedup_firstOcc eqv_term _
      have e5 : (problemOf a).init = firstOcc Expr.pyEq a.init := dedup_firstOcc eqv_expr _
      have e6 : (problemOf a).goal = a.goal.getD (mkAnd []) := rfl
      constructor
      · rintro ⟨_, _, h3, h4, h5⟩
        rw [e4] at h3; rw [e5] at h4; rw [e6] at h5
        exact ⟨h3, h4, fun g hg => by rw [hg] at h5; exact h5⟩
      · rintro ⟨h3, h4, h5⟩
        refine ⟨by rw [e2]; rfl, by rw [e3]; simp, by rw [e4]; exact h3, by rw [e5]; exact h4, ?_⟩
        rw [e6]
        cases hg : a.goal with
        | none => rw [mkAnd_nil]; simp [WellTyped, terms, termsAll]
        | some g => exact h5 g hg
  unfold mkProblem
  simp only [bind_ok_iff, parseName_ok, parseDomainName_ok, parseReqs_ok, check_ok, pure_ok, Except.ok.injEq]
  constructor
  · rintro ⟨_, ⟨rfl, h1⟩, _, ⟨h2, h3, h4, rfl⟩, _, ⟨h5, rfl⟩, _, h6, _, h7, h8⟩
    exact ⟨⟨h1, h2, h3, h4, h5, hlit.1 h6, hfit.1 h7⟩, h8.symm⟩
  · rintro ⟨⟨h1, h2, h3, h4, h5, h6, h7⟩, rfl⟩
    exact ⟨_, ⟨rfl, h1⟩, _, ⟨h2, h3, h4, rfl⟩, _, ⟨h5, rfl⟩, (), hlit.2 h6, (), hfit.2 h7, rfl⟩

/-- C65: `Problem(...)` succeeds exactly if the names are valid, a domain or the name of one is given, both
agree if both are given, so do the requirements, the initial facts are literals, and objects, facts and goal
fit the domain. -/
theorem C65_accepted (a : ProblemArgs) (hd : ∀ d, a.domain = some d → ExistsDomain d) :
    (∃ p, mkProblem a = .ok p) ↔ ProblemArgsOk a :=
  ⟨fun ⟨_, h⟩ => ((mkProblem_ok hd).1 h).1, fun h => ⟨_, (mkProblem_ok hd).2 ⟨h, rfl⟩⟩⟩

/-- The problem holds what it was given. -/
theorem C65_contents (a : ProblemArgs) (hd : ∀ d, a.domain = some d → ExistsDomain d) (p : Problem)
    (h : mkProblem a = .ok p) : HoldsArgs a p := by
  obtain ⟨_, rfl⟩ := (mkProblem_ok hd).1 h
  refine ⟨rfl, rfl, ?_, fun r => ?_, dedup_firstOcc eqv_term _, dedup_firstOcc eqv_expr _, by simp [problemOf, mkAnd_nil], rfl⟩
  · cases hd : a.domain <;> simp [problemOf, Problem.domainName, hd]
  · cases hd : a.domain with
    | some d => simp [problemOf, Problem.reqs, hd]
    | none =>
      cases hr : a.reqs <;> simp [problemOf, Problem.reqs, hd, hr, mem_reqSet]

/-- The other outcomes are `ValueError` (names, domain and requirements) and the validation error. -/
theorem C65_error (a : ProblemArgs) (hd : ∀ d, a.domain = some d → ExistsDomain d) (e : Exc)
    (h : mkProblem a = .error e) : e = .value ∨ e = .validation := by
  have key : Within nameErrors (mkProblem a) := by
    unfold mkProblem
    refine Within.bind within_parseName (fun _ _ => Within.bind ?_ (fun _ _ => Within.bind ?_ (fun _ _ =>
      Within.bind (Within.check (fun _ => by simp)) (fun _ _ => Within.bind ?_ (fun _ _ => Within.pure)))))
    · unfold parseDomainName
      split
      · exact Within.bind (Within.check (fun _ => by simp)) (fun _ _ => within_parseName)
      · exact Within.pure
      · exact within_parseName
      · exact Within.error (by simp)
    · unfold parseReqs
      split
      · exact Within.pure
      · exact Within.pure
      · exact Within.pure
      · exact Within.bind (Within.check (fun _ => by simp)) (fun _ _ => Within.pure)
    · unfold Problem.checkConsistency
      split
      · rename_i d he
        intro x hx
        rw [problemCheck_error (hd d he) hx]
        simp
      · exact Within.ok
  have := key e h
  simp at this
  tauto

/-- The two other ways to give the domain. -/
example : ∃ p, mkProblem { name := s%"p", domain := some demoDomain, domainName := some s%"logistics"
                           reqs := some demoDomain.reqs
                           objects := [.const s%"t2" (some s%"truck")] } = .ok p := ⟨_, rfl⟩
example : mkProblem { name := s%"p", domain := some demoDomain, reqs := some [] } = .error .value := by rfl
example : mkProblem { name := s%"p" } = .error .value := by rfl
example : mkProblem { name := s%"p", domain := some demoDomain, domainName := some s%"x" } = .error .value := by rfl

/-! ### C66 -/

/-- `DerivedPredicate.instantiate` returns a derived predicate with the instantiated head and the instantiated
condition; it raises iff one of these raises. -/
theorem C66_result (m : Mapping) (d e : Derived) :
    d.inst m = .ok e ↔ (Expr.pred d.pred).inst m = .ok (.pred e.pred) ∧ d.cond.inst m = .ok e.cond := by
  simp only [Derived.inst, bind_ok_iff, pure_ok, Except.ok.injEq, Expr.inst, Expr.pred.injEq]
  constructor
  · rintro ⟨p, h1, c, h2, rfl⟩; exact ⟨⟨p, h1, rfl⟩, h2⟩
  · rintro ⟨⟨p, h1, rfl⟩, h2⟩; exact ⟨_, h1, _, h2, rfl⟩

/-- A derived predicate is true: head and condition hold of the same objects. -/
def TrueRule {D : Type} (I : Interp D) (d : Derived) : Prop :=
  ∀ ρ : Str → D, holds I (.pred d.pred) ρ ↔ holds I d.cond ρ

/-- The full statement: an instance of a true rule is true. -/
def C66_full : Prop :=
  ∀ (D : Type) (I : Interp D) (m : Mapping) (d e : Derived), ToConstants m → Built (.pred d.pred) → Built d.cond →
    WellSorted d.cond → d.inst m = .ok e → TrueRule I d → TrueRule I e

/-- It is false, for the reason that C11 is: with `?x = a` the rule `(p ?x)` if `(forall (?x) (q ?x))` becomes
`(p a)` if `(forall (?x) (q a))`. -/
theorem C66_fails : ¬ C66_full := by
  intro h
  let I : Interp Bool := ⟨fun _ => true, fun _ _ => True, fun n ds => n = s%"q" ∧ ds = [true], fun _ _ => some 1⟩
  have hq : ∀ t : Term, Built (.pred ⟨s%"q", [t]⟩) := fun t =>
    .pred (n := s%"q") (ts := [t]) (mkPred_ok.mpr ⟨by decide +kernel, by rw [termsConsistent_nil]; simp, rfl⟩)
  have := h Bool I [(.var vx, ca)] ⟨⟨s%"p", [.var vx]⟩, mkQuant .all (.pred ⟨s%"q", [.var vx]⟩) [vx]⟩
    ⟨⟨s%"p", [ca]⟩, mkQuant .all (.pred ⟨s%"q", [ca]⟩) [vx]⟩
    (by simp [ToConstants, ca]) (built_p _) (.quant _ _ (hq _)) (by simp [mkQuant, WellSorted])
    (by decide +kernel)
    (by
      intro ρ
      simp [holds, mkQuant, I, denote, vx, dedupBy]
      refine ⟨fun n => if n = s%"x" then false else ρ n, ⟨?_, ?_⟩, by simp⟩
      · simp only [dedupAux, memBy, List.any_nil, Bool.false_eq_true, if_false, List.mem_singleton, forall_eq, ne_eq]
        intro n hn
        rw [if_neg (fun e => hn e.symm)]
      · simp [dedupAux, memBy, InRange])
  have := this (fun _ => true)
  simp [holds, mkQuant, I, denote, vx, ca] at this

/-- Variables of one name have one value. -/
def OneValue (m : Mapping) : Prop :=
  ∀ v w t u, m.get (.var v) = some t → m.get (.var w) = some u → v.name = w.name → t = u

open Classical in
theorem updated_exists {D : Type} (I : Interp D) {m : Mapping} (h : OneValue m) (ρ : Str → D) : ∃ ρ', Updated I m ρ ρ' := by
  refine ⟨fun n => if h : ∃ t v, m.get (.var v) = some t ∧ v.name = n then denote I ρ h.choose else ρ n, ?_, ?_⟩
  · intro v t hv
    have hex : ∃ u w, m.get (.var w) = some u ∧ w.name = v.name := ⟨t, v, hv, rfl⟩
    rw [dif_pos hex]
    obtain ⟨w, hw, e⟩ := hex.choose_spec
    rw [h _ _ _ _ hw hv e]
  · intro n hn
    rw [dif_neg]
    rintro ⟨t, v, hv, rfl⟩
    apply hn
    unfold Mapping.get at hv
    split at hv
    · rename_i p hp
      have hm := List.mem_of_find?_eq_some hp
      have he := List.find?_some hp
      obtain ⟨k, c⟩ := p
      cases k with
      | var w =>
        rw [Term.pyEq_iff] at he
        refine ⟨w, c, hm, ?_⟩
        simp [Term.norm] at he
        exact (congrArg Prod.fst he).symm
      | const n' t' => simp [Term.pyEq] at he
    · simp at hv

/-- An instance of a true rule is true, if the mapping treats the terms of the rule correctly (no quantifier binds
a mapped variable, one set of types per variable, one value per name) and no operands become equal. -/
theorem C66_partial {D : Type} (I : Interp D) (m : Mapping) (d e : Derived) (hm : ToConstants m)
    (hp : Built (.pred d.pred)) (hb : Built d.cond) (hw : WellSorted d.cond) (h : d.inst m = .ok e)
    (hs : Safe m (.pred d.pred) []) (hs' : Safe m d.cond []) (hc : NoCollision m d.cond)
    (hn : OneValue m) (ht : TrueRule I d) : TrueRule I e := by
  obtain ⟨h1, h2⟩ := (C66_result m d e).1 h
  intro ρ
  obtain ⟨ρ', hu⟩ := updated_exists I hn ρ
  rw [C11_partial I m _ _ ρ ρ' hm hp (by simp [WellSorted]) h1 hu hs (by simp [NoCollision]),
    C11_partial I m _ _ ρ ρ' hm hb hw h2 hu hs' hc]
  exact ht ρ'

/-- `(p ?x)` if `(and (q ?x) (forall (?y) (q ?y)))`, with `?x = a`. -/
def demoRule : Derived :=
  ⟨⟨s%"p", [.var vx]⟩, .bin .and [.pred ⟨s%"q", [.var vx]⟩, .quant .all [vy] (.pred ⟨s%"q", [.var vy]⟩)]⟩

example : ToConstants [(.var vx, ca)] ∧ demoRule.inst [(.var vx, ca)] =
      .ok ⟨⟨s%"p", [ca]⟩, .bin .and [.pred ⟨s%"q", [ca]⟩, .quant .all [vy] (.pred ⟨s%"q", [.var vy]⟩)]⟩ ∧
    Safe [(.var vx, ca)] (.pred demoRule.pred) [] ∧ Safe [(.var vx, ca)] demoRule.cond [] ∧
    NoCollision [(.var vx, ca)] demoRule.cond ∧ OneValue [(.var vx, ca)] := by
  refine ⟨by simp [ToConstants, ca], by decide +kernel, ?_, ?_, by simp [demoRule, NoCollision, NoCollisions], ?_⟩
  · simp [Safe, demoRule, SafeTerm, Mapping.get, Term.pyEq, Var.pyEq, vx]
    intro _
    decide
  · simp [Safe, SafeAll, demoRule, SafeTerm, Mapping.get, Term.pyEq, Var.pyEq, vx, vy, MapsName]
    decide
  · intro v w t u h1 h2 _
    have key : ∀ v t, Mapping.get [(.var vx, ca)] (.var v) = some t → t = ca := by
      intro v t h
      simp only [Mapping.get, List.find?_cons, List.find?_nil] at h
      cases hx : (Term.var v).pyEq (Term.var vx) <;> rw [hx] at h <;> simp at h
      exact h.symm
    rw [key v t h1, key w u h2]

end Pddl.Props
