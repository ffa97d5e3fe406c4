/- C03 (`==` is an equivalence) and C04 (equal objects have equal hashes). -/
import Verif.Proofs.EqDomain

namespace Pddl.Props
open Pddl Spec

/-! ### C03 -/

/-- Terms, variables, predicates, numeric functions: `==` is an equivalence. -/
theorem C03_terms : Equivalence (fun a b : Term => a.pyEq b = true) ∧
    Equivalence (fun a b : Var => a.pyEq b = true) ∧
    Equivalence (fun a b : Pred => a.pyEq b = true) ∧
    Equivalence (fun a b : NFun => a.pyEq b = true) :=
  ⟨eqv_term, eqv_var, eqv_pred, eqv_nfun⟩

/-- Formulas, numeric expressions and effects, of any depth. -/
theorem C03_expr : Equivalence (fun a b : Expr => a.pyEq b = true) := eqv_expr

/-- Derived predicates, metrics, actions, plans. -/
theorem C03_others : Equivalence (fun a b : Derived => a.pyEq b = true) ∧
    Equivalence (fun a b : Metric => a.pyEq b = true) ∧
    Equivalence (fun a b : Action => a.pyEq b = true) ∧
    Equivalence (fun a b : Plan => a.pyEq b = true) :=
  ⟨eqv_derived, eqv_metric, eqv_action, eqv_plan⟩

/-- Domains (whose types and functions are dictionaries). -/
theorem C03_domain :
    (∀ d : Domain, IsDict d.types → IsFunDict d.functions → d.pyEq d = true) ∧
    (∀ a b : Domain, a.pyEq b = true → b.pyEq a = true) ∧
    (∀ a b c : Domain, a.pyEq b = true → b.pyEq c = true → a.pyEq c = true) :=
  ⟨fun _ => Domain.pyEq_refl, fun _ _ => Domain.pyEq_symm, fun _ _ _ => Domain.pyEq_trans⟩

/-- Problems. -/
theorem C03_problem :
    (∀ p : Problem, (∀ d, p.domain = some d → IsDict d.types ∧ IsFunDict d.functions) →
      p.pyEq p = true) ∧
    (∀ a b : Problem, a.pyEq b = true → b.pyEq a = true) ∧
    (∀ a b c : Problem, a.pyEq b = true → b.pyEq c = true → a.pyEq c = true) :=
  ⟨fun _ => Problem.pyEq_refl, fun _ _ => Problem.pyEq_symm, fun _ _ _ => Problem.pyEq_trans⟩

/-- What `==` looks at: constants only at their name; variables at the name and
the set of tags; a variable never equals a constant. -/
theorem C03_term_meaning :
    (∀ n m t u, (Term.const n t).pyEq (.const m u) = true ↔ n = m) ∧
    (∀ v w : Var, (Term.var v).pyEq (.var w) = true ↔
      v.name = w.name ∧ ∀ x, x ∈ v.tags ↔ x ∈ w.tags) ∧
    (∀ v n t, (Term.var v).pyEq (.const n t) = false ∧ (Term.const n t).pyEq (.var v) = false) := by
  refine ⟨?_, ?_, ?_⟩
  · simp [Term.pyEq]
  · simp [Term.pyEq, Var.pyEq, setEq_iff]
  · simp [Term.pyEq]

/-- `==` of compound objects: same class, and equal parts in order; for
quantifiers, the same set of variables. -/
theorem C03_expr_meaning :
    (∀ n m ts us, (Pred.mk n ts).pyEq ⟨m, us⟩ = true ↔
      n = m ∧ List.Forall₂ (fun t u => Term.pyEq t u = true) ts us) ∧
    (∀ o o' as bs, (Expr.bin o as).pyEq (.bin o' bs) = true ↔
      o = o' ∧ List.Forall₂ (fun a b => Expr.pyEq a b = true) as bs) ∧
    (∀ o o' as bs, (Expr.bfun o as).pyEq (.bfun o' bs) = true ↔
      o = o' ∧ List.Forall₂ (fun a b => Expr.pyEq a b = true) as bs) ∧
    (∀ q q' vs ws c d, (Expr.quant q vs c).pyEq (.quant q' ws d) = true ↔
      q = q' ∧ ((∀ v ∈ vs, ∃ w ∈ ws, v.pyEq w = true) ∧ (∀ w ∈ ws, ∃ v ∈ vs, w.pyEq v = true)) ∧
        c.pyEq d = true) ∧
    (∀ a b, (Expr.not a).pyEq (.not b) = true ↔ a.pyEq b = true) ∧
    (∀ i q r, (Expr.num (.int i)).pyEq (.num (.flt (.fin q) r)) = true ↔ (i : Rat) = q) ∧
    (∀ i j, (Expr.num (.int i)).pyEq (.num (.int j)) = true ↔ i = j) := by
  have hts : ∀ ts us, termsEq ts us = true ↔ List.Forall₂ (fun t u => Term.pyEq t u = true) ts us := by
    intro ts us
    induction ts generalizing us with
    | nil => cases us <;> simp [termsEq]
    | cons t ts ih => cases us <;> simp [termsEq, ih]
  have hes : ∀ ts us, Expr.pyEqs ts us = true ↔ List.Forall₂ (fun t u => Expr.pyEq t u = true) ts us := by
    intro ts us
    induction ts generalizing us with
    | nil => cases us <;> simp [Expr.pyEqs]
    | cons t ts ih => cases us <;> simp [Expr.pyEqs, ih]
  refine ⟨?_, ?_, ?_, ?_, ?_, ?_, ?_⟩
  · simp [Pred.pyEq, hts]
  · simp [Expr.pyEq, hes]
  · simp [Expr.pyEq, hes]
  · intro q q' vs ws c d
    simp [Expr.pyEq, varsEq, setEqBy, memBy_iff, and_assoc]
  · simp [Expr.pyEq]
  · simp [Expr.pyEq, Num.key]
  · simp [Expr.pyEq, Num.key]

example : (Expr.quant .all [⟨s%"x", [s%"a", s%"b"]⟩, ⟨s%"y", []⟩] (.num (.int 1))).pyEq
    (.quant .all [⟨s%"y", []⟩, ⟨s%"x", [s%"b", s%"a"]⟩] (.num (.flt (.fin 1) (s%"1.0")))) = true := by
  decide +kernel

example : IsDict [(s%"a", some (s%"b")), (s%"b", none)] ∧
    IsFunDict [(⟨s%"f", []⟩, none), (⟨s%"g", []⟩, none)] := by
  constructor
  · simp [IsDict]
  · simp [IsFunDict, NFun.pyEq]

/-! ### C04 -/

/-- Equal terms have equal hashes, whatever the interpreter's hash functions. -/
theorem C04_terms (σ : Seed) : (∀ a b : Term, a.pyEq b = true → a.hash σ = b.hash σ) ∧
    (∀ a b : Pred, a.pyEq b = true → a.hash σ = b.hash σ) ∧
    (∀ a b : NFun, a.pyEq b = true → a.hash σ = b.hash σ) :=
  ⟨fun _ _ => Term.hash_congr σ, fun _ _ => Pred.hash_congr σ, fun _ _ => NFun.hash_congr σ⟩

/-- Equal formulas, numeric expressions and effects have equal hashes. -/
theorem C04_expr (σ : Seed) (a b : Expr) (ha : Built a) (hb : Built b) (h : a.pyEq b = true) :
    a.hash σ = b.hash σ :=
  Expr.hash_congr σ ha.good hb.good h

/-- Equal actions, derived predicates and metrics have equal hashes. -/
theorem C04_others (σ : Seed) :
    (∀ a b : Action, BuiltAction a → BuiltAction b → a.pyEq b = true → a.hash σ = b.hash σ) ∧
    (∀ a b : Derived, BuiltDerived a → BuiltDerived b → a.pyEq b = true → a.hash σ = b.hash σ) ∧
    (∀ a b : Metric, Built a.expr → Built b.expr → a.pyEq b = true → a.hash σ = b.hash σ) := by
  refine ⟨?_, ?_, ?_⟩
  · intro a b ha hb h
    simp [Action.pyEq] at h
    obtain ⟨⟨⟨h1, h2⟩, h3⟩, h4⟩ := h
    simp [Action.hash, h1, termsHash_congr σ h2, optHash_congr σ ha.pre hb.pre h3,
      optHash_congr σ ha.eff hb.eff h4]
  · intro a b ha hb h
    simp [Derived.pyEq] at h
    simp [Derived.hash, Pred.hash_congr σ h.1, Expr.hash_congr σ ha.cond.good hb.cond.good h.2]
  · intro a b ha hb h
    simp [Metric.pyEq] at h
    simp [Metric.hash, Metric.optimization, Expr.hash_congr σ ha.good hb.good h.1, h.2]

/-- The hypotheses of `C04_expr` are met by two different but equal objects, and
a seed exists. -/
example : ∃ a b : Expr, Built a ∧ Built b ∧ a.pyEq b = true ∧ a ≠ b := by
  refine ⟨mkQuant .ex (.num (.int 1)) [⟨s%"x", []⟩, ⟨s%"y", []⟩],
    mkQuant .ex (.num (.int 1)) [⟨s%"y", []⟩, ⟨s%"x", []⟩], .quant _ _ (.num _), .quant _ _ (.num _), ?_, ?_⟩
  · decide +kernel
  · have h1 : dedupBy Var.pyEq [⟨s%"x", []⟩, ⟨s%"y", []⟩] = [⟨s%"x", []⟩, ⟨s%"y", []⟩] := by
      decide +kernel
    have h2 : dedupBy Var.pyEq [⟨s%"y", []⟩, ⟨s%"x", []⟩] = [⟨s%"y", []⟩, ⟨s%"x", []⟩] := by
      decide +kernel
    simp [mkQuant, h1, h2]

example : Nonempty Seed :=
  ⟨{ str := fun s => s.length, int := fun n => n, num := fun _ => 3, cls := fun _ => 5,
     none := 7, tuple := fun l => l.foldr (fun x y => x + 31 * y) 1, fset := fun l => l.length
     fset_perm := fun _ _ h => by simp [h.length_eq] }⟩

end Pddl.Props
