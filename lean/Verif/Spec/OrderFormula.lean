/-
What an ordering of formulas should satisfy.
-/
import Verif.Spec.Built
import Verif.Spec.Types
import Verif.Model.OrderFormula

namespace Pddl.Spec

/-- Every term of the formula was made by a constructor. -/
def BuiltTerms (e : Expr) : Prop := ∀ t ∈ terms e, BuiltTerm t

/-- Formulas whose order does not involve sets of variables: predicates, functions, numbers, and conditional effects
made of them. -/
inductive Scopeless : Expr → Prop
  | pred (p) : Scopeless (.pred p)
  | nfun (f) : Scopeless (.nfun f)
  | num (n) : Scopeless (.num n)
  | when {c e} : Scopeless c → Scopeless e → Scopeless (.when c e)

/-- The comparison returned this truth value. -/
def Returns (r : Except Exc Bool) (b : Bool) : Prop := r = .ok b

/-- Exactly one of `a < b`, `a == b`, `b < a`, and the derived comparisons say the same. -/
def Trichotomy (a b : Expr) : Prop :=
  (Returns (a.lt b) true ∧ a.pyEq b = false ∧ Returns (b.lt a) false ∧
    Returns (a.le b) true ∧ Returns (a.gt b) false ∧ Returns (a.ge b) false) ∨
  (Returns (a.lt b) false ∧ a.pyEq b = true ∧ Returns (b.lt a) false ∧
    Returns (a.le b) true ∧ Returns (a.gt b) false ∧ Returns (a.ge b) true) ∨
  (Returns (a.lt b) false ∧ a.pyEq b = false ∧ Returns (b.lt a) true ∧
    Returns (a.le b) false ∧ Returns (a.gt b) true ∧ Returns (a.ge b) true)

end Pddl.Spec
