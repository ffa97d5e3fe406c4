/-
What the text of an object shows beyond `==`.
-/
import Verif.Spec.Reorder
import Verif.Model.Print

namespace Pddl.Spec
open Pddl Reorder

mutual
/-- The numbers in a formula, an effect or a numeric expression. -/
def numbers : Expr → List Num
  | .pred _ => []
  | .eq _ _ => []
  | .nfun _ => []
  | .num n => [n]
  | .bfun _ as => numbersAll as
  | .bin _ as => numbersAll as
  | .not a => numbers a
  | .quant _ _ c => numbers c
  | .when c e => numbers c ++ numbers e
  | .fall _ e => numbers e
def numbersAll : List Expr → List Num
  | [] => []
  | a :: as => numbers a ++ numbersAll as
end

/-- Equal numbers are written alike. (`1 == 1.0` and `0.0 == -0.0` are not.) -/
def WrittenAlike (l m : List Num) : Prop :=
  ∀ x ∈ l, ∀ y ∈ m, (Expr.num x).pyEq (.num y) = true → x.text = y.text

/-- The formulas of a domain. -/
def formulasOf (d : Domain) : List Expr :=
  d.derived.map Derived.cond ++ d.actions.flatMap (fun a => a.pre.toList ++ a.eff.toList)

/-- The formulas of a problem. -/
def problemFormulas (p : Problem) : List Expr :=
  p.goal :: p.init ++ p.metric.toList.map Metric.expr

/-- The term is a variable, and its types are a set. -/
def SetVar (t : Term) : Prop := ∃ v, t = .var v ∧ v.tags.Nodup

/-- Declarations, heads of derived predicates and parameters of actions have variables. -/
structure DeclaresVars (d : Domain) : Prop where
  predicates : ∀ p ∈ d.predicates, ∀ t ∈ p.terms, SetVar t
  functions : ∀ f ∈ d.functions, ∀ t ∈ f.1.terms, SetVar t
  heads : ∀ x ∈ d.derived, ∀ t ∈ x.pred.terms, SetVar t
  params : ∀ a ∈ d.actions, ∀ t ∈ a.params, SetVar t

/-- Equal objects have the same type. (`==` of constants compares names only.) -/
def SameObjectTypes (l m : List Term) : Prop := ∀ c ∈ l, ∀ o ∈ m, c.pyEq o = true → c.tags = o.tags

end Pddl.Spec
