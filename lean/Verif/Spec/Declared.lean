/-
Names that are used and names that are declared.
-/
import Verif.Spec.Tags
import Verif.Model.Core

namespace Pddl.Spec
open Pddl

mutual
/-- The variable occurrences that no quantifier binds. -/
def freeVars : Expr → List Var
  | .pred p => p.terms.flatMap varOf
  | .eq l r => varOf l ++ varOf r
  | .nfun f => f.terms.flatMap varOf
  | .num _ => []
  | .bfun _ as => freeVarsAll as
  | .bin _ as => freeVarsAll as
  | .not a => freeVars a
  | .quant _ vs c => (freeVars c).filter (fun v => decide (v.name ∉ vs.map Var.name))
  | .when c e => freeVars c ++ freeVars e
  | .fall vs e => (freeVars e).filter (fun v => decide (v.name ∉ vs.map Var.name))
def freeVarsAll : List Expr → List Var
  | [] => []
  | a :: as => freeVars a ++ freeVarsAll as
end

mutual
/-- The predicates that are used. -/
def predsIn : Expr → List Pred
  | .pred p => [p]
  | .bin _ as => predsInAll as
  | .not a => predsIn a
  | .quant _ _ c => predsIn c
  | .when c e => predsIn c ++ predsIn e
  | .fall _ e => predsIn e
  | _ => []
def predsInAll : List Expr → List Pred
  | [] => []
  | a :: as => predsIn a ++ predsInAll as
end

mutual
/-- The numeric functions that are used. -/
def funsIn : Expr → List NFun
  | .nfun f => [f]
  | .bfun _ as => funsInAll as
  | .bin _ as => funsInAll as
  | .not a => funsIn a
  | .quant _ _ c => funsIn c
  | .when c e => funsIn c ++ funsIn e
  | .fall _ e => funsIn e
  | _ => []
def funsInAll : List Expr → List NFun
  | [] => []
  | a :: as => funsIn a ++ funsInAll as
end

/-- The constants that are used. -/
def UsesConst (n : Str) (tag : Option Str) (e : Expr) : Prop := ∃ a ∈ atoms e, Term.const n tag ∈ a.2

/-- The constants in the formula are declared in the domain, with the same types. -/
def ConstsDeclared (d : Domain) (e : Expr) : Prop := ∀ n tag, UsesConst n tag e → .const n tag ∈ d.constants

/-- The predicates in the formula are declared in the domain, with as many arguments. -/
def PredsDeclared (d : Domain) (e : Expr) : Prop :=
  ∀ p ∈ predsIn e, ∃ q ∈ d.predicates, q.name = p.name ∧ q.terms.length = p.terms.length

/-- The numeric functions in the formula are declared in the domain, with as many arguments. -/
def FunsDeclared (d : Domain) (e : Expr) : Prop :=
  ∀ f ∈ funsIn e, ∃ g ∈ d.functions, g.1.name = f.name ∧ g.1.terms.length = f.terms.length

/-- The free variables of the formula are among the given names. -/
def ClosedBy (ns : List Str) (e : Expr) : Prop := ∀ v ∈ freeVars e, v.name ∈ ns

/-- Everything the formula uses is declared. -/
structure UsesDeclared (d : Domain) (params : List Term) (e : Expr) : Prop where
  consts : ConstsDeclared d e
  preds : PredsDeclared d e
  funs : FunsDeclared d e
  vars : ClosedBy (params.map Term.name) e

/-- The formula is a precondition or effect of the action. -/
def PartOf (a : Action) (e : Expr) : Prop := a.pre = some e ∨ a.eff = some e

end Pddl.Spec
