/-
Calling predicates and functions with terms, and other small methods of the classes of pddl/logic.
-/
import Verif.Model.Instantiate

namespace Pddl

/-- `Predicate.__call__` (pddl/logic/predicates.py:83-86). -/
def Pred.call (p : Pred) (ts : List Term) : Except Exc Pred := do
  check (decide (ts.length = p.terms.length)) .assertion
  mkPred p.name ts

/-- `NumericFunction.__call__` (pddl/logic/functions.py:75-82). -/
def NFun.call (f : NFun) (ts : List Term) : Except Exc NFun := do
  check (decide (ts.length = f.terms.length)) .assertion
  check ((f.terms.zip ts).all (fun p => setEq p.1.tags p.2.tags)) .assertion
  mkNFun f.name ts

/-- `Metric(expression, optimization)` with `_validate` (pddl/logic/functions.py:198-207, 224-229). -/
def mkMetric (e : Expr) (optimization : Str) : Except Exc Metric :=
  if optimization = s%"maximize" then .ok ⟨e, true⟩
  else if optimization = s%"minimize" then .ok ⟨e, false⟩
  else .error .assertion

/-- `ensure_formula` (pddl/logic/base.py:263-271). -/
def ensureFormula (f : Option Expr) (isNoneTrue : Bool) : Expr :=
  match f with
  | some f => f
  | none => if isNoneTrue then mkAnd [] else mkOr []

end Pddl
