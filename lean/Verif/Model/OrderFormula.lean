/-
`<` between formulas, and the comparisons that `functools.total_ordering` derives from it.
-/
import Verif.Model.Order
import Verif.Model.Core

namespace Pddl

/-- `NumericFunction.__lt__` (pddl/logic/functions.py:107-111): comparison of the tuples `(name, terms)`. -/
def NFun.lt (a b : NFun) : Bool :=
  if a.name = b.name then lexLt Term.pyEq Term.lt a.terms b.terms
  else strLt a.name b.name

/-- `<` of two Python numbers (pddl/logic/functions.py:136-140). -/
def FVal.lt : FVal → FVal → Bool
  | .fin p, .fin q => decide (p < q)
  | .fin _, .pinf => true
  | .fin _, .ninf => false
  | .pinf, _ => false
  | .ninf, .ninf => false
  | .ninf, _ => true

/-- `NumericValue.__lt__` (pddl/logic/functions.py:136-140): numbers or strings; `TypeError` for a number and a
string. -/
def Num.lt (a b : Num) : Except Exc Bool :=
  match a.key, b.key with
  | .val v, .val w => pure (v.lt w)
  | .str s, .str t => pure (strLt s t)
  | _, _ => .error .type_

/-- `<` of two frozensets of variables: proper inclusion (pddl/logic/base.py:244-248). -/
def varsLt (a b : List Var) : Bool := a.all (fun x => memBy Var.pyEq x b) && !varsEq a b

/-- `a < b` for formulas and effects: `QuantifiedCondition.__lt__` (pddl/logic/base.py:244-248), `When.__lt__`,
`Forall.__lt__` (effects.py:70-74, 119-123) compare tuples: the first position where the elements are not `==` decides.
The other classes have no `__lt__`, and a comparison between classes finds no method: `TypeError`. -/
def Expr.lt : Expr → Expr → Except Exc Bool
  | .pred p, .pred q => pure (p.lt q)
  | .nfun f, .nfun g => pure (f.lt g)
  | .num m, .num n => m.lt n
  | .quant _ vs c, .quant _ vs' c' =>
    if varsEq vs vs' then
      if c.pyEq c' then pure false else c.lt c'
    else pure (varsLt vs vs')
  | .when c e, .when c' e' =>
    if c.pyEq c' then
      if e.pyEq e' then pure false else e.lt e'
    else c.lt c'
  | .fall vs e, .fall vs' e' =>
    if varsEq vs vs' then
      if e.pyEq e' then pure false else e.lt e'
    else pure (varsLt vs vs')
  | _, _ => .error .type_

/-- `DerivedPredicate.__lt__` (pddl/logic/predicates.py:225-232): `(self.predicate, self._predicate)` is compared with
`(other.predicate, other.condition)`. -/
def Derived.lt (a b : Derived) : Except Exc Bool :=
  if a.pred.pyEq b.pred then
    if (Expr.pred a.pred).pyEq b.cond then pure false else (Expr.pred a.pred).lt b.cond
  else pure (a.pred.lt b.pred)

/-- `a > b`: `not (a < b) and a != b` (`functools._gt_from_lt`)
(`@functools.total_ordering`, pddl/logic/base.py:190). -/
def Expr.gt (a b : Expr) : Except Exc Bool := do
  let r ← a.lt b
  pure (!r && !a.pyEq b)

/-- `a <= b`: `a < b or a == b` (`functools._le_from_lt`) (`@functools.total_ordering`, pddl/logic/base.py:190). -/
def Expr.le (a b : Expr) : Except Exc Bool := do
  let r ← a.lt b
  pure (r || a.pyEq b)

/-- `a >= b`: `not (a < b)` (`functools._ge_from_lt`) (`@functools.total_ordering`, pddl/logic/base.py:190). -/
def Expr.ge (a b : Expr) : Except Exc Bool := do
  let r ← a.lt b
  pure (!r)

end Pddl
