/-
`repr` of terms, formulas, effects, metrics, derived predicates and actions.

`NumericValue` (pddl/logic/functions.py:116-148) has no `__repr__`: Python's default one shows the address of the
object. `A` gives the text of the address of the number at a place of the formula; a place is the list of the operand
positions on the way to it, the innermost first.
-/
import Verif.Model.Print

namespace Pddl

/-- `Constant.__repr__` and `Variable.__repr__` (pddl/logic/terms.py:100-102, 131-133). -/
def Term.repr : Term → Str
  | .const n _ => s%"Constant(" ++ n ++ s%")"
  | .var v => s%"Variable(" ++ v.name ++ s%")"

/-- `Predicate.__repr__` and `NumericFunction.__repr__` (predicates.py:95-97, functions.py:91-93): the terms are shown
with `str`. -/
def atomRepr (cls n : Str) (ts : List Term) : Str :=
  cls ++ s%"(" ++ n ++ s%", " ++ joinStr s%", " (ts.map Term.str) ++ s%")"

/-- `repr` of a list (called at pddl/logic/base.py:79). -/
def listRepr (rs : List Str) : Str := s%"[" ++ joinStr s%", " rs ++ s%"]"

/-- `repr` of a tuple: a single element is followed by a comma (called at pddl/logic/functions.py:181). -/
def tupleRepr (rs : List Str) : Str :=
  s%"(" ++ joinStr s%", " rs ++ (if rs.length = 1 then s%"," else []) ++ s%")"

/-- `repr` of a frozenset of variables, in its iteration order
(called at pddl/logic/base.py:230, pddl/logic/effects.py:105). -/
def varsRepr (vs : List Var) : Str :=
  if vs.length = 0 then s%"frozenset()"
  else s%"frozenset({" ++ joinStr s%", " (vs.map (fun v => (Term.var v).repr)) ++ s%"})"

/-- `type(self).__name__` of the binary functions (functions.py:252-397). -/
def FOp.className : FOp → Str
  | .eq => s%"EqualTo"
  | .lt => s%"LesserThan"
  | .le => s%"LesserEqualThan"
  | .gt => s%"GreaterThan"
  | .ge => s%"GreaterEqualThan"
  | .assign => s%"Assign"
  | .scaleUp => s%"ScaleUp"
  | .scaleDown => s%"ScaleDown"
  | .increase => s%"Increase"
  | .decrease => s%"Decrease"
  | .minus => s%"Minus"
  | .plus => s%"Plus"
  | .times => s%"Times"
  | .divide => s%"Divide"

/-- `type(self).__name__` of the binary operators (pddl/logic/base.py:155-180). -/
def BOp.className : BOp → Str
  | .and => s%"And"
  | .or => s%"Or"
  | .oneof => s%"OneOf"
  | .imply => s%"Imply"

/-- `type(self).__name__` of the quantified conditions (pddl/logic/base.py:251-260). -/
def QOp.className : QOp → Str
  | .all => s%"ForallCondition"
  | .ex => s%"ExistsCondition"

mutual
/-- `__repr__` of the formula classes: `BinaryOp`, `UnaryOp`, `QuantifiedCondition` (pddl/logic/base.py:77-79, 116-118, 228-230),
`EqualTo` (predicates.py:168-170), `BinaryFunction` (functions.py:179-181), `When`, `Forall` (effects.py:54-56,
103-105). The quantified conditions and the effects show their parts with `str`. -/
def Expr.repr (A : List Nat → Str) (at_ : List Nat) : Expr → Str
  | .pred p => atomRepr s%"Predicate" p.name p.terms
  | .eq l r => s%"EqualTo(" ++ l.repr ++ s%", " ++ r.repr ++ s%")"
  | .nfun f => atomRepr s%"NumericFunction" f.name f.terms
  | .num _ => s%"<pddl.logic.functions.NumericValue object at " ++ A at_ ++ s%">"
  | .bfun o as => o.className ++ s%"(" ++ tupleRepr (Expr.reprs A at_ 0 as) ++ s%")"
  | .bin o as => o.className ++ s%"(" ++ listRepr (Expr.reprs A at_ 0 as) ++ s%")"
  | .not a => s%"Not(" ++ Expr.repr A (0 :: at_) a ++ s%")"
  | .quant q vs c => q.className ++ s%"(" ++ varsRepr vs ++ s%", " ++ c.str ++ s%")"
  | .when c e => s%"When(" ++ c.str ++ s%", " ++ e.str ++ s%")"
  | .fall vs e => s%"Forall(" ++ varsRepr vs ++ s%", " ++ e.str ++ s%")"
/-- The operands in turn (pddl/logic/base.py:79, pddl/logic/functions.py:181). -/
def Expr.reprs (A : List Nat → Str) (at_ : List Nat) : Nat → List Expr → List Str
  | _, [] => []
  | i, a :: as => Expr.repr A (i :: at_) a :: Expr.reprs A at_ (i + 1) as
end

/-- `DerivedPredicate.__repr__` (predicates.py:213-215). -/
def Derived.repr (A : List Nat → Str) (d : Derived) : Str :=
  s%"DerivedPredicate(" ++ atomRepr s%"Predicate" d.pred.name d.pred.terms ++ s%", " ++ d.cond.repr A [] ++ s%")"

/-- `Metric.__repr__` (functions.py:235-237). -/
def Metric.repr (m : Metric) : Str := s%"Metric(" ++ m.expr.str ++ s%", " ++ m.optimization ++ s%")"

/-- `str` of a formula or of `None` (called at pddl/action.py:122-127). -/
def optStr : Option Expr → Str
  | none => s%"None"
  | some e => e.str

/-- `Action.__repr__` (action.py:122-127). -/
def Action.repr (a : Action) : Str :=
  s%"Action(" ++ a.name ++ s%", parameters=" ++ joinStr s%", " (a.params.map Term.str) ++
  s%", precondition=" ++ optStr a.pre ++ s%", effect=" ++ optStr a.eff ++ s%")"

end Pddl
