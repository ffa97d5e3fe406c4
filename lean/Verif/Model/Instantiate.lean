/-
`instantiate` of the formula classes, and pddl/action.py.
-/
import Verif.Model.Formula

namespace Pddl

/-- A dictionary whose keys are terms (compared with `==`) (pddl/action.py:72-95). -/
abbrev Mapping := List (Term × Term)

/-- `mapping.get(term)` (pddl/logic/predicates.py:71-81). -/
def Mapping.get (m : Mapping) (t : Term) : Option Term :=
  match m.find? (fun p => t.pyEq p.1) with
  | some p => some p.2
  | none => none

/-- `d[k] = v` on such a dictionary: an existing key keeps its place (pddl/action.py:72-95). -/
def Mapping.set (m : Mapping) (k v : Term) : Mapping :=
  if m.any (fun p => k.pyEq p.1) then m.map (fun p => if k.pyEq p.1 then (p.1, v) else p)
  else m ++ [(k, v)]

/-- `{param: const for param, const in zip(params, args)}` (pddl/action.py:84). -/
def Mapping.ofZip (params args : List Term) : Mapping :=
  (params.zip args).foldl (fun m p => m.set p.1 p.2) []

/-- One term of the loops in `Predicate.instantiate`, `EqualTo.instantiate`
(pddl/logic/predicates.py:71-81, 142-150) and `NumericFunction.instantiate`
(pddl/logic/functions.py:63-73): only variables are replaced. -/
def Term.inst (m : Mapping) : Term → Term
  | .var v => match m.get (.var v) with
    | some t => t
    | none => .var v
  | .const n t => .const n t

/-- `Predicate.instantiate` (pddl/logic/predicates.py:71-81). -/
def Pred.inst (m : Mapping) (p : Pred) : Except Exc Pred := mkPred p.name (p.terms.map (Term.inst m))

/-- `NumericFunction.instantiate` (pddl/logic/functions.py:63-73). -/
def NFun.inst (m : Mapping) (f : NFun) : Except Exc NFun := mkNFun f.name (f.terms.map (Term.inst m))

mutual
/-- `instantiate` of the formula classes: `BinaryOp` (pddl/logic/base.py:69-71), `UnaryOp`
(pddl/logic/base.py:108-110), `QuantifiedCondition` (pddl/logic/base.py:213-215: the bound variables
stay in the mapping), `EqualTo` (predicates.py:142-150), `NumericValue`
(functions.py:128-130), `BinaryFunction` (functions.py:169-173). `When` and
`Forall` (effects.py) have no such method: `AttributeError`. -/
def Expr.inst (m : Mapping) : Expr → Except Exc Expr
  | .pred p => do
    let p' ← p.inst m
    pure (.pred p')
  | .eq l r => mkEq (l.inst m) (r.inst m)
  | .nfun f => do
    let f' ← f.inst m
    pure (.nfun f')
  | .num n => pure (.num n)
  | .bfun o as => do
    let as' ← Expr.insts m as
    pure (construct (.fop o) as')
  | .bin o as => do
    let as' ← Expr.insts m as
    pure (construct (.bop o) as')
  | .not a => do
    let a' ← a.inst m
    pure (.not a')
  | .quant q vs c => do
    let c' ← c.inst m
    pure (mkQuant q c' vs)
  | .when _ _ => .error .attribute
  | .fall _ _ => .error .attribute
/-- The operands in turn (pddl/logic/base.py:71, pddl/logic/functions.py:169-173). -/
def Expr.insts (m : Mapping) : List Expr → Except Exc (List Expr)
  | [] => pure []
  | a :: as => do
    let a' ← a.inst m
    let as' ← Expr.insts m as
    pure (a' :: as')
end

/-- An `Action` (pddl/action.py:24-127). -/
structure Action where
  name : Str
  params : List Term
  pre : Option Expr
  eff : Option Expr

/-- `Action(name, parameters, precondition, effect)` (pddl/action.py:27-45). -/
def mkAction (n : Str) (params : List Term) (pre eff : Option Expr) : Except Exc Action := do
  let n' ← parseName n
  pure ⟨n', params, pre, eff⟩

/-- `Optional` formula: `f.instantiate(m) if f else None` (formulas are truthy) (pddl/action.py:72-95). -/
def instOpt (m : Mapping) : Option Expr → Except Exc (Option Expr)
  | none => pure none
  | some e => do
    let e' ← e.inst m
    pure (some e')

/-- `Action.instantiate` (pddl/action.py:72-95). -/
def Action.inst (a : Action) (args : List Term) : Except Exc Action :=
  if args.length ≠ a.params.length then .error .value
  else do
    let m := Mapping.ofZip a.params args
    let pre ← instOpt m a.pre
    let eff ← instOpt m a.eff
    mkAction a.name args pre eff

/-- Equality of optional formulas (pddl/action.py:108-116). -/
def optEq : Option Expr → Option Expr → Bool
  | none, none => true
  | some a, some b => a.pyEq b
  | _, _ => false

/-- `Action.__eq__` (pddl/action.py:108-116). -/
def Action.pyEq (a b : Action) : Bool :=
  decide (a.name = b.name) && termsEq a.params b.params && optEq a.pre b.pre && optEq a.eff b.eff

/-- Hash of an optional formula (pddl/action.py:118-120). -/
def optHash (σ : Seed) : Option Expr → Int
  | none => σ.none
  | some e => e.hash σ

/-- `Action.__hash__` (pddl/action.py:118-120). -/
def Action.hash (σ : Seed) (a : Action) : Int :=
  σ.tuple [σ.str a.name, termsHash σ a.params, optHash σ a.pre, optHash σ a.eff]

/-- A `DerivedPredicate` (pddl/logic/predicates.py:173-232). -/
structure Derived where
  pred : Pred
  cond : Expr

/-- `DerivedPredicate.__eq__` (predicates.py:217-223). -/
def Derived.pyEq (a b : Derived) : Bool := a.pred.pyEq b.pred && a.cond.pyEq b.cond

/-- `DerivedPredicate.__hash__` (predicates.py:205-207). -/
def Derived.hash (σ : Seed) (d : Derived) : Int :=
  σ.tuple [σ.cls .derived, d.pred.hash σ, d.cond.hash σ]

/-- `DerivedPredicate.instantiate` (predicates.py:198-203). -/
def Derived.inst (m : Mapping) (d : Derived) : Except Exc Derived := do
  let p ← d.pred.inst m
  let c ← d.cond.inst m
  pure ⟨p, c⟩

/-- A `Metric` (pddl/logic/functions.py:192-249); `max` tells which of the two
allowed optimisation keywords it has (`_validate` rejects others). -/
structure Metric where
  expr : Expr
  max : Bool

/-- `Metric.optimization` (pddl/logic/functions.py:214-217). -/
def Metric.optimization (m : Metric) : Str := if m.max then s%"maximize" else s%"minimize"

/-- `Metric.__hash__` (functions.py:247-249). -/
def Metric.hash (σ : Seed) (m : Metric) : Int := σ.tuple [m.expr.hash σ, σ.str m.optimization]

/-- `Metric.__eq__` (functions.py:239-245). -/
def Metric.pyEq (a b : Metric) : Bool := a.expr.pyEq b.expr && decide (a.max = b.max)

end Pddl
