/- Which objects can exist: those made by the library's constructors. -/
import Verif.Model.Core

namespace Pddl.Spec
open Pddl

/-- Terms made by `Variable(...)` and `Constant(...)`. -/
inductive BuiltTerm : Term → Prop
  | var {n tags v} : mkVar n tags = .ok v → BuiltTerm (.var v)
  | const {n tag t} : mkConst n tag = .ok t → BuiltTerm t

/-- Formulas, numeric expressions and effects made by the constructors. A
collection of variables is any list: this covers every iteration order. -/
inductive Built : Expr → Prop
  | pred {n ts p} : mkPred n ts = .ok p → Built (.pred p)
  | eq {l r e} : mkEq l r = .ok e → Built e
  | nfun {n ts f} : mkNFun n ts = .ok f → Built (.nfun f)
  | num (n) : Built (.num n)
  | op (c : Cls) {args} : (∀ a ∈ args, Built a) → Built (construct c args)
  | not {a} : Built a → Built (.not a)
  | quant (q) {c} (vars) : Built c → Built (mkQuant q c vars)
  | when {c e} : Built c → Built e → Built (.when c e)
  | fall {e} (vars) : Built e → Built (mkForall e vars)

/-- Optional part of an action. -/
def BuiltOpt : Option Expr → Prop
  | none => True
  | some e => Built e

/-- An action whose precondition and effect are made by the constructors. -/
structure BuiltAction (a : Action) : Prop where
  pre : BuiltOpt a.pre
  eff : BuiltOpt a.eff
  name : ∃ n, parseName n = .ok a.name

/-- A derived predicate made by the constructors. -/
structure BuiltDerived (d : Derived) : Prop where
  pred : ∃ n ts, mkPred n ts = .ok d.pred
  cond : Built d.cond

/-- A list of items is the content of a dictionary: no key twice. -/
def IsDict {β} (d : List (Str × β)) : Prop := (d.map Prod.fst).Nodup

/-- A list of items is the content of a dictionary with function keys. -/
def IsFunDict (d : FunDict) : Prop := d.Pairwise (fun a b => a.1.pyEq b.1 = false)

end Pddl.Spec
