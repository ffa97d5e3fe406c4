/- Type hierarchies, well-typed objects and requirements, independent of the checks. -/
import Verif.Model.Core
import Verif.Spec.Names
import Verif.Spec.Graph

namespace Pddl.Spec
open Pddl

/-! ### Requirements -/

/-- `:typing` is in force: declared, or implied by `:adl`. -/
def HasTyping (rs : List Req) : Prop := Req.typing ∈ rs ∨ Req.adl ∈ rs

/-- Requirement `r` is in force when `rs` is declared. -/
def InForce (rs : List Req) (r : Req) : Prop :=
  r ∈ rs ∨
  (Req.quantifiedPrecondition ∈ rs ∧ (r = .universalPrecondition ∨ r = .existentialPrecondition)) ∨
  (Req.adl ∈ rs ∧ (r = .strips ∨ r = .typing ∨ r = .negPrecondition ∨ r = .disPrecondition ∨
    r = .equality ∨ r = .conditionalEffects ∨ r = .universalPrecondition ∨ r = .existentialPrecondition)) ∨
  (Req.fluents ∈ rs ∧ (r = .objectFluents ∨ r = .numericFluents))

/-! ### Type hierarchies -/

/-- `b` is given as the supertype of `a`. An empty string stands for no supertype,
like `None`. -/
def Parent (d : TypeDict) (a b : Str) : Prop := d.lookup a = some (some b) ∧ b ≠ []

/-- All names in the dictionary are type names. -/
def TypeNamesOk (d : TypeDict) : Prop :=
  ∀ p ∈ d, ValidType p.1 ∧ ∀ b, p.2 = some b → b ≠ [] → ValidType b

/-- A hierarchy that makes sense. -/
structure HierarchyOk (d : TypeDict) (rs : List Req) : Prop where
  typing : (∃ a b, Parent d a b) → Req.typing ∈ rs
  object : ∀ b, ¬ Parent d (s%"object") b
  acyclic : ∀ a, ¬ Relation.TransGen (Parent d) a a

/-- The types that a dictionary declares: its keys and the supertypes. -/
def Declared (d : TypeDict) (t : Str) : Prop := ∃ p ∈ d, p.1 = t ∨ (p.2 = some t ∧ t ≠ [])

/-! ### Well-typed objects -/

mutual
/-- All terms of a formula or effect, including the variables bound by quantifiers. -/
def terms : Expr → List Term
  | .pred p => p.terms
  | .eq l r => [l, r]
  | .nfun f => f.terms
  | .num _ => []
  | .bfun _ as => termsAll as
  | .bin _ as => termsAll as
  | .not a => terms a
  | .quant _ vs c => vs.map Term.var ++ terms c
  | .when c e => terms c ++ terms e
  | .fall vs e => vs.map Term.var ++ terms e
def termsAll : List Expr → List Term
  | [] => []
  | a :: as => terms a ++ termsAll as
end

/-- A term carries only declared types, and none unless `:typing` is in force. -/
def WellTypedTerm (declared : Str → Prop) (rs : List Req) (t : Term) : Prop :=
  (∀ x ∈ t.tags, declared x) ∧ (t.tags ≠ [] → HasTyping rs)

/-- Every term of the formula is well-typed. -/
def WellTyped (declared : Str → Prop) (rs : List Req) (e : Expr) : Prop :=
  ∀ t ∈ terms e, WellTypedTerm declared rs t

/-- The terms of an optional part. -/
def termsOpt : Option Expr → List Term
  | none => []
  | some e => terms e

/-- Every term of the action is well-typed. -/
def WellTypedAction (declared : Str → Prop) (rs : List Req) (a : Action) : Prop :=
  ∀ t ∈ a.params ++ termsOpt a.pre ++ termsOpt a.eff, WellTypedTerm declared rs t

end Pddl.Spec
