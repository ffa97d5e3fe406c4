/- What conditions and numeric expressions mean. -/
import Verif.Model.Formula
import Mathlib.Algebra.Order.Field.Rat

namespace Pddl.Spec
open Pddl

/-- A planning state over a set `D` of objects. -/
structure Interp (D : Type) where
  /-- the object a constant name denotes -/
  const : Str → D
  /-- object `d` is of type `t` -/
  ty : Str → D → Prop
  /-- the atoms that hold -/
  pred : Str → List D → Prop
  /-- the values of the numeric functions; `none` = undefined -/
  fn : Str → List D → Option Rat

/-- The object a term denotes; variables are looked up by name. -/
def denote {D} (I : Interp D) (ρ : Str → D) : Term → D
  | .var v => ρ v.name
  | .const n _ => I.const n

/-- A numeric literal; infinities and strings have no value. -/
def numVal : Num → Option Rat
  | .int i => some i
  | .flt (.fin q) _ => some q
  | _ => none

/-- Division; undefined for a zero divisor. -/
def divVals : Rat → List Rat → Option Rat
  | x, [] => some x
  | x, y :: l => if y = 0 then none else divVals (x / y) l

/-- The arithmetic operation applied to a list of values: n-ary sum and product,
`x - y1 - ... - yn` (negation when there is one operand), `x / y1 / ... / yn`
(undefined with fewer than two operands). -/
def arith : FOp → List Rat → Option Rat
  | .plus, l => some (l.foldr (· + ·) 0)
  | .times, l => some (l.foldr (· * ·) 1)
  | .minus, [x] => some (-x)
  | .minus, x :: y :: l => some (x - (y + l.foldr (· + ·) 0))
  | .divide, x :: y :: l => divVals x (y :: l)
  | _, _ => none

mutual
/-- The value of a numeric expression. -/
def value {D} (I : Interp D) (ρ : Str → D) : Expr → Option Rat
  | .nfun f => I.fn f.name (f.terms.map (denote I ρ))
  | .num n => numVal n
  | .bfun o as => (values I ρ as).bind (arith o)
  | _ => none
def values {D} (I : Interp D) (ρ : Str → D) : List Expr → Option (List Rat)
  | [] => some []
  | a :: as => (value I ρ a).bind (fun x => (values I ρ as).map (x :: ·))
end

/-- A comparison of two values. -/
def compareVals : FOp → List Rat → Prop
  | .eq, [x, y] => x = y
  | .lt, [x, y] => x < y
  | .le, [x, y] => x ≤ y
  | .gt, [x, y] => y < x
  | .ge, [x, y] => y ≤ x
  | _, _ => False

/-- Objects a quantified variable ranges over: those of one of its types, all if
it has none. -/
def InRange {D} (I : Interp D) (v : Var) (d : D) : Prop := v.tags = [] ∨ ∃ t ∈ v.tags, I.ty t d

/-- `ρ'` is `ρ` with new, correctly typed values for the variables `vs`. -/
def Rebind {D} (I : Interp D) (vs : List Var) (ρ ρ' : Str → D) : Prop :=
  (∀ n, (∀ v ∈ vs, v.name ≠ n) → ρ' n = ρ n) ∧ ∀ v ∈ vs, InRange I v (ρ' v.name)

mutual
/-- The condition is true in the state. Effects and numeric expressions, which
are not conditions, are not true. -/
def holds {D} (I : Interp D) : Expr → (Str → D) → Prop
  | .pred p, ρ => I.pred p.name (p.terms.map (denote I ρ))
  | .eq l r, ρ => denote I ρ l = denote I ρ r
  | .nfun _, _ => False
  | .num _, _ => False
  | .bfun o as, ρ => ∃ vs, values I ρ as = some vs ∧ compareVals o vs
  | .bin .and as, ρ => holdsAll I as ρ
  | .bin .or as, ρ => holdsSome I as ρ
  | .bin .imply as, ρ => holdsImply I as ρ
  | .bin .oneof _, _ => False
  | .not a, ρ => ¬ holds I a ρ
  | .quant .all vs c, ρ => ∀ ρ', Rebind I vs ρ ρ' → holds I c ρ'
  | .quant .ex vs c, ρ => ∃ ρ', Rebind I vs ρ ρ' ∧ holds I c ρ'
  | .when _ _, _ => False
  | .fall _ _, _ => False
def holdsAll {D} (I : Interp D) : List Expr → (Str → D) → Prop
  | [], _ => True
  | a :: as, ρ => holds I a ρ ∧ holdsAll I as ρ
def holdsSome {D} (I : Interp D) : List Expr → (Str → D) → Prop
  | [], _ => False
  | a :: as, ρ => holds I a ρ ∨ holdsSome I as ρ
/-- `imply` takes two operands. -/
def holdsImply {D} (I : Interp D) : List Expr → (Str → D) → Prop
  | [], _ => False
  | [_], _ => False
  | a :: b :: [], ρ => holds I a ρ → holds I b ρ
  | _ :: _ :: _ :: _, _ => False
end

theorem holdsAll_iff {D} (I : Interp D) (as : List Expr) (ρ : Str → D) :
    holdsAll I as ρ ↔ ∀ a ∈ as, holds I a ρ := by
  induction as with
  | nil => simp [holdsAll]
  | cons a as ih => simp [holdsAll, ih]

theorem holdsSome_iff {D} (I : Interp D) (as : List Expr) (ρ : Str → D) :
    holdsSome I as ρ ↔ ∃ a ∈ as, holds I a ρ := by
  induction as with
  | nil => simp [holdsSome]
  | cons a as ih => simp [holdsSome, ih]

/-! First occurrences and flattening, used to state what `And`/`Or` list. -/

/-- Keep the first of equal elements. -/
def firstOcc {α} (eq : α → α → Bool) : List α → List α
  | [] => []
  | x :: l => x :: (firstOcc eq l).filter (fun y => !eq y x)

mutual
/-- Replace nested operands of the same class by their operands, depth first. -/
def leaves (c : Cls) : Expr → List Expr
  | .bin o as => if c = .bop o then leavesAll c as else [.bin o as]
  | .bfun o as => if c = .fop o then leavesAll c as else [.bfun o as]
  | e => [e]
def leavesAll (c : Cls) : List Expr → List Expr
  | [] => []
  | a :: as => leaves c a ++ leavesAll c as
end

/-- No two elements are `==`. -/
def Distinct (l : List Expr) : Prop := l.Pairwise (fun a b => a.pyEq b = false)

end Pddl.Spec
