/-
What the instance of a condition says, for every mapping of variables.
-/
import Verif.Spec.Subst

namespace Pddl.Spec
open Pddl

/-- The object that an occurrence of a term stands for, if the mapped variables are replaced everywhere: also where a
quantifier binds them, but only where they are written with the types of the key. -/
def denoteWith {D} (I : Interp D) (m : Mapping) (ρ : Str → D) (t : Term) : D := denote I ρ (substTerm m t)

/-- Two operands become equal. -/
def sameInstance (m : Mapping) (a b : Expr) : Bool :=
  match a.inst m, b.inst m with
  | .ok c, .ok d => c.pyEq d
  | _, _ => false

/-- The operators that do not keep repeated operands. -/
def merges : FOp → Bool
  | .eq | .plus | .minus | .times | .divide => true
  | _ => false

mutual
/-- The value of an expression with the mapped variables replaced. -/
def valueWith {D} (I : Interp D) (m : Mapping) (ρ : Str → D) : Expr → Option Rat
  | .nfun f => I.fn f.name (f.terms.map (denoteWith I m ρ))
  | .num n => numVal n
  | .bfun o as => (valuesWith I m ρ (merges o) [] as).bind (arith o)
  | _ => none
/-- The values of the operands; with `once`, without the operands that become equal to one before. -/
def valuesWith {D} (I : Interp D) (m : Mapping) (ρ : Str → D) (once : Bool) (seen : List Expr) : List Expr → Option (List Rat)
  | [] => some []
  | a :: as => if once && seen.any (sameInstance m a) then valuesWith I m ρ once seen as
      else (valueWith I m ρ a).bind (fun x => (valuesWith I m ρ once (seen ++ [a]) as).map (x :: ·))
end

mutual
/-- The condition is true with the mapped variables replaced. -/
def holdsWith {D} (I : Interp D) (m : Mapping) : Expr → (Str → D) → Prop
  | .pred p, ρ => I.pred p.name (p.terms.map (denoteWith I m ρ))
  | .eq l r, ρ => denoteWith I m ρ l = denoteWith I m ρ r
  | .nfun _, _ => False
  | .num _, _ => False
  | .bfun o as, ρ => ∃ vs, valuesWith I m ρ (merges o) [] as = some vs ∧ compareVals o vs
  | .bin .and as, ρ => holdsAllWith I m as ρ
  | .bin .or as, ρ => holdsSomeWith I m as ρ
  | .bin .imply as, ρ => holdsImplyWith I m as ρ
  | .bin .oneof _, _ => False
  | .not a, ρ => ¬ holdsWith I m a ρ
  | .quant .all vs c, ρ => ∀ ρ', Rebind I vs ρ ρ' → holdsWith I m c ρ'
  | .quant .ex vs c, ρ => ∃ ρ', Rebind I vs ρ ρ' ∧ holdsWith I m c ρ'
  | .when _ _, _ => False
  | .fall _ _, _ => False
def holdsAllWith {D} (I : Interp D) (m : Mapping) : List Expr → (Str → D) → Prop
  | [], _ => True
  | a :: as, ρ => holdsWith I m a ρ ∧ holdsAllWith I m as ρ
def holdsSomeWith {D} (I : Interp D) (m : Mapping) : List Expr → (Str → D) → Prop
  | [], _ => False
  | a :: as, ρ => holdsWith I m a ρ ∨ holdsSomeWith I m as ρ
def holdsImplyWith {D} (I : Interp D) (m : Mapping) : List Expr → (Str → D) → Prop
  | [], _ => False
  | [_], _ => False
  | a :: b :: [], ρ => holdsWith I m a ρ → holdsWith I m b ρ
  | _ :: _ :: _ :: _, _ => False
end

end Pddl.Spec
