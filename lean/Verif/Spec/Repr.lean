/-
Which parts of a formula `repr` shows.
-/
import Verif.Model.Repr

namespace Pddl.Spec
open Pddl

mutual
/-- No number, except in the parts that `repr` shows with `str`: below quantifiers, `when` and `forall`. -/
def NoNumberShown : Expr → Prop
  | .num _ => False
  | .bfun _ as => NoNumbersShown as
  | .bin _ as => NoNumbersShown as
  | .not a => NoNumberShown a
  | _ => True
def NoNumbersShown : List Expr → Prop
  | [] => True
  | a :: as => NoNumberShown a ∧ NoNumbersShown as
end

mutual
/-- The outermost quantifiers, whose variables `repr` shows without types, have variables without types. -/
def NoTypeHidden : Expr → Prop
  | .bfun _ as => NoTypesHidden as
  | .bin _ as => NoTypesHidden as
  | .not a => NoTypeHidden a
  | .quant _ vs _ => ∀ v ∈ vs, v.tags = []
  | .fall vs _ => ∀ v ∈ vs, v.tags = []
  | _ => True
def NoTypesHidden : List Expr → Prop
  | [] => True
  | a :: as => NoTypeHidden a ∧ NoTypesHidden as
end

end Pddl.Spec
