/-
Lists of operands with repetitions.
-/
import Verif.Spec.Sem

namespace Pddl.Spec
open Pddl

/-- Going through a list from the left, `kept` are the operands equal to none before and not in `seen`, `dropped` are
the others, both in their order. -/
inductive FirstsOf : List Expr → List Expr → List Expr → List Expr → Prop
  | nil {seen} : FirstsOf seen [] [] []
  | keep {seen x l kept dropped} : (∀ y ∈ seen, x.pyEq y = false) → FirstsOf (x :: seen) l kept dropped →
      FirstsOf seen (x :: l) (x :: kept) dropped
  | drop {seen x l kept dropped} : (∃ y ∈ seen, x.pyEq y = true) → FirstsOf seen l kept dropped →
      FirstsOf seen (x :: l) kept (x :: dropped)

end Pddl.Spec
