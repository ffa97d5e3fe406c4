/-
Texts in files.
-/
import Verif.Model.Names

namespace Pddl.Spec
open Pddl

/-- The text ends inside a comment: there is a `;` on its last line. -/
def EndsInComment (a : Str) : Prop := ∃ u v, a = u ++ v ∧ '\n' ∉ v ∧ ';' ∈ v

/-- No comment of the text contains a carriage return without a newline after it. -/
def PlainComments (t : Str) : Prop :=
  ∀ a b, t = a ++ '\r' :: b → (∀ r, b ≠ '\n' :: r) → ¬ EndsInComment a

end Pddl.Spec
