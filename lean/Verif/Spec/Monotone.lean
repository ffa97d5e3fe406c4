/-
Conditions that more facts cannot make false.
-/
import Verif.Spec.Sem
import Verif.Spec.Parse

namespace Pddl.Spec
open Pddl

mutual
/-- The written condition has no negation and no implication. -/
def positiveText : Tree → Bool
  | .node (.atom (.name w) :: args) => decide (w ≠ s%"not") && decide (w ≠ s%"imply") && positiveTexts args
  | _ => true
def positiveTexts : List Tree → Bool
  | [] => true
  | t :: ts => positiveText t && positiveTexts ts
end

/-- No action in the text of a domain has a precondition with a negation or an implication. -/
def PositiveActions (ts : List Tree) : Prop := ∀ m ps pre eff, actionText m ps pre eff ∈ ts → positiveText pre = true

/-- The second state has all the facts of the first, and is otherwise the same. -/
structure Larger {D} (I I' : Interp D) : Prop where
  const : I'.const = I.const
  ty : I'.ty = I.ty
  fn : I'.fn = I.fn
  pred : ∀ n ds, I.pred n ds → I'.pred n ds

end Pddl.Spec
