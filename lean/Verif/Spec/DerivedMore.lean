/-
Rules that more facts cannot stop.
-/
import Verif.Spec.Monotone
import Verif.Spec.DerivedSem

namespace Pddl.Spec
open Pddl Grammar

/-- No derived predicate in the text of a domain has a condition with a negation or an implication. -/
def PositiveRules (ts : List Tree) : Prop := ∀ h c, section_ s%"derived" [h, c] ∈ ts → positiveText c = true

/-- `J` is `I` with the facts that the rules give a reason for: the facts of `J` are those of `I` and what the rules derive in `J`, and
`J` is the least such state. -/
structure Completed {D} (R : RuleSet D) (I J : Interp D) : Prop where
  const : J.const = I.const
  ty : J.ty = I.ty
  fn : J.fn = I.fn
  pred : ∀ n ds, J.pred n ds ↔ I.pred n ds ∨ R J n ds
  least : ∀ J' : Interp D, J'.const = I.const → J'.ty = I.ty → J'.fn = I.fn →
    (∀ n ds, J'.pred n ds ↔ I.pred n ds ∨ R J' n ds) → Larger J J'

end Pddl.Spec
