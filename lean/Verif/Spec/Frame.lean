/-
What the effects of a text can change.
-/
import Verif.Spec.Effect

namespace Pddl.Spec
open Pddl

/-- Ways to change a state. -/
inductive Kind
  | add | del | num
  deriving DecidableEq

/-- The name of the fluent in a written update. -/
def updatedName : List Tree → Option Str
  | [.atom (.name f), _] => some f
  | [.node (.atom (.name f) :: _), _] => some f
  | _ => none

/-- The name of the predicate in a written negation. -/
def negatedName : List Tree → Option Str
  | [.node (.atom (.name p) :: _)] => some p
  | _ => none

mutual
/-- The written effect has, somewhere, an atom `n` (`add`), a negated atom `n` (`del`) or an update of the fluent `n`
(`num`), other than in the condition of a conditional effect. -/
def writesTo (k : Kind) (n : Str) : Tree → Bool
  | .node (.atom (.name w) :: args) =>
    if w = s%"and" ∨ w = s%"oneof" then writesToSome k n args
    else if w = s%"forall" ∨ w = s%"when" then
      match args with
      | [_, e] => writesTo k n e
      | _ => false
    else if w = s%"not" then decide (k = .del) && decide (negatedName args = some n)
    else match updateWord w with
      | some _ => decide (k = .num) && decide (updatedName args = some n)
      | none => decide (k = .add) && decide (w = n)
  | _ => false
def writesToSome (k : Kind) (n : Str) : List Tree → Bool
  | [] => false
  | t :: ts => writesTo k n t || writesToSome k n ts
end

/-- No action in the text of a domain has an effect of this kind on `n`. -/
def NoAction (k : Kind) (n : Str) (ts : List Tree) : Prop :=
  ∀ m ps pre eff, actionText m ps pre eff ∈ ts → writesTo k n eff = false

/-- The condition is an atom `n` or a conjunction with such a part. -/
def Needs (n : Str) : Expr → Prop
  | .pred p => p.name = n
  | .bin .and as => ∃ p, .pred p ∈ as ∧ p.name = n
  | _ => False

end Pddl.Spec
