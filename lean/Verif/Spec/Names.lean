/- Specification of PDDL names, independent of the model. -/
import Verif.Model.Py

namespace Pddl.Spec

/-- ASCII letter. -/
def Letter (c : Char) : Prop := ('A' ≤ c ∧ c ≤ 'Z') ∨ ('a' ≤ c ∧ c ≤ 'z')
/-- ASCII digit. -/
def Digit (c : Char) : Prop := '0' ≤ c ∧ c ≤ '9'

/-- A letter followed by letters, digits, `-`, `_`. -/
def NameShape (s : Str) : Prop :=
  ∃ c cs, s = c :: cs ∧ Letter c ∧ ∀ x ∈ cs, Letter x ∨ Digit x ∨ x = '-' ∨ x = '_'

/-- The reserved words that have the shape of a name. -/
def reserved : List String :=
  ["and", "define", "domain", "either", "exists", "forall", "imply", "not", "object",
   "oneof", "or", "problem", "when", "assign", "scale-up", "scale-down", "increase",
   "decrease", "maximize", "minimize", "total-cost"]

def Reserved (s : Str) : Prop := ∃ w ∈ reserved, w.toList = s

/-- A string acceptable as a name. -/
def ValidName (s : Str) : Prop := NameShape s ∧ ¬ Reserved s

/-- A string acceptable as a type name. -/
def ValidType (s : Str) : Prop := ValidName s ∨ s = "object".toList

/-- A string acceptable as a function name. -/
def ValidFunction (s : Str) : Prop := ValidName s ∨ s = "total-cost".toList

end Pddl.Spec
