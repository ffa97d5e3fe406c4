/-
Specification for the command line: a sequence of stages, each of which yields a text or
fails, run until the first failure.
-/
import Verif.Model.Py

namespace Pddl.Spec

/-- The texts of the stages before the first failing one. -/
def printedBefore {α} : List (Except Exc α) → List α
  | [] => []
  | .ok a :: l => a :: printedBefore l
  | .error _ :: _ => []

/-- The first failure, if any. -/
def firstFailure {α} : List (Except Exc α) → Except Exc Unit
  | [] => .ok ()
  | .ok _ :: l => firstFailure l
  | .error e :: _ => .error e

end Pddl.Spec
