/-
Ordering of terms and predicates, and `sorted` on them.
-/
import Verif.Model.Formula
import Verif.Model.Requirements

namespace Pddl

/-- `Predicate.__lt__` (pddl/logic/predicates.py:111-115): comparison of the
tuples `(name, terms)`. -/
def Pred.lt (a b : Pred) : Bool :=
  if a.name = b.name then lexLt Term.pyEq Term.lt a.terms b.terms
  else strLt a.name b.name

/-- Python `sorted`: a stable sort that only uses `<` (called at pddl/formatter.py:53, 89). -/
def sortedBy {α} (lt : α → α → Bool) (l : List α) : List α := sortBy (fun a b => !lt b a) l

end Pddl
