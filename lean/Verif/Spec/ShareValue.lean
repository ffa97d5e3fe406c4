/-
What is passed to the constructors and returned by the properties (C85).
-/
import Verif.Spec.Share

namespace Pddl.Spec
open Share

/-- The argument is left out and the contents are empty, or it is a variable that holds a collection with these contents. -/
def Passed {α : Type} (w : World) (kind : List α → Cell) : Option Nat → List α → Prop
  | none, l => l = []
  | some x, l => ∃ a fr, w.vars[x]? = some a ∧ w.heap[a]? = some (.cell fr (kind l))

/-- The collections that the properties of a domain return. -/
def domainField (d : Domain) : Field → Option Cell
  | .requirements => some (.reqs d.reqs)
  | .types => some (.types d.types)
  | .constants => some (.terms d.constants)
  | .predicates => some (.preds d.predicates)
  | .functions => some (.funs d.functions)
  | .derived => some (.derived d.derived)
  | .actions => some (.actions d.actions)
  | _ => none

/-- The collections that the properties of a problem return. -/
def problemField (p : Problem) : Field → Option Cell
  | .requirements => some (.reqs (match p.domain with | some d => d.reqs | none => p.reqs_.getD []))
  | .objects => some (.terms p.objects)
  | .init => some (.exprs p.init)
  | _ => none

end Pddl.Spec
