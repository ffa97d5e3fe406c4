/-
Plans that change only the truth of finitely many atoms.
-/
import Verif.Spec.Interfere

namespace Pddl.Spec
open Pddl

/-- All the actions may change is whether the atoms of the list hold: they make some of them true and some of them false. -/
def OnlyFacts (facts : List Pred) (gs : List Action) : Prop :=
  ∀ g ∈ gs, ∀ c, MayChange g c → ∃ p ∈ facts, c = .add p ∨ c = .del p

end Pddl.Spec
