/- Walks and cycles of directed graphs. -/
import Verif.Model.Py
import Mathlib.Logic.Relation

namespace Pddl.Spec
open Pddl

/-- The edge relation of an adjacency list: a node missing from the dictionary, or
with `None` as its value, has no successors. -/
def Edge (g : List (Str × Option (List Str))) (a b : Str) : Prop :=
  ∃ l, g.lookup a = some (some l) ∧ b ∈ l

/-- Some node can reach itself in one or more steps. -/
def Cyclic (g : List (Str × Option (List Str))) : Prop := ∃ v, Relation.TransGen (Edge g) v v

/-- Consecutive nodes of the sequence are joined by edges. -/
def Walk (g : List (Str × Option (List Str))) (p : List Str) : Prop := List.IsChain (Edge g) p

end Pddl.Spec
