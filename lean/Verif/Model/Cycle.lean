/-
`find_cycle` (pddl/helpers/base.py:173-193).
-/
import Verif.Model.Py

namespace Pddl

/-- A graph: a dictionary from nodes to an optional set of neighbours (in
iteration order) (pddl/helpers/base.py:173). -/
abbrev Graph := List (Str × Option (List Str))

/-- `graph.get(current)`, with `None` read as no neighbours (lines 188-191). -/
def Graph.nbrs (g : Graph) (v : Str) : List Str :=
  match dictGet g v with
  | some (some l) => l
  | _ => []

/-- State of the two nested loops: nodes still to be tried by the `for` loop,
`visited`, and `stack` (head = top of the Python stack) (pddl/helpers/base.py:175-184). -/
structure CycleState where
  todo : List Str
  visited : List Str
  stack : List (Str × List Str)

/-- One iteration: pop the stack (lines 183-191), or take the next node of the
`for` loop (lines 178-180). `inr r` means the function returns `r`. -/
def cycleStep (g : Graph) (s : CycleState) : CycleState ⊕ Option (List Str) :=
  match s.stack with
  | (cur, path) :: rest =>
    if cur ∈ path then .inr (some path)
    else .inl { todo := s.todo, visited := cur :: s.visited,
                stack := ((g.nbrs cur).map (fun n => (n, path ++ [cur]))).reverse ++ rest }
  | [] =>
    match s.todo with
    | [] => .inr none
    | v :: todo =>
      if v ∈ s.visited then .inl { s with todo := todo }
      else .inl { s with todo := todo, stack := [(v, [])] }

/-- At most `n` iterations; `none` when the function has not returned by then (pddl/helpers/base.py:178-191). -/
def cycleRun (g : Graph) : Nat → CycleState → Option (Option (List Str))
  | 0, _ => none
  | n + 1, s => match cycleStep g s with
    | .inr r => some r
    | .inl s' => cycleRun g n s'

/-- The initial state (pddl/helpers/base.py:175-176). -/
def cycleInit (g : Graph) : CycleState := ⟨g.map Prod.fst, [], []⟩

/-- The call `find_cycle(g)` returns `r` (pddl/helpers/base.py:173-193). -/
def FindCycle (g : Graph) (r : Option (List Str)) : Prop :=
  ∃ n, cycleRun g n (cycleInit g) = some r

/-- A number of iterations that always suffices (proved in
`Verif/Proofs/Cycle.lean`, `findCycle_spec`): the loop never reaches it (not in pddl/helpers/base.py). -/
def cycleFuel (g : Graph) : Nat :=
  let d := (g.map (fun p => (p.2.getD []).length)).sum + 1
  let n := g.length
  (n + 1) * ((d + 1) ^ (n + 2) + 2)

/-- `find_cycle(g)`, computed with that many iterations (pddl/helpers/base.py:173-193). -/
def findCycle (g : Graph) : Option (List Str) :=
  (cycleRun g (cycleFuel g) (cycleInit g)).getD none

end Pddl
