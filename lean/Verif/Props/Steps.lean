/- C86: the number of iterations of `find_cycle`. -/
import Verif.Proofs.CycleSteps

namespace Pddl.Props
open Pddl Spec

/-- The number of nodes and edges of a graph. -/
def graphSize (g : Graph) : Nat := g.length + (g.map (fun p => (p.2.getD []).length)).sum

/-- A graph as Python represents it: a dictionary (every node once) of sets (every neighbour once). -/
def IsGraph (g : Graph) : Prop := IsDict g ∧ ∀ p ∈ g, (p.2.getD []).Nodup

/-- The statement in full: the number of iterations is bounded by a polynomial in the size of the
graph. An iteration takes a node of the `for` loop or pops the stack. -/
def C86_full : Prop :=
  ∃ c k : Nat, ∀ g : Graph, IsGraph g →
    ∃ r, cycleRun g (c * graphSize g ^ k + c) (cycleInit g) = some r

/-- For every number of nodes there is a graph without cycles on which the number of iterations is more
than an exponential of that number. -/
theorem C86_exponential (n : Nat) : ∃ g : Graph, g.length = n + 1 ∧ IsGraph g ∧ ¬ Cyclic g ∧
    cycleRun g (2 ^ n) (cycleInit g) = none := by
  refine ⟨allBelow (n + 1), allBelow_length _, ⟨allBelow_dict _, allBelow_sets _⟩, below_acyclic _, below_lower n⟩

theorem C86_fails : ¬ C86_full := by
  rintro ⟨c, k, h⟩
  obtain ⟨n, hn⟩ := two_pow_outgrows c k
  obtain ⟨r, hr⟩ := h (allBelow (n + 1)) ⟨allBelow_dict _, allBelow_sets _⟩
  have hs : graphSize (allBelow (n + 1)) ≤ (n + 1) + (n + 1) * (n + 1) := by
    have := allBelow_edges (n + 1)
    simp only [graphSize, allBelow_length]
    omega
  have hp := Nat.pow_le_pow_left hs k
  have hle : c * graphSize (allBelow (n + 1)) ^ k + c ≤ 2 ^ n := by
    have := Nat.mul_le_mul_left c hp
    omega
  obtain ⟨m, hm⟩ := Nat.exists_eq_add_of_le hle
  have := below_lower n
  rw [hm, run_mono hr] at this
  cases this

/-- Where every node has at most one successor, the number of iterations is at most quadratic in the
number of nodes. -/
theorem C86_partial (g : Graph) (h : ∀ p ∈ g, (p.2.getD []).length ≤ 1) :
    ∃ r, cycleRun g (g.length * (g.length + 2) + 1) (cycleInit g) = some r := by
  apply chain_bound
  intro v
  unfold Graph.nbrs
  split
  · next l hl => simpa using h _ (lookup_mem hl)
  · simp

/-- So it is for the graph of every dictionary of types that `Types` checks, cyclic or not. -/
theorem C86_hierarchy (d : TypeDict) :
    ∃ r, cycleRun (typeGraph d) (d.length * (d.length + 2) + 1) (cycleInit (typeGraph d)) = some r := by
  have := chain_bound (typeGraph_nbrs d)
  simpa [typeGraph] using this

/-- The bound cannot be made linear: for every number of types there is an accepted hierarchy that takes
more than a quadratic number of iterations. -/
theorem C86_quadratic (n : Nat) : ∃ d : TypeDict, d.length = n ∧ IsDict d ∧
    (∃ d', mkTypes d [.typing] = .ok d') ∧
    cycleRun (typeGraph d) (n * (n + 1) / 2) (cycleInit (typeGraph d)) = none :=
  ⟨chainTypes n, by simp [chainTypes], chainTypes_dict n, chainTypes_ok n, chain_lower n⟩

/-- Four types in a chain: fifteen iterations. -/
example : (cycleRun (typeGraph (chainTypes 4)) 14 (cycleInit (typeGraph (chainTypes 4))),
    cycleRun (typeGraph (chainTypes 4)) 15 (cycleInit (typeGraph (chainTypes 4)))) = (none, some none) := by
  decide +kernel

/-- A graph of five nodes without cycles, each with an edge to all lower ones. -/
example : cycleRun (allBelow 5) 16 (cycleInit (allBelow 5)) = none ∧
    cycleRun (allBelow 5) 22 (cycleInit (allBelow 5)) = some none := by decide +kernel

end Pddl.Props
