/-
C29: round trips through text.
-/
import Verif.Proofs.PlanText
import Verif.Proofs.EqDomain
import Verif.Proofs.DecEq

namespace Pddl.Props
open Spec

/-! ### C29: plans -/

/-- C29. Parsing the text of a plan gives back an equal plan, for every plan whose action names have
the shape of names and whose arguments are constants with valid names (typed or not). -/
theorem C29_roundtrip (p : Plan)
    (h : ∀ s ∈ p.steps, NameShape s.1 ∧ ∀ t ∈ s.2, ∃ n tag, t = Term.const n tag ∧ ValidName n) :
    ∃ q, parsePlan p.str = .ok q ∧ p.pyEq q = true := by
  refine ⟨_, parsePlan_str h, ?_⟩
  simp only [Plan.pyEq, stepsEq_iff, List.map_map]
  apply List.map_congr_left
  intro s hs
  simp only [Function.comp, List.map_map, Prod.mk.injEq, true_and]
  apply List.map_congr_left
  intro t ht
  obtain ⟨n, tag, rfl, _⟩ := (h s hs).2 t ht
  rfl

/-- C29. In detail: the same steps in the same order, with the same constant names; the types of the
constants are not written. -/
theorem C29_steps (p : Plan)
    (h : ∀ s ∈ p.steps, NameShape s.1 ∧ ∀ t ∈ s.2, ∃ n tag, t = Term.const n tag ∧ ValidName n) :
    (parsePlan p.str).map (fun q => q.steps.map (fun s => (s.1, s.2.map (fun t => (t.name, t.tags))))) =
      .ok (p.steps.map (fun s => (s.1, s.2.map (fun t => (t.name, []))))) := by
  rw [parsePlan_str h]
  simp only [Except.map, List.map_map]
  congr 1
  apply List.map_congr_left
  intro s _
  simp only [Function.comp, List.map_map]
  congr 1

/-- A plan with a typed constant, a step without arguments and a name that starts like a keyword. -/
example : ∀ s ∈ (⟨[(s%"move-2", [.const s%"a" (some s%"t"), .const s%"and_b" none]), (s%"stop", [])]⟩ : Plan).steps,
    NameShape s.1 ∧ ∀ t ∈ s.2, ∃ n tag, t = Term.const n tag ∧ ValidName n := by
  intro s hs
  simp only [List.mem_cons, List.not_mem_nil, or_false] at hs
  rcases hs with rfl | rfl
  · refine ⟨(nameRegex_iff _).1 (by decide), ?_⟩
    intro t ht
    simp only [List.mem_cons, List.not_mem_nil, or_false] at ht
    rcases ht with rfl | rfl
    · exact ⟨_, _, rfl, (valid_iff _).2 (by decide)⟩
    · exact ⟨_, _, rfl, (valid_iff _).2 (by decide)⟩
  · exact ⟨(nameRegex_iff _).1 (by decide), by simp⟩

end Pddl.Props
