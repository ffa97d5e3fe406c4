/-
Two texts of a problem with the same declarations in another order.
-/
import Verif.Spec.Rearranged
import Verif.Spec.WrittenProblem

namespace Pddl.Spec
open Pddl Grammar

/-- The same requirements, objects and initial facts in another order; the same goal and metric. Requirements and
initial facts may be repeated. -/
structure RearrangedProblem (s s' : ProblemSections) : Prop where
  name : s.name = s'.name
  domain : s.domain = s'.domain
  reqs : SameOpt (fun b b' => ∀ t, t ∈ b ↔ t ∈ b') s.reqs s'.reqs
  objects : SameOpt SameConstantsText s.objects s'.objects
  init : ∀ t, t ∈ s.init ↔ t ∈ s'.init
  goal : s.goal = s'.goal
  metric : s.metric = s'.metric

/-- Two parsers that know the same objects. -/
def SameObjects (σ τ : List (Str × Term)) : Prop := ∀ n, σ.lookup n = τ.lookup n

end Pddl.Spec
