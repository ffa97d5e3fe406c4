/-
Domains with more rules.
-/
import Verif.Spec.DerivedMore
import Verif.Spec.Easier
import Verif.Spec.ReadExecute

namespace Pddl.Spec
open Pddl Grammar

/-- After the declarations there are only derived predicates and actions. -/
def RulesAndActions (r : DomainSections) : Prop :=
  ∀ t ∈ r.structures, (∃ b, t = section_ s%"derived" b) ∨ ∃ b, t = section_ s%"action" b

/-- The second domain text declares the same predicates and has all derived predicates of the first, and perhaps more. -/
structure MoreRules (r r' : DomainSections) : Prop where
  predicates : r'.predicates = r.predicates
  derived : ∀ b, section_ s%"derived" b ∈ r.structures → section_ s%"derived" b ∈ r'.structures

end Pddl.Spec
