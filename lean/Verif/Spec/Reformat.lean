/-
Formatting twice: declarations as the constructors make them.
-/
import Verif.Spec.Reorder

namespace Pddl.Spec
open Pddl

/-- The types of the variables in the declarations and in the heads of the derived predicates are sets. -/
structure DeclaredSets (d : Domain) : Prop where
  predicates : ∀ p ∈ d.predicates, ∀ t ∈ p.terms, t.tags.Nodup
  derived : ∀ x ∈ d.derived, ∀ t ∈ x.pred.terms, t.tags.Nodup

end Pddl.Spec
