/-
Texts and domains with more declarations.
-/
import Verif.Spec.Rules

namespace Pddl.Spec
open Pddl Spec Grammar Rules

/-- The name in `(p ?x …)`. -/
def declName : Tree → Option Str
  | .node (.atom (.name n) :: _) => some n
  | _ => none

/-- The name of the action in `(:action n …)`. -/
def actionName : Tree → Option Str
  | .node (.atom (.kw _) :: .atom (.name n) :: _) => some n
  | _ => none

/-- The sections before the actions obey the rules. -/
def Rules.DeclarationsIn (F : FloatOf) (s : DomainSections) (D : Decls) : Prop :=
  SectionsIn F { s with structures := [] } D

/-- The second text declares what the first declares, and more: requirements, types, constants, predicates (the new
ones have other names, the others are in the same order), functions, and after the actions and derived predicates
of the first text further ones. -/
structure DeclaresMore (s s' : DomainSections) (D D' : Decls) (more : List Tree) : Prop where
  name : s'.name = s.name
  reqs : ∀ r ∈ D.reqs, r ∈ D'.reqs
  types : ∀ p ∈ D.types, p ∈ D'.types
  consts : ∀ p ∈ D.consts, p ∈ D'.consts
  predicates : (s'.predicates.getD []).filter (fun t => decide (declName t ∈ (s.predicates.getD []).map declName)) =
    s.predicates.getD []
  structures : s'.structures = s.structures ++ more

/-- A domain contains what another one contains, and more; new actions have other names than the old ones, new
predicates too. -/
structure Contains (d' d : Domain) : Prop where
  name : d'.name = d.name
  reqs : ∀ r ∈ d.reqs, r ∈ d'.reqs
  types : ∀ p ∈ d.types, p ∈ d'.types
  constants : ∀ c ∈ d.constants, c ∈ d'.constants
  predicates : d'.predicates.filter (fun p => decide (p.name ∈ d.predicates.map Pred.name)) = d.predicates
  derived : ∃ l, d'.derived = d.derived ++ l
  actions : d'.actions.filter (fun a => decide (a.name ∈ d.actions.map Action.name)) = d.actions

end Pddl.Spec
