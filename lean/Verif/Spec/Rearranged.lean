/-
Two texts of a domain with the same declarations in another order.
-/
import Verif.Spec.Written
import Verif.Spec.Args

namespace Pddl.Spec
open Pddl Grammar

/-- `object` as the written supertype of a type is as good as none. -/
def objectless (p : Str × Option Str) : Str × Option Str := (p.1, if p.2 = some s%"object" then none else p.2)

/-- No `-` without names before it. -/
def NoEmptyGroup (l : NameList) : Prop := ∀ g ∈ l.groups, g.1 ≠ []

/-- `:typing` is among the written requirements, or `:adl`, which includes it. -/
def TypingIn (b : Option (List Tree)) : Prop :=
  .atom (.kw s%"typing") ∈ b.getD [] ∨ .atom (.kw s%"adl") ∈ b.getD []

/-- The same types with the same supertypes. With typing, a supertype `object` may be left out. -/
def SameTypesText (typing : Prop) (b b' : List Tree) : Prop :=
  ∃ l l' : NameList, b = l.text ∧ b' = l'.text ∧ NoEmptyGroup l ∧ NoEmptyGroup l' ∧
    (l.pairs.Perm l'.pairs ∨ typing ∧ (l.pairs.map objectless).Perm (l'.pairs.map objectless))

/-- The same constants with the same types. -/
def SameConstantsText (b b' : List Tree) : Prop :=
  ∃ l l' : NameList, b = l.text ∧ b' = l'.text ∧ NoEmptyGroup l ∧ NoEmptyGroup l' ∧ l.pairs.Perm l'.pairs

/-- The same functions, each with `- number` or without it. -/
def SameFunctionsText (b b' : List Tree) : Prop :=
  ∃ l l', FunctionsText b l ∧ FunctionsText b' l' ∧ (∀ p ∈ l, ∃ c, p.1 = .node c) ∧ l.Perm l'

/-- First the derived predicates, then the actions, in some order each. -/
def SameStructures (ts ts' : List Tree) : Prop :=
  ∃ ds as ds' as', ts = ds ++ as ∧ ts' = ds' ++ as' ∧ ds.Perm ds' ∧ as.Perm as' ∧
    (∀ t ∈ ds, ∃ b, t = section_ s%"derived" b) ∧ ∀ t ∈ as, ∃ b, t = section_ s%"action" b

/-- The same sections with the same declarations, in another order; nothing is said about actions and derived
predicates. -/
structure SameDeclarations (s s' : DomainSections) : Prop where
  name : s.name = s'.name
  reqs : SameOpt (fun b b' => ∀ t, t ∈ b ↔ t ∈ b') s.reqs s'.reqs
  types : SameOpt (SameTypesText (TypingIn s.reqs)) s.types s'.types
  constants : SameOpt SameConstantsText s.constants s'.constants
  predicates : SameOpt List.Perm s.predicates s'.predicates
  functions : SameOpt SameFunctionsText s.functions s'.functions

/-- The same sections, in another order. -/
structure Rearranged (s s' : DomainSections) : Prop extends SameDeclarations s s' where
  structures : SameStructures s.structures s'.structures

/-- What a declaration begins with. -/
def headOf : Tree → Option Tree
  | .node (h :: _) => some h
  | _ => none

/-- If there are derived predicates: no two declared predicates have the same name. -/
def DistinctHeads (s : DomainSections) : Prop :=
  (∃ b, section_ s%"derived" b ∈ s.structures) → ((s.predicates.getD []).map headOf).Nodup

end Pddl.Spec
