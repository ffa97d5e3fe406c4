/-
What a printed table of types should contain.
-/
import Verif.Spec.Types

namespace Pddl.Spec
open Pddl

/-- The supertype a declared type is listed under: the one given, or `object`. The root `object`
itself is not listed. -/
inductive ListedUnder (d : TypeDict) : Str → Str → Prop
  | given {t p : Str} : Parent d t p → p ≠ s%"object" → ListedUnder d t p
  | top {t : Str} : Declared d t → (∀ p, Parent d t p → p = s%"object") → t ≠ s%"object" →
      ListedUnder d t s%"object"

/-- A line `a b c - p` of the table: the subtypes and their supertype. -/
abbrev Line := List Str × Str

/-- The text of a line. -/
def Line.text (l : Line) : Str :=
  s%"    " ++ (l.1.intersperse s%" ").flatten ++ s%" - " ++ l.2 ++ s%"\n"

/-- A complete table of the types of `d`, supertypes first. -/
structure TypeTable (d : TypeDict) (lines : List Line) : Prop where
  /-- the lines list each type under its supertype, and nothing else -/
  under : ∀ t p, (∃ l ∈ lines, l.2 = p ∧ t ∈ l.1) ↔ ListedUnder d t p
  /-- no type is listed twice -/
  once : (lines.flatMap Prod.fst).Nodup
  /-- no two lines have the same supertype -/
  groups : (lines.map Prod.snd).Nodup
  /-- the supertype of a line is listed on an earlier line -/
  before : ∀ A l B, lines = A ++ l :: B → l.2 = s%"object" ∨ ∃ l' ∈ A, l.2 ∈ l'.1

end Pddl.Spec
