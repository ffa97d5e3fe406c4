/-
Texts that differ in capital and small letters.
-/
import Verif.Spec.Rename
import Verif.Spec.Problem

namespace Pddl.Spec

/-- Two tokens that are the same, or two names with the same letters. -/
inductive Respelt : Tok → Tok → Prop
  | same (t) : Respelt t t
  | name {a b} : SameIgnoringCase a b → Respelt (.name a) (.name b)

/-- The texts have the same tokens; only the capital and small letters of names differ. -/
def RespeltText (t t' : Str) : Prop := List.Forall₂ Respelt (lex t) (lex t')

/-- Each name is always spelt in the same way, and no name differs from a word of the language only in capital and
small letters. -/
structure SpeltAlike (t : Str) : Prop where
  names : ∀ a b, Tok.name a ∈ lex t → Tok.name b ∈ lex t → SameIgnoringCase a b → a = b
  words : ∀ a w, Tok.name a ∈ lex t → Reserved w ∨ w = s%"number" → SameIgnoringCase a w → a = w

end Pddl.Spec
