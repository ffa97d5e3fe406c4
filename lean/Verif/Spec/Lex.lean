/-
Specification of layout: a text is a sequence of chunks separated by gaps, and a gap is a
sequence of white space characters and comments.
-/
import Verif.Model.Py

namespace Pddl.Spec

/-- Unicode white space (the characters `c` with `c.isspace()`). -/
def IsSpace (c : Char) : Prop :=
  c.toNat ∈ [9, 10, 11, 12, 13, 28, 29, 30, 31, 32, 133, 160, 5760, 8192, 8193, 8194, 8195, 8196,
    8197, 8198, 8199, 8200, 8201, 8202, 8232, 8233, 8239, 8287, 12288]

instance (c : Char) : Decidable (IsSpace c) := by unfold IsSpace; infer_instance

/-- White space and comments; a comment runs from `;` to the end of the line. -/
inductive Gap : Str → Prop
  | nil : Gap []
  | space {c g} : IsSpace c → Gap g → Gap (c :: g)
  | comment {body g} : (∀ c ∈ body, c ≠ '\n') → Gap g → Gap (';' :: body ++ '\n' :: g)

/-- A gap at the end of the text: its last comment need not be closed. -/
def TailGap (g : Str) : Prop :=
  Gap g ∨ ∃ g' body, Gap g' ∧ (∀ c ∈ body, c ≠ '\n') ∧ g = g' ++ ';' :: body

/-- The characters that stand for themselves whatever surrounds them. -/
def Bracket (c : Char) : Prop := c = '(' ∨ c = ')' ∨ c = '?'

instance (c : Char) : Decidable (Bracket c) := by unfold Bracket; infer_instance

/-- A chunk: a bracket or question mark, or a word without white space, `;` and brackets. -/
def Chunk (w : Str) : Prop :=
  (∃ c, Bracket c ∧ w = [c]) ∨
  (w ≠ [] ∧ ∀ c ∈ w, ¬ IsSpace c ∧ c ≠ ';' ∧ ¬ Bracket c)

/-- What may follow a chunk directly: anything after a bracket; after a word the end of the text,
white space, a comment or a bracket. -/
def Follows (w t : Str) : Prop :=
  (∃ c, Bracket c ∧ w = [c]) ∨ t = [] ∨
  ∃ c t', t = c :: t' ∧ (IsSpace c ∨ c = ';' ∨ Bracket c)

/-- The text `t` consists of the chunks `ws` with gaps before, between and after them. -/
inductive Laid : List Str → Str → Prop
  | nil {g} : TailGap g → Laid [] g
  | cons {g w ws t} : Gap g → Chunk w → Laid ws t → Follows w t → Laid (w :: ws) (g ++ w ++ t)

end Pddl.Spec
