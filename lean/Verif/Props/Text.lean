/-
C37, C45: tokens, white space and comments.
-/
import Verif.Model.ParseProblem
import Verif.Proofs.Layout
import Verif.Proofs.DecEq

namespace Pddl.Props
open Spec

/-! ### C37: layout and comments do not matter -/

/-- C37. Two texts with the same chunks, whatever gaps (white space and comments) separate the
chunks, are parsed to the same result by the domain parser, the problem parser and the plan parser
(the result may be an exception). -/
theorem C37_layout {ws : List Str} {t t' : Str} (h : Laid ws t) (h' : Laid ws t') :
    (∀ F σ, parseDomain F σ t = parseDomain F σ t') ∧
    (∀ F σ, parseProblem F σ t = parseProblem F σ t') ∧
    parsePlan t = parsePlan t' := by
  have e : lex t = lex t' := by rw [lex_laid h, lex_laid h']
  have e' : readText t = readText t' := by simp only [readText, e]
  exact ⟨fun F σ => by simp only [parseDomain, e'], fun F σ => by simp only [parseProblem, e'],
    by simp only [parsePlan, e']⟩

/-- C37. The same for two texts whose chunks contain the same tokens although they are divided
differently (`=a` contains the tokens `=` and `a`). -/
theorem C37_tokens {ws ws' : List Str} {t t' : Str} (h : Laid ws t) (h' : Laid ws' t')
    (htok : ws.flatMap lex = ws'.flatMap lex) :
    (∀ F σ, parseDomain F σ t = parseDomain F σ t') ∧
    (∀ F σ, parseProblem F σ t = parseProblem F σ t') ∧
    parsePlan t = parsePlan t' := by
  have e : lex t = lex t' := by
    rw [lex_laid h, lex_laid h', ← List.flatMap_def, ← List.flatMap_def, htok]
  have e' : readText t = readText t' := by simp only [readText, e]
  exact ⟨fun F σ => by simp only [parseDomain, e'], fun F σ => by simp only [parseProblem, e'],
    by simp only [parsePlan, e']⟩

/-- C37. Every text is a sequence of chunks separated by gaps. -/
theorem C37_every_text (t : Str) : ∃ ws, Laid ws t := laid_exists t

theorem C37_example_a : Laid [s%"(", s%"move", s%"a", s%")"] s%"(move a)" := by
  refine .cons (g := []) (t := s%"move a)") .nil (Or.inl ⟨'(', by decide, rfl⟩) ?_
    (Or.inl ⟨'(', by decide, rfl⟩)
  refine .cons (g := []) (t := s%" a)") .nil (Or.inr ⟨by decide, by decide⟩) ?_
    (Or.inr (Or.inr ⟨' ', s%"a)", rfl, by decide⟩))
  refine .cons (g := [' ']) (t := s%")") (.space (by decide) .nil) (Or.inr ⟨by decide, by decide⟩) ?_
    (Or.inr (Or.inr ⟨')', [], rfl, by decide⟩))
  exact .cons (g := []) (t := []) .nil (Or.inl ⟨')', by decide, rfl⟩) (.nil (Or.inl .nil))
    (Or.inl ⟨')', by decide, rfl⟩)

theorem C37_example_b :
    Laid [s%"(", s%"move", s%"a", s%")"] s%"; plan (x\n( move;c\na\t) ; end" := by
  refine .cons (g := s%"; plan (x\n") (t := s%" move;c\na\t) ; end")
    (.comment (body := s%" plan (x") (by decide) .nil) (Or.inl ⟨'(', by decide, rfl⟩) ?_
    (Or.inl ⟨'(', by decide, rfl⟩)
  refine .cons (g := [' ']) (t := s%";c\na\t) ; end") (.space (by decide) .nil)
    (Or.inr ⟨by decide, by decide⟩) ?_ (Or.inr (Or.inr ⟨';', s%"c\na\t) ; end", rfl, by decide⟩))
  refine .cons (g := s%";c\n") (t := s%"\t) ; end") (.comment (body := s%"c") (by decide) .nil)
    (Or.inr ⟨by decide, by decide⟩) ?_ (Or.inr (Or.inr ⟨'\t', s%") ; end", rfl, by decide⟩))
  exact .cons (g := ['\t']) (t := s%" ; end") (.space (by decide) .nil)
    (Or.inl ⟨')', by decide, rfl⟩)
    (.nil (Or.inr ⟨[' '], s%" end", .space (by decide) .nil, by decide, rfl⟩))
    (Or.inl ⟨')', by decide, rfl⟩)

/-- The two layouts are different texts and the result is a plan, not an exception. -/
example : s%"(move a)" ≠ s%"; plan (x\n( move;c\na\t) ; end" ∧
    (parsePlan s%"(move a)").map Plan.steps = .ok [(s%"move", [.const s%"a" none])] := by
  decide +kernel

/-! ### C45: layout of the printed text -/

/-- The characters at which `str.splitlines` breaks a line. -/
def LineBoundary (c : Char) : Prop := c.toNat ∈ [10, 11, 12, 13, 28, 29, 30, 133, 8232, 8233]

theorem lineBoundary_iff (c : Char) : isLineC c = true ↔ LineBoundary c := by
  simp only [isLineC, LineBoundary, Bool.or_eq_true, Bool.and_eq_true, decide_eq_true_eq,
    beq_iff_eq, List.mem_cons, List.not_mem_nil, or_false]
  omega

/-- C45 as stated: removing the empty lines keeps the tokens of every text. -/
def C45_full : Prop := ∀ t, lex (removeEmptyLines t) = lex t

/-- C45 fails: a comment containing a vertical tab (`;` VT `(`) is split into two lines by
`splitlines`, joined again with a newline, and the end of the comment becomes a token. -/
theorem C45_fails : ¬ C45_full := by
  intro h
  have := h [';', Char.ofNat 11, '(']
  revert this
  decide +kernel

/-- C45, partial: tokens are kept for every text that has no `;`, or in which the newline is the
only line boundary. What is missing are texts with a comment and one of the other boundaries; the
printer produces neither. -/
theorem C45_removeEmptyLines_partial (t : Str)
    (h : (∀ c ∈ t, c ≠ ';') ∨ (∀ c ∈ t, LineBoundary c → c = '\n')) :
    lex (removeEmptyLines t) = lex t :=
  lex_removeEmptyLines_plain (h.imp id (fun h c hc hl => h c hc ((lineBoundary_iff c).1 hl)))

/-- C45. Indenting with any prefix of blanks keeps the tokens of every text. -/
theorem C45_indent (p t : Str) (hp : ∀ c ∈ p, IsSpace c ∧ c ≠ '\n') : lex (indent t p) = lex t :=
  lex_indent hp t

/-- C45. The last step of printing a domain or a problem puts the tokens of the body between those
of the head and the closing bracket, for every head and body without `;`. -/
theorem C45_layout (head body : Str) (hh : ∀ c ∈ head, c ≠ ';') (hb : ∀ c ∈ body, c ≠ ';') :
    lex (layout head body) = lex head ++ lex body ++ [.rpar] := lex_layout hh hb

/-- C45. The lines of the result are the lines of the text that are not blank, in order. -/
theorem C45_lines (t : Str) : splitLines (removeEmptyLines t) =
    (splitLines t).filter (fun l => decide (∃ c ∈ l, ¬ IsSpace c)) := by
  rw [splitLines_removeEmptyLines]
  apply List.filter_congr
  intro l _
  simp only [ne_eq, decide_not, strip_eq_nil, decide_eq_decide, ← decide_not]
  push Not
  rfl

/-- C45. No blank line is left. -/
theorem C45_no_blank_line (t l : Str) (h : l ∈ splitLines (removeEmptyLines t)) :
    ∃ c ∈ l, ¬ IsSpace c := by
  rw [C45_lines] at h
  simpa using (List.mem_filter.1 h).2

example : removeEmptyLines s%"(a\n\n  \n b)\n" = s%"(a\n b)" ∧
    indent s%"(a\n\n b)\n" s%"  " = s%"  (a\n\n   b)\n" := by decide +kernel

end Pddl.Props
