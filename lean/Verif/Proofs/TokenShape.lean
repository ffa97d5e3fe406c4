/-
What the words and numbers of a text look like.
-/
import Verif.Proofs.Reader
import Verif.Spec.PrintProblem

namespace Pddl
open Spec

theorem Spec.DigitText.digits {w : Str} (h : DigitText w) : Digits w :=
  ⟨h.1, fun c hc => (digit_iff c).2 (h.2 c hc)⟩

theorem exec_numeral {w : Str} (h : Numeral w) : LSt.start.exec w = ([], .num w) := by
  induction h with
  | @digits w h =>
    obtain ⟨hne, hd⟩ := h.digits
    cases w with
    | nil => exact absurd rfl hne
    | cons c cs =>
      rw [LSt.exec]
      have : LSt.start.step c = ([], .num [c]) := by
        simp [LSt.step, LSt.ext, LSt.flush, isDigitC_begin (hd c (by simp))]
      rw [this]
      have h2 := exec_digits [c] (w := cs) (fun x hx => hd x (by simp [hx]))
      simp [h2]
  | @dot w b _ hb ih =>
    obtain ⟨hne, hd⟩ := hb.digits
    cases b with
    | nil => exact absurd rfl hne
    | cons c cs =>
      rw [exec_append, ih]
      have e1 : (LSt.num w).step '.' = ([], .numDot w) := by
        have : isDigitC '.' = false := by decide
        simp [LSt.step, LSt.ext, this]
      have e2 : (LSt.numDot w).step c = ([], .num (w ++ ['.', c])) := by
        simp [LSt.step, LSt.ext, hd c (by simp)]
      have h2 := exec_digits (w ++ ['.', c]) (w := cs) (fun x hx => hd x (by simp [hx]))
      simp [LSt.exec, e1, e2, h2]

theorem lex_numeral {w : Str} (h : Numeral w) : lex w = [.num w] := by
  rw [lex, run_eq_exec, exec_numeral h]; rfl

theorem numeral_noSemi {w : Str} (h : Numeral w) : ∀ c ∈ w, c ≠ ';' := by
  have hd : ∀ {w : Str}, DigitText w → ∀ c ∈ w, c ≠ ';' := by
    rintro w h c hc rfl
    have := h.digits.2 ';' hc
    revert this; decide
  induction h with
  | digits h => exact hd h
  | dot _ hb ih =>
    intro c hc
    rcases List.mem_append.1 hc with hc | hc
    · exact ih c hc
    · rcases List.mem_cons.1 hc with rfl | hc
      · decide
      · exact hd hb c hc

theorem Prints.numeral {w : Str} (h : Numeral w) : Prints w [.atom (.num w)] :=
  ⟨numeral_noSemi h, by rw [lex_numeral h]; exact Reads.atom (by simp) (by simp)⟩

/-! ### All tokens of a text -/

/-- Words are names, numbers are numerals. -/
def TokShape : Tok → Prop
  | .name n => NameShape n
  | .num w => Numeral w
  | _ => True

/-- What has been read in a state. -/
def LSt.Shape : LSt → Prop
  | .word a => NameShape a
  | .num a => Numeral a
  | .numDot a => Numeral a
  | .colon a => ∀ c ∈ a, isNameC c = true
  | _ => True

theorem colonToks_shape {a : Str} (h : ∀ c ∈ a, isNameC c = true) : ∀ t ∈ colonToks a, TokShape t := by
  intro t ht
  unfold colonToks at ht
  split at ht
  · simp at ht; subst ht; trivial
  · rename_i k _
    split at ht
    · simp at ht; subst ht; trivial
    · rename_i c cs e
      have hm : ∀ x ∈ c :: cs, x ∈ a := fun x hx => List.mem_of_mem_drop (by rw [e]; exact hx)
      split at ht
      · rename_i ha
        simp only [List.mem_cons, List.not_mem_nil, or_false] at ht
        rcases ht with rfl | rfl
        · trivial
        · exact ⟨c, cs, rfl, (letter_iff c).1 ha, fun x hx => (nameC_iff x).1 (h x (hm x (by simp [hx])))⟩
      · simp only [List.mem_cons, List.not_mem_nil, or_false] at ht
        rcases ht with rfl | rfl <;> trivial

theorem flush_shape {s : LSt} (h : s.Shape) : ∀ t ∈ s.flush, TokShape t := by
  intro t ht
  cases s with
  | start => simp [LSt.flush] at ht
  | comment => simp [LSt.flush] at ht
  | word a => simp [LSt.flush] at ht; subst ht; exact h
  | num a => simp [LSt.flush] at ht; subst ht; exact h
  | numDot a =>
    simp [LSt.flush] at ht
    rcases ht with rfl | rfl
    · exact h
    · trivial
  | colon a => exact colonToks_shape h t ht
  | gt => simp [LSt.flush] at ht; subst ht; trivial
  | lt => simp [LSt.flush] at ht; subst ht; trivial

theorem digitText_single {c : Char} (h : isDigitC c = true) : DigitText [c] :=
  ⟨by simp, by intro x hx; simp at hx; subst hx; exact (digit_iff _).1 h⟩

theorem Spec.Numeral.snoc {w : Str} (h : Numeral w) {c : Char} (hc : isDigitC c = true) : Numeral (w ++ [c]) := by
  have key : ∀ {w : Str}, DigitText w → DigitText (w ++ [c]) := by
    intro w h
    refine ⟨by simp, ?_⟩
    intro x hx
    rcases List.mem_append.1 hx with hx | hx
    · exact h.2 x hx
    · simp at hx; subst hx; exact (digit_iff _).1 hc
  cases h with
  | digits h => exact .digits (key h)
  | @dot w b hw hb =>
    have := Numeral.dot hw (key hb)
    simpa using this

theorem begin_shape (c : Char) : (∀ t ∈ (lexBegin c).1, TokShape t) ∧ (lexBegin c).2.Shape := by
  unfold lexBegin
  by_cases h0 : isSpaceC c = true
  · rw [if_pos h0]
    exact ⟨by simp [TokShape], by simp [LSt.Shape]⟩
  rw [if_neg h0]
  by_cases h1 : c = ';'
  · rw [if_pos h1]
    exact ⟨by simp [TokShape], by simp [LSt.Shape]⟩
  rw [if_neg h1]
  by_cases h2 : c = '('
  · rw [if_pos h2]
    exact ⟨by simp [TokShape], by simp [LSt.Shape]⟩
  rw [if_neg h2]
  by_cases h3 : c = ')'
  · rw [if_pos h3]
    exact ⟨by simp [TokShape], by simp [LSt.Shape]⟩
  rw [if_neg h3]
  by_cases h4 : c = '?'
  · rw [if_pos h4]
    exact ⟨by simp [TokShape], by simp [LSt.Shape]⟩
  rw [if_neg h4]
  by_cases h5 : c = '-'
  · rw [if_pos h5]
    exact ⟨by simp [TokShape], by simp [LSt.Shape]⟩
  rw [if_neg h5]
  by_cases h6 : c = '='
  · rw [if_pos h6]
    exact ⟨by simp [TokShape], by simp [LSt.Shape]⟩
  rw [if_neg h6]
  by_cases h7 : c = '+'
  · rw [if_pos h7]
    exact ⟨by simp [TokShape], by simp [LSt.Shape]⟩
  rw [if_neg h7]
  by_cases h8 : c = '*'
  · rw [if_pos h8]
    exact ⟨by simp [TokShape], by simp [LSt.Shape]⟩
  rw [if_neg h8]
  by_cases h9 : c = '/'
  · rw [if_pos h9]
    exact ⟨by simp [TokShape], by simp [LSt.Shape]⟩
  rw [if_neg h9]
  by_cases h10 : c = '>'
  · rw [if_pos h10]
    exact ⟨by simp [TokShape], by simp [LSt.Shape]⟩
  rw [if_neg h10]
  by_cases h11 : c = '<'
  · rw [if_pos h11]
    exact ⟨by simp [TokShape], by simp [LSt.Shape]⟩
  rw [if_neg h11]
  by_cases h12 : c = ':'
  · rw [if_pos h12]
    exact ⟨by simp [TokShape], by simp [LSt.Shape]⟩
  rw [if_neg h12]
  by_cases ha : isAlphaC c = true
  · rw [if_pos ha]
    exact ⟨by simp, ⟨c, [], rfl, (letter_iff c).1 ha, by simp⟩⟩
  rw [if_neg ha]
  by_cases hd : isDigitC c = true
  · rw [if_pos hd]
    exact ⟨by simp, .digits (digitText_single hd)⟩
  rw [if_neg hd]
  exact ⟨by simp [TokShape], by simp [LSt.Shape]⟩

theorem ext_shape {s : LSt} (h : s.Shape) {c : Char} {r : List Tok × LSt} (e : s.ext c = some r) :
    (∀ t ∈ r.1, TokShape t) ∧ r.2.Shape := by
  cases s with
  | start => simp [LSt.ext] at e
  | comment =>
    simp only [LSt.ext] at e
    split at e <;> simp at e
    subst e; exact ⟨by simp, trivial⟩
  | word a =>
    simp only [LSt.ext] at e
    split at e <;> simp at e
    rename_i hc
    subst e
    obtain ⟨x, xs, rfl, h1, h2⟩ := h
    refine ⟨by simp, x, xs ++ [c], by simp, h1, ?_⟩
    intro y hy
    rcases List.mem_append.1 hy with hy | hy
    · exact h2 y hy
    · simp at hy; subst hy; exact (nameC_iff _).1 hc
  | num a =>
    simp only [LSt.ext] at e
    split at e
    · rename_i hc
      simp at e; subst e
      exact ⟨by simp, h.snoc hc⟩
    · split at e <;> simp at e
      subst e; exact ⟨by simp, h⟩
  | numDot a =>
    simp only [LSt.ext] at e
    split at e <;> simp at e
    rename_i hc
    subst e
    exact ⟨by simp, Numeral.dot h (digitText_single hc)⟩
  | colon a =>
    simp only [LSt.ext] at e
    split at e <;> simp at e
    rename_i hc
    subst e
    refine ⟨by simp, ?_⟩
    intro y hy
    rcases List.mem_append.1 hy with hy | hy
    · exact h y hy
    · simp at hy; subst hy; exact hc
  | gt =>
    simp only [LSt.ext] at e
    split at e <;> simp at e
    subst e; exact ⟨by intro t ht; simp at ht; subst ht; trivial, trivial⟩
  | lt =>
    simp only [LSt.ext] at e
    split at e <;> simp at e
    subst e; exact ⟨by intro t ht; simp at ht; subst ht; trivial, trivial⟩

theorem step_shape {s : LSt} (h : s.Shape) (c : Char) :
    (∀ t ∈ (s.step c).1, TokShape t) ∧ (s.step c).2.Shape := by
  unfold LSt.step
  split
  · rename_i r e; exact ext_shape h e
  · refine ⟨?_, (begin_shape c).2⟩
    intro t ht
    rcases List.mem_append.1 ht with ht | ht
    · exact flush_shape h t ht
    · exact (begin_shape c).1 t ht

theorem run_shape {s : LSt} (h : s.Shape) (w : Str) : ∀ t ∈ s.run w, TokShape t := by
  induction w generalizing s with
  | nil => exact flush_shape h
  | cons c cs ih =>
    intro t ht
    rw [LSt.run] at ht
    rcases List.mem_append.1 ht with ht | ht
    · exact (step_shape h c).1 t ht
    · exact ih (step_shape h c).2 t ht

theorem lex_shape (w : Str) : ∀ t ∈ lex w, TokShape t := run_shape (s := .start) trivial w

/-! ### All leaves of the trees of a text -/

mutual
def Tree.Shape : Tree → Prop
  | .atom t => TokShape t
  | .node l => Tree.Shapes l
def Tree.Shapes : List Tree → Prop
  | [] => True
  | t :: ts => t.Shape ∧ Tree.Shapes ts
end

theorem shapes_iff {l : List Tree} : Tree.Shapes l ↔ ∀ t ∈ l, t.Shape := by
  induction l with
  | nil => simp [Tree.Shapes]
  | cons t l ih => simp [Tree.Shapes, ih]

theorem readAux_shape {ts : List Tok} {cur : List Tree} {st : List (List Tree)} {r : List Tree}
    (h : readAux ts cur st = some r) (h1 : ∀ t ∈ ts, TokShape t) (h2 : Tree.Shapes cur)
    (h3 : ∀ l ∈ st, Tree.Shapes l) : Tree.Shapes r := by
  have rev : ∀ {l : List Tree}, Tree.Shapes l → Tree.Shapes l.reverse := by
    intro l h; rw [shapes_iff] at *; intro t ht; exact h t (by simpa using ht)
  fun_induction readAux ts cur st with
  | case1 cur => simp at h; subst h; exact rev h2
  | case2 => simp at h
  | case3 ts cur st ih =>
    exact ih h (fun t ht => h1 t (by simp [ht])) trivial (by
      intro l hl
      rcases List.mem_cons.1 hl with rfl | hl
      · exact h2
      · exact h3 l hl)
  | case4 => simp at h
  | case5 ts cur s st ih =>
    exact ih h (fun t ht => h1 t (by simp [ht])) ⟨rev h2, h3 s (by simp)⟩ (fun l hl => h3 l (by simp [hl]))
  | case6 t ts cur st _ _ _ ih =>
    exact ih h (fun t ht => h1 t (by simp [ht])) ⟨h1 t (by simp), h2⟩ h3

theorem readText_shape {t : Str} {ts : List Tree} (h : readText t = .ok ts) : ∀ x ∈ ts, x.Shape := by
  unfold readText at h
  split at h
  · rename_i r e
    simp at h; subst h
    exact shapes_iff.1 (readAux_shape e (lex_shape t) trivial (by simp))
  · simp at h

end Pddl
