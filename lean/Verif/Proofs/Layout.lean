/-
`indent`, `remove_empty_lines` and the tokens.
-/
import Verif.Model.Print
import Verif.Proofs.Lex

namespace Pddl
open Spec

theorem isLineC_space {c : Char} (h : isLineC c = true) : IsSpace c := by
  simp only [isLineC, Bool.or_eq_true, Bool.and_eq_true, decide_eq_true_eq, beq_iff_eq] at h
  simp only [IsSpace, List.mem_cons, List.not_mem_nil, or_false]
  omega

/-- A complete line: characters, then a boundary. -/
def FullLine (l : Str) : Prop :=
  ∃ b e, l = b ++ e ∧ (∀ c ∈ b, isLineC c = false) ∧ (e = ['\r', '\n'] ∨ ∃ c, e = [c] ∧ isLineC c = true)

/-- A last line without boundary. -/
def LastLine (l : Str) : Prop := l ≠ [] ∧ ∀ c ∈ l, isLineC c = false

theorem splitLinesK_spec (cur t : Str)
    (h : (∀ c ∈ cur, isLineC c = false) ∨
      ∃ b, cur = b ++ ['\r'] ∧ (∀ c ∈ b, isLineC c = false) ∧ t.head? = some '\n') :
    cur ++ t = (splitLinesK cur t).flatten ∧
    ∃ ls last, splitLinesK cur t = ls ++ last ∧ (∀ l ∈ ls, FullLine l) ∧
      (last = [] ∨ ∃ l, last = [l] ∧ LastLine l) := by
  induction t generalizing cur with
  | nil =>
    rw [splitLinesK]
    rcases h with h | ⟨b, _, _, h⟩
    · by_cases hc : cur = []
      · simp only [hc, if_true]
        exact ⟨rfl, [], [], rfl, by simp, Or.inl rfl⟩
      · rw [if_neg hc]
        exact ⟨by simp, [], [cur], rfl, by simp, Or.inr ⟨cur, rfl, hc, h⟩⟩
    · simp at h
  | cons c cs ih =>
    rw [splitLinesK]
    by_cases h1 : c = '\r' ∧ cs.head? = some '\n'
    · rw [if_pos h1]
      have hcur : ∀ c ∈ cur, isLineC c = false := by
        rcases h with h | ⟨b, rfl, hb, h⟩
        · exact h
        · simp at h; rw [h] at h1; exact absurd h1.1 (by decide)
      have := ih (cur ++ [c]) (Or.inr ⟨cur, by rw [h1.1], hcur, h1.2⟩)
      refine ⟨by rw [← this.1]; simp, this.2⟩
    · rw [if_neg h1]
      by_cases h2 : isLineC c = true
      · rw [if_pos h2]
        obtain ⟨hf, ls, last, e, hls, hlast⟩ := ih [] (Or.inl (by simp))
        refine ⟨by rw [List.flatten_cons, ← hf]; simp, (cur ++ [c]) :: ls, last, by rw [e]; rfl, ?_, hlast⟩
        intro l hl
        rcases List.mem_cons.1 hl with rfl | hl
        · rcases h with h | ⟨b, rfl, hb, h⟩
          · exact ⟨cur, [c], rfl, h, Or.inr ⟨c, rfl, h2⟩⟩
          · simp at h; subst h
            exact ⟨b, ['\r', '\n'], by simp, hb, Or.inl rfl⟩
        · exact hls l hl
      · rw [if_neg h2]
        have hcur : ∀ c ∈ cur, isLineC c = false := by
          rcases h with h | ⟨b, rfl, hb, h⟩
          · exact h
          · simp at h; subst h; exact absurd (by decide) h2
        have := ih (cur ++ [c]) (Or.inl (by
          intro d hd
          rcases List.mem_append.1 hd with hd | hd
          · exact hcur d hd
          · simp at hd; subst hd; simpa using h2))
        refine ⟨by rw [← this.1]; simp, this.2⟩

theorem splitLinesK_flatten (t : Str) : (splitLinesK [] t).flatten = t :=
  ((splitLinesK_spec [] t (Or.inl (by simp))).1).symm

/-! ### Reading white space -/

theorem step_space {c : Char} (hc : IsSpace c) (s : LSt) :
    s.step c = (s.flush, .start) ∨ (s = .comment ∧ s.step c = ([], .comment)) := by
  by_cases hs : s = .comment
  · subst hs
    by_cases hn : c = '\n'
    · left; subst hn; decide
    · right; refine ⟨rfl, ?_⟩; simp [LSt.step, LSt.ext, hn]
  · left; rw [step_ends (space_ends hc) hs, begin_space hc]; simp

theorem step_newline (s : LSt) : s.step '\n' = (s.flush, .start) := by
  rcases step_space (c := '\n') (by decide) s with h | ⟨rfl, h⟩
  · exact h
  · decide

/-- A newline separates whatever comes before from what follows. -/
theorem lex_newline (a b : Str) : lex (a ++ '\n' :: b) = lex a ++ lex b := by
  rw [lex, run_append, LSt.run, step_newline, ← List.append_assoc, ← run_eq_exec]; rfl

theorem flush_exec_spaces {e : Str} (h : ∀ c ∈ e, IsSpace c) (s : LSt) :
    (s.exec e).1 ++ (s.exec e).2.flush = s.flush := by
  induction e generalizing s with
  | nil => rfl
  | cons c cs ih =>
    have ih' := fun s => ih (fun d hd => h d (by simp [hd])) s
    rw [LSt.exec, List.append_assoc, ih']
    rcases step_space (h c (by simp)) s with h | ⟨rfl, h⟩
    · rw [h]; simp [LSt.flush]
    · rw [h]; rfl

/-- White space at the end adds no token. -/
theorem lex_spaces_end (a : Str) {e : Str} (h : ∀ c ∈ e, IsSpace c) : lex (a ++ e) = lex a := by
  rw [lex, run_append, run_eq_exec, flush_exec_spaces h, ← run_eq_exec]; rfl

theorem lex_blank {l : Str} (h : ∀ c ∈ l, IsSpace c) : lex l = [] := by
  have := lex_spaces_end [] h
  simpa [lex, LSt.run, LSt.flush] using this

theorem lex_joinLines (ls : List Str) : lex (joinStr s%"\n" ls) = (ls.map lex).flatten := by
  induction ls with
  | nil => rfl
  | cons a l ih =>
    cases l with
    | nil => simp [joinStr]
    | cons b l =>
      rw [joinStr, List.append_assoc]
      show lex (a ++ '\n' :: joinStr s%"\n" (b :: l)) = _
      rw [lex_newline, ih]; simp

theorem dropWhile_eq_nil {α} {p : α → Bool} {l : List α} : l.dropWhile p = [] ↔ ∀ x ∈ l, p x = true := by
  induction l with
  | nil => simp
  | cons a l ih =>
    by_cases h : p a
    · simp [List.dropWhile_cons_of_pos h, ih, h]
    · simp [List.dropWhile_cons_of_neg h, h]

theorem strip_eq_nil {l : Str} : strip l = [] ↔ ∀ c ∈ l, IsSpace c := by
  unfold strip rstrip lstrip
  rw [List.reverse_eq_nil_iff, dropWhile_eq_nil]
  constructor
  · intro h
    have h2 : l.dropWhile isSpaceC = [] := by
      cases hd : l.dropWhile isSpaceC with
      | nil => rfl
      | cons d r =>
        have h0 := List.dropWhile_get_zero_not isSpaceC l (by rw [hd]; simp)
        simp only [hd, List.get_eq_getElem, List.getElem_cons_zero] at h0
        exact absurd (h d (by rw [hd]; simp)) h0
    intro c hc
    exact (isSpaceC_iff c).1 (dropWhile_eq_nil.1 h2 c hc)
  · intro h c hc
    have h2 : l.dropWhile isSpaceC = [] :=
      dropWhile_eq_nil.2 (fun c hc => (isSpaceC_iff c).2 (h c hc))
    rw [h2] at hc; simp at hc

theorem filter_line_of_none {l : Str} (h : ∀ c ∈ l, isLineC c = false) :
    l.filter (fun c => !isLineC c) = l := by
  rw [List.filter_eq_self]; intro c hc; simp [h c hc]

theorem fullLine_filter {l : Str} (h : FullLine l) :
    ∃ e, l = l.filter (fun c => !isLineC c) ++ e ∧ (∀ c ∈ e, IsSpace c) := by
  obtain ⟨b, e, rfl, hb, he⟩ := h
  have he' : ∀ c ∈ e, isLineC c = true := by
    rcases he with rfl | ⟨c, rfl, hc⟩
    · decide
    · simpa using hc
  refine ⟨e, ?_, fun c hc => isLineC_space (he' c hc)⟩
  rw [List.filter_append, filter_line_of_none hb]
  have : e.filter (fun c => !isLineC c) = [] := by
    rw [List.filter_eq_nil_iff]; intro c hc; simp [he' c hc]
  rw [this]; simp

theorem line_filter {t l : Str} (h : l ∈ splitLinesK [] t) :
    ∃ e, l = l.filter (fun c => !isLineC c) ++ e ∧ (∀ c ∈ e, IsSpace c) := by
  obtain ⟨_, ls, last, e, hls, hlast⟩ := splitLinesK_spec [] t (Or.inl (by simp))
  rw [e] at h
  rcases List.mem_append.1 h with h | h
  · exact fullLine_filter (hls l h)
  · rcases hlast with rfl | ⟨l', rfl, hl'⟩
    · simp at h
    · simp at h; subst h
      exact ⟨[], by rw [filter_line_of_none hl'.2]; simp, by simp⟩

/-- The tokens after removing empty lines: those of the lines, one by one. -/
theorem lex_removeEmptyLines (t : Str) :
    lex (removeEmptyLines t) = ((splitLinesK [] t).map lex).flatten := by
  unfold removeEmptyLines splitLines
  rw [lex_joinLines]
  have key : ∀ ls : List Str,
      (∀ l ∈ ls, ∃ e, l = l.filter (fun c => !isLineC c) ++ e ∧ (∀ c ∈ e, IsSpace c)) →
      ((((ls.map (fun l => l.filter (fun c => !isLineC c))).filter
        (fun l => decide (strip l ≠ []))).map lex).flatten = (ls.map lex).flatten) := by
    intro ls
    induction ls with
    | nil => simp
    | cons a l ih =>
      intro h
      have ih' := ih (fun x hx => h x (by simp [hx]))
      obtain ⟨e, he, hsp⟩ := h a (by simp)
      have hl : lex a = lex (a.filter (fun c => !isLineC c)) := by
        conv => lhs; rw [he]
        exact lex_spaces_end _ hsp
      rw [List.map_cons, List.filter_cons]
      by_cases hb : strip (a.filter (fun c => !isLineC c)) = []
      · rw [if_neg (by simpa using hb), ih', List.map_cons, List.flatten_cons, hl,
          lex_blank (strip_eq_nil.1 hb)]; rfl
      · rw [if_pos (by simpa using hb), List.map_cons, List.flatten_cons, ih', ← hl]; simp
  exact key _ (fun l hl => line_filter hl)

/-! ### Texts without comments, and texts with `\n` as only boundary -/

/-- A line after which the lexer is in its initial state. -/
def Resets (l : Str) : Prop := ∀ t, lex (l ++ t) = lex l ++ lex t

theorem lex_flatten_resets {ls : List Str} (h : ∀ l ∈ ls, Resets l) (t : Str) :
    lex (ls.flatten ++ t) = (ls.map lex).flatten ++ lex t := by
  induction ls with
  | nil => simp
  | cons a l ih =>
    rw [List.flatten_cons, List.append_assoc, h a (by simp), ih (fun x hx => h x (by simp [hx]))]
    simp

theorem lex_lines {t : Str} (h : ∀ l, FullLine l → (∃ a b, t = a ++ l ++ b) → Resets l) :
    ((splitLinesK [] t).map lex).flatten = lex t := by
  obtain ⟨hf, ls, last, e, hls, hlast⟩ := splitLinesK_spec [] t (Or.inl (by simp))
  rw [List.nil_append] at hf
  rw [e] at hf
  have hr : ∀ l ∈ ls, Resets l := by
    intro l hl
    refine h l (hls l hl) ?_
    obtain ⟨x, y, rfl⟩ := List.append_of_mem hl
    exact ⟨x.flatten, y.flatten ++ last.flatten, by rw [hf]; simp⟩
  rw [e, List.map_append, List.flatten_append]
  conv => rhs; rw [hf, List.flatten_append]
  rw [lex_flatten_resets hr]
  congr 1
  rcases hlast with rfl | ⟨l, rfl, _⟩
  · rfl
  · simp

theorem resets_of_space {b : Str} {c : Char} (hb : ∀ d ∈ b, d ≠ ';') (hc : IsSpace c) :
    Resets (b ++ [c]) := by
  intro t
  rw [lex_spaces_end b (e := [c]) (by simpa using hc), List.append_assoc]
  show lex (b ++ c :: t) = _
  rw [lex_append hb (Or.inr ⟨c, t, rfl, space_ends hc⟩), lex_space hc]

theorem resets_of_newline (b : Str) : Resets (b ++ ['\n']) := by
  intro t
  rw [lex_spaces_end b (e := ['\n']) (by decide), List.append_assoc]
  exact lex_newline b t

/-- A text without `;`, or whose only line boundary is `\n`. -/
def PlainText (t : Str) : Prop := (∀ c ∈ t, c ≠ ';') ∨ (∀ c ∈ t, isLineC c = true → c = '\n')

theorem fullLine_resets {t l : Str} (ht : PlainText t) (h : FullLine l) (hs : ∃ a b, t = a ++ l ++ b) :
    Resets l := by
  obtain ⟨b, e, rfl, hb, he⟩ := h
  obtain ⟨x, y, hs⟩ := hs
  have hmem : ∀ c ∈ b ++ e, c ∈ t := by
    intro c hc
    rw [hs]
    simp only [List.append_assoc, List.mem_append] at hc ⊢
    tauto
  rcases he with rfl | ⟨c, rfl, hc⟩
  · have := resets_of_newline (b ++ ['\r'])
    simpa using this
  · rcases ht with ht | ht
    · exact resets_of_space (fun d hd => ht d (hmem d (by simp [hd]))) (isLineC_space hc)
    · have := ht c (hmem c (by simp)) hc
      subst this
      exact resets_of_newline b

theorem lex_removeEmptyLines_plain {t : Str} (h : PlainText t) : lex (removeEmptyLines t) = lex t := by
  rw [lex_removeEmptyLines, lex_lines (fun l hl hs => fullLine_resets h hl hs)]

/-! ### Indentation -/

theorem run_indent {p : Str} (hp : ∀ c ∈ p, IsSpace c ∧ c ≠ '\n') {s : LSt}
    (hs : s = .start ∨ s = .comment) (t : Str) : s.run (p ++ t) = s.run t := by
  induction p with
  | nil => rfl
  | cons c cs ih =>
    have hc := hp c (by simp)
    have ih' := ih (fun d hd => hp d (by simp [hd]))
    rw [List.cons_append, LSt.run]
    rcases hs with rfl | rfl
    · rw [step_start, begin_space hc.1]; exact ih'
    · have : LSt.comment.step c = ([], .comment) := by simp [LSt.step, LSt.ext, hc.2]
      rw [this]; exact ih'

theorem exec_line_state {l : Str} (h : FullLine l) (s : LSt) :
    (s.exec l).2 = .start ∨ (s.exec l).2 = .comment := by
  obtain ⟨b, e, rfl, hb, he⟩ := h
  have : ∃ b' c, b ++ e = b' ++ [c] ∧ IsSpace c := by
    rcases he with rfl | ⟨c, rfl, hc⟩
    · exact ⟨b ++ ['\r'], '\n', by simp, by decide⟩
    · exact ⟨b, c, rfl, isLineC_space hc⟩
  obtain ⟨b', c, e', hc⟩ := this
  rw [e', exec_append]
  show ((((s.exec b').2).step c).2) = .start ∨ _ = _
  rcases step_space hc (s.exec b').2 with h | ⟨_, h⟩
  · left; rw [h]
  · right; show ((((s.exec b').2).step c).2) = _; rw [h]

theorem lex_indent {p : Str} (hp : ∀ c ∈ p, IsSpace c ∧ c ≠ '\n') (t : Str) :
    lex (indent t p) = lex t := by
  obtain ⟨hf, ls, last, e, hls, hlast⟩ := splitLinesK_spec [] t (Or.inl (by simp))
  rw [List.nil_append] at hf
  rw [e] at hf
  unfold indent
  rw [e]
  conv => rhs; rw [hf]
  have hlastrun : ∀ s, s = LSt.start ∨ s = LSt.comment →
      s.run ((last.map (fun l => if l.all isSpaceC = true then l else p ++ l)).flatten) = s.run last.flatten := by
    intro s hs
    rcases hlast with rfl | ⟨l, rfl, _⟩
    · rfl
    · simp only [List.map_cons, List.map_nil, List.flatten_cons, List.flatten_nil, List.append_nil]
      split
      · rfl
      · exact run_indent hp hs l
  have key : ∀ s, s = LSt.start ∨ s = LSt.comment →
      s.run (((ls ++ last).map (fun l => if l.all isSpaceC = true then l else p ++ l)).flatten) =
      s.run (ls ++ last).flatten := by
    clear hf e
    induction ls with
    | nil => simpa using hlastrun
    | cons a l ih =>
      intro s hs
      rw [List.cons_append, List.map_cons, List.flatten_cons, List.flatten_cons]
      have h1 : s.run ((if a.all isSpaceC = true then a else p ++ a) ++
          ((l ++ last).map (fun l => if l.all isSpaceC = true then l else p ++ l)).flatten) =
          s.run (a ++ ((l ++ last).map (fun l => if l.all isSpaceC = true then l else p ++ l)).flatten) := by
        split
        · rfl
        · rw [List.append_assoc]; exact run_indent hp hs _
      rw [h1, run_append, run_append,
        ih (fun x hx => hls x (by simp [hx])) _ (exec_line_state (hls a (by simp)) s)]
  exact key .start (Or.inl rfl)

/-! ### No blank line is left -/

theorem splitLinesK_line {l : Str} (h : ∀ c ∈ l, isLineC c = false) (cur t : Str) :
    splitLinesK cur (l ++ '\n' :: t) = (cur ++ l ++ ['\n']) :: splitLinesK [] t := by
  induction l generalizing cur with
  | nil =>
    rw [List.nil_append, splitLinesK, if_neg (by simp), if_pos (by decide)]; simp
  | cons c cs ih =>
    have hc := h c (by simp)
    rw [List.cons_append, splitLinesK, if_neg, if_neg (by simp [hc]), ih (fun d hd => h d (by simp [hd]))]
    · simp
    · rintro ⟨rfl, _⟩; exact absurd hc (by decide)

theorem splitLinesK_last {l : Str} (h : ∀ c ∈ l, isLineC c = false) (cur : Str) (hne : cur ++ l ≠ []) :
    splitLinesK cur l = [cur ++ l] := by
  induction l generalizing cur with
  | nil => rw [splitLinesK, if_neg (by simpa using hne)]; simp
  | cons c cs ih =>
    have hc := h c (by simp)
    rw [splitLinesK, if_neg, if_neg (by simp [hc]), ih (fun d hd => h d (by simp [hd])) _ (by simp)]
    · simp
    · rintro ⟨rfl, _⟩; exact absurd hc (by decide)

theorem splitLines_join {ls : List Str} (h : ∀ l ∈ ls, l ≠ [] ∧ ∀ c ∈ l, isLineC c = false) :
    splitLines (joinStr s%"\n" ls) = ls := by
  induction ls with
  | nil => rfl
  | cons a l ih =>
    cases l with
    | nil =>
      have ha := h a (by simp)
      unfold splitLines
      rw [joinStr, splitLinesK_last ha.2 [] (by simpa using ha.1)]
      simp [filter_line_of_none ha.2]
    | cons b l =>
      have ha := h a (by simp)
      have ih' := ih (fun x hx => h x (by simp [hx]))
      unfold splitLines at ih' ⊢
      have e : joinStr s%"\n" (a :: b :: l) = a ++ '\n' :: joinStr s%"\n" (b :: l) := by
        rw [joinStr, List.append_assoc]; rfl
      rw [e, splitLinesK_line ha.2, List.map_cons, ih']
      congr 1
      rw [List.nil_append, List.filter_append, filter_line_of_none ha.2]
      have : (['\n'] : Str).filter (fun c => !isLineC c) = [] := by decide
      rw [this]; simp

theorem splitLines_noLineC {t l : Str} (h : l ∈ splitLines t) : ∀ c ∈ l, isLineC c = false := by
  unfold splitLines at h
  obtain ⟨x, _, rfl⟩ := List.mem_map.1 h
  intro c hc
  simpa using (List.mem_filter.1 hc).2

/-- The lines of the result are the lines of the text that are not blank. -/
theorem splitLines_removeEmptyLines (t : Str) :
    splitLines (removeEmptyLines t) = (splitLines t).filter (fun l => decide (strip l ≠ [])) := by
  unfold removeEmptyLines
  apply splitLines_join
  intro l hl
  obtain ⟨h1, h2⟩ := List.mem_filter.1 hl
  refine ⟨?_, splitLines_noLineC h1⟩
  rintro rfl
  simp [strip, lstrip, rstrip] at h2

theorem mem_indent {p t : Str} {c : Char} (h : c ∈ indent t p) : c ∈ p ∨ c ∈ t := by
  unfold indent at h
  obtain ⟨l, hl, hc⟩ := List.mem_flatten.1 h
  obtain ⟨l', hl', rfl⟩ := List.mem_map.1 hl
  have hm : ∀ d ∈ l', d ∈ t := fun d hd => by
    rw [← splitLinesK_flatten t]; exact List.mem_flatten.2 ⟨l', hl', hd⟩
  split at hc
  · exact Or.inr (hm c hc)
  · rcases List.mem_append.1 hc with h | h
    · exact Or.inl h
    · exact Or.inr (hm c h)

/-- The tokens of a printed domain or problem. -/
theorem lex_layout {head body : Str} (hh : ∀ c ∈ head, c ≠ ';') (hb : ∀ c ∈ body, c ≠ ';') :
    lex (layout head body) = lex head ++ lex body ++ [.rpar] := by
  unfold layout
  rw [lex_removeEmptyLines_plain]
  · have e : head ++ s%"\n" ++ indent body s%"    " ++ s%"\n)" =
        head ++ '\n' :: (indent body s%"    " ++ '\n' :: s%")") := by
      simp only [List.append_assoc]; rfl
    rw [e, lex_newline, lex_newline, lex_indent (by decide)]
    have : lex s%")" = [.rpar] := by decide
    rw [this, List.append_assoc]
  · left
    intro c hc
    simp only [List.mem_append] at hc
    rcases hc with ((hc | hc) | hc) | hc
    · exact hh c hc
    · revert c; decide
    · rcases mem_indent hc with h | h
      · clear hc; revert c; decide
      · exact hb c h
    · revert c; decide

end Pddl
