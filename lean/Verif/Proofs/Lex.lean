/-
The lexer: concatenation, gaps, chunks.
-/
import Verif.Model.Lex
import Verif.Spec.Lex
import Mathlib.Data.List.TakeWhile

namespace Pddl
open Spec

/-- Tokens emitted while reading a text, and the state reached. -/
def LSt.exec : LSt → Str → List Tok × LSt
  | s, [] => ([], s)
  | s, c :: cs => ((s.step c).1 ++ ((s.step c).2.exec cs).1, ((s.step c).2.exec cs).2)

theorem run_append (s : LSt) (a b : Str) :
    s.run (a ++ b) = (s.exec a).1 ++ (s.exec a).2.run b := by
  induction a generalizing s with
  | nil => rfl
  | cons c cs ih => simp [LSt.run, LSt.exec, ih]

theorem exec_append (s : LSt) (a b : Str) :
    s.exec (a ++ b) = ((s.exec a).1 ++ ((s.exec a).2.exec b).1, ((s.exec a).2.exec b).2) := by
  induction a generalizing s with
  | nil => rfl
  | cons c cs ih => simp [LSt.exec, ih]

theorem run_eq_exec (s : LSt) (a : Str) : s.run a = (s.exec a).1 ++ (s.exec a).2.flush := by
  have := run_append s a []
  simpa [LSt.run] using this

theorem isSpaceC_iff (c : Char) : isSpaceC c = true ↔ IsSpace c := by
  simp only [isSpaceC, IsSpace, Bool.or_eq_true, Bool.and_eq_true, decide_eq_true_eq, beq_iff_eq,
    List.mem_cons, List.not_mem_nil, or_false]
  omega

/-- A character that ends every token other than a comment. -/
def Ends (c : Char) : Prop := isNameC c = false ∧ c ≠ '.' ∧ c ≠ '='

theorem isDigitC_isNameC {c : Char} (h : isNameC c = false) : isDigitC c = false := by
  simp [isNameC] at h; exact h.2

theorem ext_ends {c : Char} (h : Ends c) {s : LSt} (hs : s ≠ .comment) : s.ext c = none := by
  have hd := isDigitC_isNameC h.1
  cases s <;> simp_all [LSt.ext, Ends]

theorem space_ends {c : Char} (h : IsSpace c) : Ends c := by
  have h' : isSpaceC c = true := (isSpaceC_iff c).2 h
  refine ⟨?_, ?_, ?_⟩
  · simp only [isNameC, isAlphaC, isDigitC, Bool.or_eq_false_iff, beq_eq_false_iff_ne]
    have h1 : c ≠ '-' := by rintro rfl; revert h; decide
    have h2 : c ≠ '_' := by rintro rfl; revert h; decide
    refine ⟨⟨⟨h1, h2⟩, ?_⟩, ?_⟩ <;>
    · simp only [IsSpace, List.mem_cons, List.not_mem_nil, or_false] at h
      simp only [Bool.and_eq_false_iff, decide_eq_false_iff_not]
      omega
  · rintro rfl; revert h; decide
  · rintro rfl; revert h; decide

theorem bracket_ends {c : Char} (h : Bracket c) : Ends c := by
  rcases h with rfl | rfl | rfl <;> exact ⟨by decide, by decide, by decide⟩

theorem semi_ends : Ends ';' := ⟨by decide, by decide, by decide⟩

theorem step_ends {c : Char} (h : Ends c) {s : LSt} (hs : s ≠ .comment) :
    s.step c = (s.flush ++ (lexBegin c).1, (lexBegin c).2) := by
  rw [LSt.step, ext_ends h hs]

theorem step_start (c : Char) : LSt.start.step c = lexBegin c := by
  simp [LSt.step, LSt.ext, LSt.flush]

theorem lex_cons (c : Char) (cs : Str) : lex (c :: cs) = (lexBegin c).1 ++ (lexBegin c).2.run cs := by
  rw [lex, LSt.run, step_start]

/-- A text that starts with a delimiting character, or is empty. -/
def Delim (t : Str) : Prop := t = [] ∨ ∃ c t', t = c :: t' ∧ Ends c

theorem run_delim {s : LSt} (hs : s ≠ .comment) {t : Str} (h : Delim t) :
    s.run t = s.flush ++ lex t := by
  rcases h with rfl | ⟨c, t', rfl, hc⟩
  · simp [LSt.run, lex, LSt.flush]
  · rw [LSt.run, step_ends hc hs, lex_cons, List.append_assoc]

theorem ite_not_comment {p : Prop} [Decidable p] {a b : List Tok × LSt} (ha : p → a.2 ≠ .comment)
    (hb : ¬ p → b.2 ≠ .comment) : (if p then a else b).2 ≠ .comment := by
  by_cases h : p
  · rw [if_pos h]; exact ha h
  · rw [if_neg h]; exact hb h

theorem begin_not_comment {c : Char} (h : c ≠ ';') : (lexBegin c).2 ≠ .comment := by
  unfold lexBegin
  refine ite_not_comment (fun _ => by simp) (fun _ => ?_)
  refine ite_not_comment (fun h' => absurd h' h) (fun _ => ?_)
  repeat' first
    | refine ite_not_comment (fun _ => by simp) (fun _ => ?_)
    | simp

theorem step_not_comment {c : Char} (h : c ≠ ';') {s : LSt} (hs : s ≠ .comment) :
    (s.step c).2 ≠ .comment := by
  unfold LSt.step
  split
  · rename_i r hr
    cases s <;> simp [LSt.ext] at hr hs
    all_goals first
      | (obtain ⟨_, rfl⟩ := hr; simp)
      | (split at hr <;> simp at hr <;> (first | (subst hr; simp) | (obtain ⟨_, rfl⟩ := hr; simp)))
  · exact begin_not_comment h

theorem exec_not_comment {w : Str} (h : ∀ c ∈ w, c ≠ ';') {s : LSt} (hs : s ≠ .comment) :
    (s.exec w).2 ≠ .comment := by
  induction w generalizing s with
  | nil => exact hs
  | cons c cs ih =>
    rw [LSt.exec]
    exact ih (fun d hd => h d (by simp [hd])) (step_not_comment (h c (by simp)) hs)

/-- Text without comment before a delimiter. -/
theorem lex_append {a b : Str} (ha : ∀ c ∈ a, c ≠ ';') (hb : Delim b) :
    lex (a ++ b) = lex a ++ lex b := by
  rw [lex, run_append, run_delim (exec_not_comment ha (by simp)) hb, ← List.append_assoc,
    ← run_eq_exec]
  rfl

theorem begin_space {c : Char} (h : IsSpace c) : lexBegin c = ([], .start) := by
  simp [lexBegin, (isSpaceC_iff c).2 h]

theorem lex_space {c : Char} (h : IsSpace c) (t : Str) : lex (c :: t) = lex t := by
  rw [lex_cons, begin_space h]; rfl

theorem run_comment {body : Str} (h : ∀ c ∈ body, c ≠ '\n') (t : Str) :
    LSt.comment.run (body ++ '\n' :: t) = lex t := by
  induction body with
  | nil =>
    have : LSt.comment.step '\n' = ([], .start) := by decide
    rw [List.nil_append, LSt.run, this]; rfl
  | cons c cs ih =>
    have hc := h c (by simp)
    rw [List.cons_append, LSt.run]
    have : LSt.comment.step c = ([], .comment) := by simp [LSt.step, LSt.ext, hc]
    rw [this, List.nil_append]
    exact ih (fun d hd => h d (by simp [hd]))

theorem run_comment_end {body : Str} (h : ∀ c ∈ body, c ≠ '\n') : LSt.comment.run body = [] := by
  induction body with
  | nil => rfl
  | cons c cs ih =>
    have hc := h c (by simp)
    have : LSt.comment.step c = ([], .comment) := by simp [LSt.step, LSt.ext, hc]
    rw [LSt.run, this, List.nil_append]
    exact ih (fun d hd => h d (by simp [hd]))

theorem lex_semi (t : Str) : lex (';' :: t) = LSt.comment.run t := by
  rw [lex_cons]
  have : lexBegin ';' = ([], .comment) := by decide
  rw [this]; rfl

theorem lex_gap {g : Str} (h : Gap g) (t : Str) : lex (g ++ t) = lex t := by
  induction h with
  | nil => rfl
  | space hc _ ih => rw [List.cons_append, lex_space hc, ih]
  | @comment body g hb _ ih =>
    rw [List.append_assoc, List.cons_append, List.cons_append, lex_semi, run_comment hb, ih]

theorem lex_tailGap {g : Str} (h : TailGap g) : lex g = [] := by
  rcases h with h | ⟨g', body, hg, hb, rfl⟩
  · have := lex_gap h []
    simpa [lex, LSt.run, LSt.flush] using this
  · rw [lex_gap hg, lex_semi, run_comment_end hb]

theorem begin_bracket {c : Char} (h : Bracket c) : (lexBegin c).2 = .start := by
  rcases h with rfl | rfl | rfl <;> decide

theorem lex_bracket {c : Char} (h : Bracket c) (t : Str) : lex (c :: t) = lex [c] ++ lex t := by
  rw [lex_cons, lex_cons, begin_bracket h]
  simp [lex, LSt.run, LSt.flush]

theorem lex_chunk {w t : Str} (hw : Chunk w) (hf : Follows w t) : lex (w ++ t) = lex w ++ lex t := by
  have hbr : ∀ c, Bracket c → lex ([c] ++ t) = lex [c] ++ lex t := fun c hc => lex_bracket hc t
  rcases hw with ⟨c, hc, rfl⟩ | ⟨_, hw⟩
  · exact hbr c hc
  · rcases hf with ⟨c, hc, rfl⟩ | hf
    · exact hbr c hc
    · refine lex_append (fun c hc => (hw c hc).2.1) ?_
      rcases hf with rfl | ⟨c, t', rfl, h⟩
      · exact Or.inl rfl
      · refine Or.inr ⟨c, t', rfl, ?_⟩
        rcases h with h | rfl | h
        · exact space_ends h
        · exact semi_ends
        · exact bracket_ends h

/-- The tokens of a laid out text are those of its chunks. -/
theorem lex_laid {ws : List Str} {t : Str} (h : Laid ws t) : lex t = (ws.map lex).flatten := by
  induction h with
  | nil hg => simpa using lex_tailGap hg
  | @cons g w ws t hg hw _ hf ih =>
    rw [List.append_assoc, lex_gap hg, lex_chunk hw hf, ih]; simp

end Pddl

namespace Pddl
open Spec

theorem Spec.Laid.space {ws : List Str} {t : Str} (h : Laid ws t) {c : Char} (hc : IsSpace c) :
    Laid ws (c :: t) := by
  cases h with
  | nil hg =>
    refine .nil ?_
    rcases hg with hg | ⟨g', body, hg, hb, rfl⟩
    · exact Or.inl (.space hc hg)
    · exact Or.inr ⟨c :: g', body, .space hc hg, hb, rfl⟩
  | @cons g w ws t hg hw ht hf =>
    exact Laid.cons (g := c :: g) (.space hc hg) hw ht hf

theorem Spec.Laid.comment {ws : List Str} {t : Str} (h : Laid ws t) {body : Str}
    (hb : ∀ c ∈ body, c ≠ '\n') : Laid ws (';' :: body ++ '\n' :: t) := by
  cases h with
  | nil hg =>
    refine .nil ?_
    rcases hg with hg | ⟨g', b', hg, hb', rfl⟩
    · exact Or.inl (.comment hb hg)
    · exact Or.inr ⟨';' :: body ++ '\n' :: g', b', .comment hb hg, hb', by simp⟩
  | @cons g w ws t hg hw ht hf =>
    have := Laid.cons (g := ';' :: body ++ '\n' :: g) (.comment hb hg) hw ht hf
    simpa using this

/-- Every text is laid out in some way. -/
theorem laid_exists (t : Str) : ∃ ws, Laid ws t := by
  induction hn : t.length using Nat.strongRecOn generalizing t with
  | _ n ih =>
    cases t with
    | nil => exact ⟨[], .nil (Or.inl .nil)⟩
    | cons c t =>
      subst hn
      by_cases hs : IsSpace c
      · obtain ⟨ws, h⟩ := ih t.length (by simp) t rfl
        exact ⟨ws, h.space hs⟩
      by_cases hsemi : c = ';'
      · subst hsemi
        by_cases hnl : '\n' ∈ t
        · obtain ⟨body, r, rfl, hb⟩ := List.eq_append_cons_of_mem hnl
          obtain ⟨ws, h⟩ := ih r.length (by simp; omega) r rfl
          exact ⟨ws, h.comment (fun c hc => by rintro rfl; exact hb hc)⟩
        · exact ⟨[], .nil (Or.inr ⟨[], t, .nil, fun c hc => by rintro rfl; exact hnl hc, rfl⟩)⟩
      by_cases hbr : Bracket c
      · obtain ⟨ws, h⟩ := ih t.length (by simp) t rfl
        exact ⟨[c] :: ws, Laid.cons .nil (Or.inl ⟨c, hbr, rfl⟩) h (Or.inl ⟨c, hbr, rfl⟩)⟩
      · let p : Char → Bool := fun c => decide (¬ IsSpace c ∧ c ≠ ';' ∧ ¬ Bracket c)
        have hp : p c = true := by simp [p, hs, hsemi, hbr]
        have e : c :: t = [] ++ (c :: t).takeWhile p ++ (c :: t).dropWhile p := by
          simp only [List.nil_append, List.takeWhile_append_dropWhile]
        have hlen : ((c :: t).dropWhile p).length < (c :: t).length := by
          rw [List.dropWhile_cons_of_pos hp]
          have := (List.dropWhile_sublist (l := t) p).length_le
          simp; omega
        obtain ⟨ws, h⟩ := ih _ hlen _ rfl
        refine ⟨(c :: t).takeWhile p :: ws, ?_⟩
        rw [e]
        conv => arg 1; arg 1; rw [← e]
        refine Laid.cons .nil (Or.inr ⟨?_, ?_⟩) h ?_
        · rw [List.takeWhile_cons_of_pos hp]; simp
        · intro d hd
          have := List.mem_takeWhile_imp hd
          simpa [p] using this
        · right
          cases hr : (c :: t).dropWhile p with
          | nil => exact Or.inl rfl
          | cons d r =>
            right
            refine ⟨d, r, rfl, ?_⟩
            have h0 := List.dropWhile_get_zero_not p (c :: t) (by rw [hr]; simp)
            simp only [hr, List.get_eq_getElem, List.getElem_cons_zero] at h0
            simp only [p, decide_eq_true_eq] at h0
            by_contra hcon
            push Not at hcon
            exact h0 ⟨hcon.1, hcon.2.1, hcon.2.2⟩

end Pddl
