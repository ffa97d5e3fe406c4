/-
Reading files: translated newlines and the lexer.
-/
import Verif.Model.Files
import Verif.Spec.Files

namespace Pddl
open Spec

/-- As `PlainComments`, from inside a comment or not. -/
def PlainFrom (inside : Prop) (t : Str) : Prop :=
  ∀ a b, t = a ++ '\r' :: b → (∀ r, b ≠ '\n' :: r) → ¬ EndsInComment a ∧ (inside → '\n' ∈ a)

theorem newlines_crlf (r : Str) : newlines ('\r' :: '\n' :: r) = '\n' :: newlines r := by
  rw [newlines.eq_def]; simp

theorem newlines_cr {r : Str} (h : ∀ x, r ≠ '\n' :: x) : newlines ('\r' :: r) = '\n' :: newlines r := by
  rw [newlines.eq_def]
  simp only [↓reduceIte]

theorem newlines_other {c : Char} {r : Str} (h : c ≠ '\r') : newlines (c :: r) = c :: newlines r := by
  rw [newlines.eq_def]; simp [h]

theorem ext_cr {s : LSt} (h : s ≠ .comment) : s.ext '\r' = none := by
  cases s <;> first | rfl | exact absurd rfl h

theorem ext_lf {s : LSt} : s.ext '\n' = none := by cases s <;> rfl

theorem step_cr {s : LSt} (h : s ≠ .comment) : s.step '\r' = (s.flush, .start) := by
  unfold LSt.step; rw [ext_cr h]; simp [lexBegin, isSpaceC]

theorem step_lf (s : LSt) : s.step '\n' = (s.flush, .start) := by
  unfold LSt.step; rw [ext_lf]; simp [lexBegin, isSpaceC]

theorem begin_ne {c : Char} (hc : c ≠ ';') : (lexBegin c).2 ≠ .comment := by
  have key : ∀ (b : Prop) [Decidable b] (x y : LSt), x ≠ .comment → y ≠ .comment → (if b then x else y) ≠ .comment := by
    intro b _ x y hx hy
    by_cases hb : b
    · rwa [if_pos hb]
    · rwa [if_neg hb]
  unfold lexBegin
  simp only [hc, if_false, apply_ite Prod.snd]
  repeat' (first | apply key | nofun)

theorem comment_step {s : LSt} {c : Char} : (s.step c).2 = .comment ↔ c ≠ '\n' ∧ (s = .comment ∨ c = ';') := by
  by_cases hn : c = '\n'
  · subst hn; rw [step_lf]; simp
  by_cases hs : s = .comment
  · subst hs; simp [LSt.step, LSt.ext, hn]
  by_cases hc : c = ';'
  · subst hc
    have : s.ext ';' = none := by cases s <;> first | rfl | exact absurd rfl hs
    unfold LSt.step
    rw [this]
    simp [lexBegin, isSpaceC]
  · simp only [hn, hs, hc, ne_eq, not_false_eq_true, true_and, or_self, iff_false]
    intro h
    unfold LSt.step at h
    split at h
    · rename_i r hr
      cases s <;> simp [LSt.ext] at hr hs
      all_goals (first
        | (obtain ⟨_, rfl⟩ := hr; simp at h)
        | (split at hr
           · simp at hr; subst hr; simp at h
           · simp at hr; obtain ⟨_, rfl⟩ := hr; simp at h))
    · exact begin_ne hc h

theorem plainFrom_tail {s : LSt} {c : Char} {t : Str} (h : PlainFrom (s = .comment) (c :: t)) :
    PlainFrom ((s.step c).2 = .comment) t := by
  intro a b e hb
  obtain ⟨h1, h2⟩ := h (c :: a) b (by rw [e]; rfl) hb
  refine ⟨?_, ?_⟩
  · rintro ⟨u, v, rfl, h3, h4⟩
    exact h1 ⟨c :: u, v, rfl, h3, h4⟩
  · intro hc
    rw [comment_step] at hc
    obtain ⟨hn, hc⟩ := hc
    rcases hc with hs | rfl
    · have := h2 hs
      simp only [List.mem_cons] at this
      rcases this with e | e
      · exact absurd e.symm hn
      · exact e
    · by_contra hna
      exact h1 ⟨[], ';' :: a, rfl, by simp [hna], by simp⟩

/-- The translation changes no token unless a comment ends by it. -/
theorem run_newlines (t : Str) (s : LSt) (h : PlainFrom (s = .comment) t) : LSt.run s (newlines t) = LSt.run s t := by
  induction hn : t.length using Nat.strongRecOn generalizing t s with
  | _ n ih =>
    cases t with
    | nil => rfl
    | cons c t =>
      by_cases hc : c = '\r'
      · subst hc
        by_cases hlf : ∃ r, t = '\n' :: r
        · obtain ⟨r, rfl⟩ := hlf
          rw [newlines_crlf]
          have h' : PlainFrom (LSt.start = .comment) r := by
            have h1 := plainFrom_tail h
            have h2 := plainFrom_tail h1
            rwa [step_lf] at h2
          have := ih r.length (by subst hn; simp; omega) r .start h' rfl
          simp only [LSt.run, step_lf]
          rw [this]
          by_cases hs : s = .comment
          · subst hs; rfl
          · rw [step_cr hs]; simp [LSt.flush]
        · have hlf' : ∀ r, t ≠ '\n' :: r := fun r e => hlf ⟨r, e⟩
          have hs : s ≠ .comment := by
            intro hs
            have := (h [] t rfl hlf').2 hs
            simp at this
          rw [newlines_cr hlf']
          have h1 := plainFrom_tail h
          have := ih t.length (by subst hn; simp) t _ h1 rfl
          simp only [LSt.run, step_lf]
          rw [step_cr hs] at this ⊢
          rw [this]
      · rw [newlines_other hc]
        simp only [LSt.run]
        rw [ih t.length (by subst hn; simp) t _ (plainFrom_tail h) rfl]

theorem lex_newlines {t : Str} (h : PlainComments t) : lex (newlines t) = lex t :=
  run_newlines t .start fun a b e hb => ⟨h a b e hb, fun h => by cases h⟩

/-- A test for `PlainComments`. -/
def plainCheck (t : Str) : Bool :=
  (List.range t.length).all fun n => decide (t[n]? ≠ some '\r') || decide (t[n + 1]? = some '\n') ||
    !((t.take n).reverse.takeWhile (fun c => decide (c ≠ '\n'))).any (fun c => decide (c = ';'))

theorem plain_of_check {t : Str} (h : plainCheck t = true) : PlainComments t := by
  rintro a b rfl hb ⟨u, v, rfl, h1, h2⟩
  unfold plainCheck at h
  rw [List.all_eq_true] at h
  have := h (u ++ v).length (by simp)
  rw [Bool.or_eq_true, Bool.or_eq_true] at this
  rcases this with (h3 | h3) | h3
  · simp at h3
  · cases b with
    | nil => rw [List.getElem?_append_right (by omega)] at h3; simp at h3
    | cons c b =>
      have e : (u ++ v ++ '\r' :: c :: b)[(u ++ v).length + 1]? = some c := by
        rw [List.getElem?_append_right (by omega)]; simp
      rw [e] at h3
      simp at h3
      exact hb b (by rw [h3])
  · rw [List.take_left' rfl, List.reverse_append, List.takeWhile_append_of_pos (by
      intro c hc
      simp only [decide_eq_true_eq]
      rintro rfl
      exact h1 (by simpa using hc))] at h3
    simp only [List.any_append, List.any_reverse, Bool.not_eq_true', Bool.or_eq_false_iff, List.any_eq_false] at h3
    exact h3.1 ';' h2 (by simp)

theorem plain_of_no_cr {t : Str} (h : '\r' ∉ t) : PlainComments t := by
  intro a b e; subst e; simp at h

end Pddl
