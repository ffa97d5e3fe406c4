/-
Words of a text, and the helpers that make variables and constants from them.
-/
import Verif.Proofs.Tags
import Verif.Proofs.ProblemRead
import Verif.Spec.Helpers
import Verif.Model.Helpers
import Verif.Proofs.Reader

namespace Pddl
open Spec

theorem splitWords_spaces {sp rest : Str} (h : ∀ c ∈ sp, isSpaceC c = true) : splitWords [] (sp ++ rest) = splitWords [] rest := by
  induction sp with
  | nil => rfl
  | cons c sp ih =>
    rw [List.cons_append, splitWords, if_pos (h c (by simp)), if_pos rfl]
    exact ih (fun c hc => h c (by simp [hc]))

theorem splitWords_word {cur w rest : Str} (h : ∀ c ∈ w, isSpaceC c = false) :
    splitWords cur (w ++ rest) = splitWords (cur ++ w) rest := by
  induction w generalizing cur with
  | nil => simp
  | cons c w ih =>
    rw [List.cons_append, splitWords, if_neg (by simp [h c (by simp)]), ih (fun c hc => h c (by simp [hc]))]
    simp

theorem splitWords_end {cur rest : Str} (hc : cur ≠ []) (h : ∀ c r, rest = c :: r → isSpaceC c = true) :
    splitWords cur rest = cur :: splitWords [] rest := by
  cases rest with
  | nil => simp [splitWords, hc]
  | cons c r =>
    have := h c r rfl
    rw [splitWords, if_pos this, if_neg hc, splitWords, if_pos this, if_pos rfl]

theorem wordsOf_split {s : Str} {ws : List Str} (h : WordsOf s ws) : splitWords [] s = ws := by
  induction h with
  | @none sp h => have := splitWords_spaces (rest := []) h; simpa [splitWords] using this
  | word h1 h2 h3 h4 _ ih =>
    rw [List.append_assoc, splitWords_spaces h1, splitWords_word h3, List.nil_append, splitWords_end h2 h4, ih]

theorem split_wordsOf_from (s : Str) : ∀ n, s.length ≤ n → WordsOf s (splitWords [] s) := by
  intro n
  induction n generalizing s with
  | zero => intro h; simp at h; subst h; exact .none (by simp)
  | succ n ih =>
    intro hn
    have hs : s = s.takeWhile isSpaceC ++ s.dropWhile isSpaceC := (List.takeWhile_append_dropWhile ..).symm
    have hsp : ∀ c ∈ s.takeWhile isSpaceC, isSpaceC c = true := fun c hc => List.mem_takeWhile_imp hc
    generalize s.takeWhile isSpaceC = sp at hs hsp
    have hhead : ∀ c r, s.dropWhile isSpaceC = c :: r → isSpaceC c = false := by
      intro c r h
      have hne : s.dropWhile isSpaceC ≠ [] := by rw [h]; simp
      have := List.head_dropWhile_not isSpaceC hne
      simp only [h, List.head_cons] at this
      simpa using this
    generalize s.dropWhile isSpaceC = t at hs hhead
    subst hs
    cases t with
    | nil =>
      rw [List.append_nil]
      have : splitWords [] sp = [] := by have := splitWords_spaces (rest := []) hsp; simpa [splitWords] using this
      rw [this]; exact .none hsp
    | cons c r =>
      have ht : c :: r = (c :: r).takeWhile (fun x => !isSpaceC x) ++ (c :: r).dropWhile (fun x => !isSpaceC x) :=
        (List.takeWhile_append_dropWhile ..).symm
      have hc := hhead c r rfl
      have hw : ∀ x ∈ (c :: r).takeWhile (fun x => !isSpaceC x), isSpaceC x = false := fun x hx => by
        simpa using List.mem_takeWhile_imp hx
      have hw0 : (c :: r).takeWhile (fun x => !isSpaceC x) ≠ [] := by simp [hc]
      have hrest : ∀ x y, (c :: r).dropWhile (fun x => !isSpaceC x) = x :: y → isSpaceC x = true := by
        intro x y h
        have hne : (c :: r).dropWhile (fun x => !isSpaceC x) ≠ [] := by rw [h]; simp
        have := List.head_dropWhile_not (fun x => !isSpaceC x) hne
        simp only [h, List.head_cons] at this
        simpa using this
      generalize (c :: r).takeWhile (fun x => !isSpaceC x) = w at *
      generalize (c :: r).dropWhile (fun x => !isSpaceC x) = rest at *
      rw [ht]
      rw [splitWords_spaces hsp, splitWords_word hw, List.nil_append, splitWords_end hw0 hrest, ← List.append_assoc]
      refine .word hsp hw0 hw hrest (ih rest ?_)
      rw [ht] at hn
      simp only [List.length_append] at hn
      have : 0 < w.length := List.length_pos_iff.2 hw0
      omega

theorem split_wordsOf (s : Str) : WordsOf s (splitWords [] s) := split_wordsOf_from s s.length (Nat.le_refl _)

theorem wordsOf_iff {s : Str} {ws : List Str} : WordsOf s ws ↔ splitWords [] s = ws :=
  ⟨wordsOf_split, fun h => h ▸ split_wordsOf s⟩

end Pddl
