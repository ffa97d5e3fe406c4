/- C89: the helpers for sequences. -/
import Verif.Model.Sequences

namespace Pddl.Props
open Pddl

variable {α : Type}

/-- The position counted from the start that an index means; negative ones count from the end. -/
def position (n : Nat) (i : Int) : Int := if i < 0 then i + n else i

/-- The full statement. `find` gives the first position where the condition holds, or -1; `safe_index` gives the first
position of an equal element within the bounds, or `None`; `safe_get` gives the element at an index that exists, and
the default for every other index. -/
def C89_full : Prop := ∀ (α : Type) (seq : List α),
  (∀ cond : α → Bool, (find seq cond = -1 ∧ ∀ x ∈ seq, cond x = false) ∨
    ∃ i x, find seq cond = (i : Nat) ∧ seq[i]? = some x ∧ cond x = true ∧
      ∀ j < i, ∀ y, seq[j]? = some y → cond y = false) ∧
  (∀ (eq : α → α → Bool) (x : α) (start : Int) (stop : Option Int),
    let In (i : Nat) := position seq.length start ≤ i ∧ ∀ s ∈ stop, (i : Int) < position seq.length s
    (safeIndex eq seq x start stop = .ok none ∧ ∀ i y, In i → seq[i]? = some y → eq y x = false) ∨
    ∃ i y, safeIndex eq seq x start stop = .ok (some i) ∧ In i ∧ seq[i]? = some y ∧ eq y x = true ∧
      ∀ j < i, ∀ z, In j → seq[j]? = some z → eq z x = false) ∧
  ∀ (index : Int) (default : Option α),
    (∃ i x, (i : Nat) = position seq.length index ∧ seq[i]? = some x ∧ safeGet seq index default = .ok (some x)) ∨
    ((∀ i : Nat, (i : Int) = position seq.length index → seq[i]? = none) ∧ safeGet seq index default = .ok default)

/-- `safe_get` raises `IndexError` for an index too far below zero. -/
theorem C89_fails : ¬ C89_full := by
  intro h
  rcases (h Unit []).2.2 (-1) none with ⟨i, x, _, h1, _⟩ | ⟨_, h1⟩
  · simp at h1
  · simp [safeGet, pyItem] at h1

theorem findFrom_spec (cond : α → Bool) (seq : List α) (k : Nat) :
    (findFrom cond k seq = -1 ∧ ∀ x ∈ seq, cond x = false) ∨
    ∃ i x, findFrom cond k seq = ((k + i : Nat) : Int) ∧ seq[i]? = some x ∧ cond x = true ∧
      ∀ j < i, ∀ y, seq[j]? = some y → cond y = false := by
  induction seq generalizing k with
  | nil => exact .inl ⟨rfl, by simp⟩
  | cons a l ih =>
    unfold findFrom
    by_cases ha : cond a = true
    · exact .inr ⟨0, a, by simp [ha], rfl, ha, by simp⟩
    · rw [if_neg ha]
      rcases ih (k + 1) with ⟨h1, h2⟩ | ⟨i, x, h1, h2, h3, h4⟩
      · refine .inl ⟨h1, ?_⟩
        simp only [List.forall_mem_cons]
        exact ⟨by simpa using ha, h2⟩
      · refine .inr ⟨i + 1, x, by rw [h1]; congr 1; omega, h2, h3, fun j hj y hy => ?_⟩
        cases j with
        | zero => simp at hy; subst hy; simpa using ha
        | succ j => exact h4 j (by omega) y hy

/-- `find` gives the first position where the condition holds, or -1. -/
theorem C89_find (seq : List α) (cond : α → Bool) : (find seq cond = -1 ∧ ∀ x ∈ seq, cond x = false) ∨
    ∃ i x, find seq cond = (i : Nat) ∧ seq[i]? = some x ∧ cond x = true ∧
      ∀ j < i, ∀ y, seq[j]? = some y → cond y = false := by
  have := findFrom_spec cond seq 0
  simpa [find] using this

theorem indexFrom_spec (eq : α → α → Bool) (x : α) (stop k : Nat) (l : List α) :
    (indexFrom eq x stop k l = .error .value ∧ ∀ i y, k + i < stop → l[i]? = some y → eq y x = false) ∨
    ∃ i y, indexFrom eq x stop k l = .ok (k + i) ∧ k + i < stop ∧ l[i]? = some y ∧ eq y x = true ∧
      ∀ j < i, ∀ z, l[j]? = some z → eq z x = false := by
  induction l generalizing k with
  | nil => exact .inl ⟨rfl, by simp⟩
  | cons a l ih =>
    unfold indexFrom
    by_cases hk : k < stop
    · rw [if_pos hk]
      by_cases ha : eq a x = true
      · exact .inr ⟨0, a, by simp [ha], by simpa using hk, rfl, ha, by simp⟩
      · rw [if_neg ha]
        rcases ih (k + 1) with ⟨h1, h2⟩ | ⟨i, y, h1, h2, h3, h4, h5⟩
        · refine .inl ⟨h1, fun i y hi hy => ?_⟩
          cases i with
          | zero => simp at hy; subst hy; simpa using ha
          | succ i => exact h2 i y (by omega) hy
        · refine .inr ⟨i + 1, y, by rw [h1]; congr 1; omega, by omega, h3, h4, fun j hj z hz => ?_⟩
          cases j with
          | zero => simp at hz; subst hz; simpa using ha
          | succ j => exact h5 j (by omega) z hz
    · rw [if_neg hk]
      exact .inl ⟨rfl, fun i y hi => by omega⟩

/-- `safe_index` gives the first position of an equal element within the bounds, or `None`; it never raises. -/
theorem C89_index (eq : α → α → Bool) (seq : List α) (x : α) (start : Int) (stop : Option Int) :
    let In (i : Nat) := position seq.length start ≤ i ∧ ∀ s ∈ stop, (i : Int) < position seq.length s
    (safeIndex eq seq x start stop = .ok none ∧ ∀ i y, In i → seq[i]? = some y → eq y x = false) ∨
    ∃ i y, safeIndex eq seq x start stop = .ok (some i) ∧ In i ∧ seq[i]? = some y ∧ eq y x = true ∧
      ∀ j < i, ∀ z, In j → seq[j]? = some z → eq z x = false := by
  intro In
  have hb : ∀ (n : Nat) (i : Int) (k : Nat), (pyBound n i ≤ k ↔ position n i ≤ k) ∧
      (k < pyBound n i ↔ (k : Int) < position n i) := by
    intro n i k
    unfold pyBound position
    split <;> omega
  unfold safeIndex pyIndex
  generalize ha : pyBound seq.length start = a
  generalize hs : pyStop seq.length stop = b
  have hstart : ∀ k, a ≤ k ↔ position seq.length start ≤ k := fun k => ha ▸ (hb _ _ k).1
  have hstop : ∀ k y, seq[k]? = some y → (k < b ↔ ∀ s ∈ stop, (k : Int) < position seq.length s) := by
    intro k y hk
    have hlen : k < seq.length := (List.getElem?_eq_some_iff.1 hk).1
    cases stop with
    | none => simp only [pyStop] at hs; subst hs; simpa using hlen
    | some s => simp only [pyStop] at hs; subst hs; simpa using (hb _ s k).2
  rcases indexFrom_spec eq x b a (seq.drop a) with ⟨h1, h2⟩ | ⟨i, y, h1, h2, h3, h4, h5⟩
  · refine .inl ⟨by simp only [h1], fun i y hi hy => ?_⟩
    have hai := (hstart i).2 hi.1
    refine h2 (i - a) y ?_ ?_
    · have := (hstop i y hy).2 hi.2; omega
    · rw [List.getElem?_drop]; rwa [Nat.add_sub_cancel' hai]
  · rw [List.getElem?_drop] at h3
    refine .inr ⟨a + i, y, by simp only [h1], ⟨(hstart _).1 (by omega), (hstop _ y h3).1 h2⟩, h3, h4, fun j hj z hi hz => ?_⟩
    have haj := (hstart j).2 hi.1
    refine h5 (j - a) (by omega) z ?_
    rw [List.getElem?_drop]; rwa [Nat.add_sub_cancel' haj]

/-- `safe_get` gives the element at an index that exists, the default for an index beyond the end, and raises
`IndexError` exactly for an index below `-len(seq)`. -/
theorem C89_get_partial (seq : List α) (index : Int) (default : Option α) :
    (∃ i x, (i : Nat) = position seq.length index ∧ seq[i]? = some x ∧ safeGet seq index default = .ok (some x)) ∨
    ((seq.length : Int) ≤ index ∧ safeGet seq index default = .ok default) ∨
    (index < -(seq.length : Int) ∧ safeGet seq index default = .error .index) := by
  unfold safeGet
  by_cases h1 : index < seq.length
  · rw [if_pos h1]
    unfold pyItem position
    by_cases h2 : index < -(seq.length : Int)
    · refine .inr (.inr ⟨h2, ?_⟩)
      have : index < 0 := by omega
      simp only [this, if_true]
      rw [if_pos (by omega)]
    · refine .inl ?_
      generalize hi : (if index < 0 then index + (seq.length : Int) else index) = i
      have hi0 : 0 ≤ i := by split at hi <;> omega
      have hil : i.toNat < seq.length := by split at hi <;> omega
      refine ⟨i.toNat, seq[i.toNat], by omega, List.getElem?_eq_getElem hil, ?_⟩
      simp only
      rw [if_neg (by omega), List.getElem?_eq_getElem hil]
  · rw [if_neg h1]
    exact .inr (.inl ⟨by omega, rfl⟩)

/-- `ensure` and `ensure_sequence` replace `None` and nothing else. -/
theorem C89_ensure (a d : α) (l : List α) : ensure (some a) d = a ∧ ensure none d = d ∧
    ensureSequence (some l) = l ∧ ensureSequence (none : Option (List α)) = [] := ⟨rfl, rfl, rfl, rfl⟩

/-- The part of the full statement without indices below `-len(seq)`. -/
theorem C89_partial (seq : List α) (index : Int) (default : Option α) (h : -(seq.length : Int) ≤ index) :
    (∃ i x, (i : Nat) = position seq.length index ∧ seq[i]? = some x ∧ safeGet seq index default = .ok (some x)) ∨
    ((∀ i : Nat, (i : Int) = position seq.length index → seq[i]? = none) ∧ safeGet seq index default = .ok default) := by
  rcases C89_get_partial seq index default with h1 | ⟨h1, h2⟩ | ⟨h1, _⟩
  · exact .inl h1
  · refine .inr ⟨fun i hi => ?_, h2⟩
    unfold position at hi
    rw [if_neg (by omega)] at hi
    exact List.getElem?_eq_none (by omega)
  · omega

example : find [1, 5, 7] (fun x => decide (3 < x)) = 1 ∧ find [1, 2] (fun x => decide (3 < x)) = -1 := by decide
example : (safeIndex (fun a b : Nat => decide (a = b)) [4, 5, 4] 4 1 none matches .ok (some 2)) = true ∧
    (safeIndex (fun a b : Nat => decide (a = b)) [4, 5, 4] 4 (-2) (some (-1)) matches .ok none) = true := by decide
example : (safeGet [4, 5, 6] (-1) none matches .ok (some 6)) = true ∧ (safeGet [4, 5, 6] 3 (some 0) matches .ok (some 0)) = true ∧
    (safeGet [4, 5, 6] (-4) (some 0) matches .error .index) = true := by decide

end Pddl.Props
