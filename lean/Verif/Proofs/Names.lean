import Verif.Spec.Names
import Verif.Model.Core
import Verif.Proofs.Basic

namespace Pddl
open Spec

theorem letter_iff (c : Char) : isAlphaC c = true ↔ Letter c := by
  simp only [isAlphaC, Letter, Bool.or_eq_true, Bool.and_eq_true, decide_eq_true_eq]
  rfl

theorem digit_iff (c : Char) : isDigitC c = true ↔ Digit c := by
  simp only [isDigitC, Digit, Bool.and_eq_true, decide_eq_true_eq]
  rfl

theorem nameC_iff (c : Char) : isNameC c = true ↔ Letter c ∨ Digit c ∨ c = '-' ∨ c = '_' := by
  simp only [isNameC, Bool.or_eq_true, letter_iff, digit_iff, beq_iff_eq]
  tauto

theorem nameRegex_iff (s : Str) : nameRegex s = true ↔ NameShape s := by
  cases s with
  | nil => simp [nameRegex, NameShape]
  | cons c cs =>
    simp only [nameRegex, Bool.and_eq_true, List.all_eq_true, letter_iff, nameC_iff, NameShape]
    constructor
    · rintro ⟨h1, h2⟩; exact ⟨c, cs, rfl, h1, h2⟩
    · rintro ⟨c', cs', he, h1, h2⟩
      cases he; exact ⟨h1, h2⟩

theorem reserved_of_symbol : ∀ w ∈ allSymbols, nameRegex w = true → w ∈ Spec.reserved.map String.toList := by
  decide

theorem symbol_of_reserved : ∀ w ∈ Spec.reserved.map String.toList, w ∈ allSymbols := by
  decide

theorem reserved_iff (s : Str) : Reserved s ↔ s ∈ Spec.reserved.map String.toList := by
  simp [Reserved]

theorem valid_iff (s : Str) : ValidName s ↔ nameRegex s = true ∧ s ∉ allSymbols := by
  unfold ValidName
  rw [← nameRegex_iff, reserved_iff]
  constructor
  · rintro ⟨h1, h2⟩; exact ⟨h1, fun h => h2 (reserved_of_symbol s h h1)⟩
  · rintro ⟨h1, h2⟩; exact ⟨h1, fun h => h2 (symbol_of_reserved s h)⟩

instance (s : Str) : Decidable (ValidName s) := decidable_of_iff _ (valid_iff s).symm
instance (s : Str) : Decidable (ValidType s) := by unfold ValidType; infer_instance
instance (s : Str) : Decidable (ValidFunction s) := by unfold ValidFunction; infer_instance

theorem parseWith_ok {ig : List Str} {s t : Str} :
    parseWith ig s = .ok t ↔ t = s ∧ nameRegex s = true ∧ (s ∈ ig ∨ s ∉ allSymbols) := by
  unfold parseWith isKeyword mkName
  by_cases h1 : s ∈ ig <;> by_cases h2 : s ∈ allSymbols <;> by_cases h3 : nameRegex s = true <;>
    simp [h1, h2, h3, eq_comm]

theorem parseName_ok {s t : Str} : parseName s = .ok t ↔ t = s ∧ ValidName s := by
  unfold parseName
  rw [parseWith_ok, valid_iff]; simp

theorem parseName_of_valid {s : Str} (h : ValidName s) : parseName s = .ok s :=
  parseName_ok.mpr ⟨rfl, h⟩

theorem parseType_ok {s t : Str} : parseType s = .ok t ↔ t = s ∧ ValidType s := by
  unfold parseType ValidType
  rw [parseWith_ok, valid_iff]
  constructor
  · rintro ⟨rfl, h1, h2⟩
    refine ⟨rfl, ?_⟩
    rcases h2 with h2 | h2
    · right; simpa using h2
    · left; exact ⟨h1, h2⟩
  · rintro ⟨rfl, h | rfl⟩
    · exact ⟨rfl, h.1, .inr h.2⟩
    · exact ⟨rfl, by decide, .inl (by decide)⟩

theorem parseType_of_valid {s : Str} (h : ValidType s) : parseType s = .ok s :=
  parseType_ok.mpr ⟨rfl, h⟩

theorem parseFunction_ok {s t : Str} : parseFunction s = .ok t ↔ t = s ∧ ValidFunction s := by
  unfold parseFunction ValidFunction
  rw [parseWith_ok, valid_iff]
  constructor
  · rintro ⟨rfl, h1, h2⟩
    refine ⟨rfl, ?_⟩
    rcases h2 with h2 | h2
    · right; simpa using h2
    · left; exact ⟨h1, h2⟩
  · rintro ⟨rfl, h | rfl⟩
    · exact ⟨rfl, h.1, .inr h.2⟩
    · exact ⟨rfl, by decide, .inl (by decide)⟩

theorem parseFunction_of_valid {s : Str} (h : ValidFunction s) : parseFunction s = .ok s :=
  parseFunction_ok.mpr ⟨rfl, h⟩

theorem parseName_error {s : Str} {e : Exc} :
    parseName s = .error e ↔
      (e = .validation ∧ s ∈ allSymbols) ∨ (e = .value ∧ s ∉ allSymbols ∧ ¬ NameShape s) := by
  unfold parseName parseWith isKeyword mkName
  rw [← nameRegex_iff]
  by_cases h2 : s ∈ allSymbols <;> by_cases h3 : nameRegex s = true <;>
    simp [h2, h3, eq_comm]

end Pddl

namespace Pddl
open Spec

theorem noDupLoop_ok {seen l : List Str} :
    noDupLoop seen l = .ok () ↔ l.Nodup ∧ ∀ x ∈ l, x ∉ seen := by
  induction l generalizing seen with
  | nil => simp [noDupLoop]
  | cons x xs ih =>
    simp only [noDupLoop]
    by_cases h : x ∈ seen
    · simp [h]
    · simp only [h, if_false, ih, List.nodup_cons, List.mem_append, List.not_mem_nil, or_false,
        List.mem_cons]
      constructor
      · rintro ⟨h1, h2⟩
        exact ⟨⟨fun hx => h2 x hx (.inr rfl), h1⟩, fun y hy => by
          rcases hy with rfl | hy
          · exact h
          · exact fun hs => h2 y hy (.inl hs)⟩
      · rintro ⟨⟨h1, h2⟩, h3⟩
        refine ⟨h2, fun y hy => ?_⟩
        rintro (hs | rfl)
        · exact h3 y (.inr hy) hs
        · exact h1 hy

theorem noDupLoop_error {seen l : List Str} {e : Exc} (h : noDupLoop seen l = .error e) :
    e = .value := by
  induction l generalizing seen with
  | nil => simp [noDupLoop] at h
  | cons x xs ih =>
    simp only [noDupLoop] at h
    split at h
    · simpa using h.symm
    · exact ih h

theorem toType_ok {l l' : List Str} : toType l = .ok l' ↔ l' = l ∧ ∀ t ∈ l, ValidType t := by
  unfold toType
  induction l generalizing l' with
  | nil => simp [eq_comm]
  | cons x xs ih =>
    rw [List.mapM_cons, bind_ok_iff]
    simp only [bind_ok_iff, parseType_ok, ih, pure_ok, Except.ok.injEq, List.mem_cons,
      forall_eq_or_imp]
    constructor
    · rintro ⟨a, ⟨rfl, h1⟩, b, ⟨rfl, h2⟩, rfl⟩
      exact ⟨rfl, h1, h2⟩
    · rintro ⟨rfl, h1, h2⟩
      exact ⟨x, ⟨rfl, h1⟩, xs, ⟨rfl, h2⟩, rfl⟩

end Pddl
