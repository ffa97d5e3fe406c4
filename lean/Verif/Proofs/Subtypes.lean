/- `_check_subtypes`: the loop and its closed form. -/
import Verif.Spec.Tags
import Verif.Proofs.Basic

namespace Pddl
open Spec

/-- Where the loop is after its first round it stays. -/
theorem run_stuck {d : TypeDict} {right : List Str} {t p : Str} (hp : p ∉ right)
    (h : (dictGet d t).join = some p) : ∀ n, SubLoop.run d right n ⟨t, some p⟩ = none := by
  intro n
  induction n with
  | zero => rfl
  | succ n ih => simp only [SubLoop.run, SubLoop.step, if_neg hp, h]; exact ih

theorem run_two {d : TypeDict} {right : List Str} {t : Str} (ht : t ∉ right) (n : Nat) :
    SubLoop.run d right (n + 2) ⟨t, some t⟩ =
      match (dictGet d t).join with
      | none => some ⟨t, none⟩
      | some p => if p ∈ right then some ⟨t, some p⟩ else none := by
  simp only [SubLoop.run, SubLoop.step, if_neg ht]
  cases h : (dictGet d t).join with
  | none => simp
  | some p =>
    by_cases hp : p ∈ right
    · simp [hp]
    · simp only [if_neg hp]; exact run_stuck hp h n

theorem checkSubtypesN_cons (n : Nat) (types : Option TypeDict) (t : Str) (ts right : List Str) :
    checkSubtypesN n types (t :: ts) right =
      if right.length = 0 then some (.ok ())
      else if t ∈ right then checkSubtypesN n types ts right
      else match types with
        | none => some (.error .runtime)
        | some d =>
          match SubLoop.run d right n ⟨t, some t⟩ with
          | none => none
          | some s => match s.parent with
            | none => some (.error .parsing)
            | some _ => checkSubtypesN n types ts right := by
  rw [checkSubtypesN.eq_def]; rfl

theorem checkSubtypes_cons (types : Option TypeDict) (t : Str) (ts right : List Str) :
    checkSubtypes types (t :: ts) right =
      if right.length = 0 then .ok ()
      else if t ∈ right then checkSubtypes types ts right
      else match types with
        | none => .error .runtime
        | some d =>
          match (dictGet d t).join with
          | none => .error .parsing
          | some p => if p ∈ right then checkSubtypes types ts right else .error .diverges := by
  rw [checkSubtypes.eq_def]; rfl

/-- With at least two rounds allowed, the outcome is that of the closed form. -/
theorem checkSubtypesN_eq (types : Option TypeDict) (left right : List Str) (n : Nat) :
    checkSubtypesN (n + 2) types left right =
      (if checkSubtypes types left right = .error .diverges then none
       else some (checkSubtypes types left right)) := by
  induction left with
  | nil => rw [checkSubtypesN.eq_def]; simp [checkSubtypes]
  | cons t ts ih =>
    rw [checkSubtypesN_cons, checkSubtypes_cons]
    by_cases hr : right.length = 0
    · simp [hr]
    · simp only [if_neg hr]
      by_cases ht : t ∈ right
      · simp only [if_pos ht]; exact ih
      · simp only [if_neg ht]
        cases types with
        | none => simp
        | some d =>
          simp only [run_two ht]
          cases h : (dictGet d t).join with
          | none => simp
          | some p =>
            by_cases hp : p ∈ right
            · simp only [if_pos hp]; exact ih
            · simp [hp]

/-- The closed form is the loop: it returns `r` iff some number of rounds suffices to
return `r`, and diverges iff no number of rounds suffices. -/
theorem subtypesN_iff (types : Option TypeDict) (left right : List Str) :
    (∀ r, r ≠ .error .diverges →
      (checkSubtypes types left right = r ↔ ∃ n, checkSubtypesN (n + 2) types left right = some r)) ∧
    (checkSubtypes types left right = .error .diverges ↔
      ∀ n, checkSubtypesN (n + 2) types left right = none) := by
  simp only [checkSubtypesN_eq]
  constructor
  · intro r hr
    by_cases h : checkSubtypes types left right = .error .diverges
    · simp [h, hr.symm]
    · simp [h]
  · by_cases h : checkSubtypes types left right = .error .diverges <;> simp [h]

theorem subRun_mono {d : TypeDict} {right : List Str} {s r : SubLoop} {n : Nat}
    (h : SubLoop.run d right n s = some r) : SubLoop.run d right (n + 1) s = some r := by
  induction n generalizing s with
  | zero => simp [SubLoop.run] at h
  | succ n ih =>
    rw [SubLoop.run] at h ⊢
    cases hs : s.step d right with
    | none => simpa [hs] using h
    | some s' => simp only [hs] at h ⊢; exact ih h

theorem checkSubtypesN_mono {types : Option TypeDict} {left right : List Str} {n : Nat} {r}
    (h : checkSubtypesN n types left right = some r) :
    checkSubtypesN (n + 1) types left right = some r := by
  induction left with
  | nil => rw [checkSubtypesN.eq_def] at h ⊢; exact h
  | cons t ts ih =>
    rw [checkSubtypesN_cons] at h ⊢
    split at h
    · rename_i hr; simpa [hr] using h
    · rename_i hr; simp only [if_neg hr]
      split at h
      · rename_i ht; simp only [if_pos ht]; exact ih h
      · rename_i ht; simp only [if_neg ht]
        cases types with
        | none => exact h
        | some d =>
          simp only at h ⊢
          cases hs : SubLoop.run d right n ⟨t, some t⟩ with
          | none => simp [hs] at h
          | some s =>
            rw [subRun_mono hs]; simp only [hs] at h ⊢
            cases hp : s.parent with
            | none => simpa [hp] using h
            | some p => simp only [hp] at h ⊢; exact ih h

/-- The call returns `r` when run for long enough. -/
theorem returns_iff (types : Option TypeDict) (left right : List Str) (r : Except Exc Unit)
    (hr : r ≠ .error .diverges) :
    (∃ n, checkSubtypesN n types left right = some r) ↔ checkSubtypes types left right = r := by
  rw [(subtypesN_iff types left right).1 r hr]
  constructor
  · rintro ⟨n, h⟩; exact ⟨n, checkSubtypesN_mono (checkSubtypesN_mono h)⟩
  · rintro ⟨n, h⟩; exact ⟨_, h⟩

theorem join_eq_some {d : TypeDict} {t p : Str} : (dictGet d t).join = some p ↔ d.lookup t = some (some p) := by
  rw [dictGet]; cases d.lookup t with
  | none => simp
  | some o => cases o <;> simp

theorem checkSubtypes_ok {d : TypeDict} {left right : List Str} (hr : right ≠ []) :
    checkSubtypes (some d) left right = .ok () ↔
      ∀ t ∈ left, t ∈ right ∨ ∃ p ∈ right, d.lookup t = some (some p) := by
  have hr' : right.length ≠ 0 := by simpa using hr
  induction left with
  | nil => simp [checkSubtypes]
  | cons t ts ih =>
    rw [checkSubtypes, if_neg hr', List.forall_mem_cons]
    by_cases ht : t ∈ right
    · simp [ht, ih]
    · simp only [ht, false_or, if_false]
      cases h : (dictGet d t).join with
      | none =>
        have : ∀ p, d.lookup t ≠ some (some p) := fun p hp => by
          rw [← join_eq_some, h] at hp; simp at hp
        simp [this]
      | some p =>
        have hp := join_eq_some.mp h
        by_cases hm : p ∈ right
        · simp only [if_pos hm, ih, hp]
          constructor
          · exact fun h => ⟨⟨p, hm, rfl⟩, h⟩
          · exact fun h => h.2
        · simp only [if_neg hm, hp]
          constructor
          · simp
          · rintro ⟨⟨q, hq, e⟩, _⟩
            simp at e; subst e; exact absurd hq hm

theorem checkSubtypes_parsing {d : TypeDict} {left right : List Str}
    (h : checkSubtypes (some d) left right = .error .parsing) :
    right ≠ [] ∧ ∃ t ∈ left, t ∉ right ∧ ∀ p, d.lookup t ≠ some (some p) := by
  induction left with
  | nil => simp [checkSubtypes] at h
  | cons t ts ih =>
    rw [checkSubtypes] at h
    by_cases hr : right.length = 0
    · simp [hr] at h
    · have hr' : right ≠ [] := by simpa using hr
      refine ⟨hr', ?_⟩
      simp only [if_neg hr] at h
      by_cases ht : t ∈ right
      · simp only [if_pos ht] at h
        obtain ⟨_, u, hu, hx⟩ := ih h
        exact ⟨u, List.mem_cons_of_mem _ hu, hx⟩
      · simp only [if_neg ht] at h
        cases hj : (dictGet d t).join with
        | none =>
          refine ⟨t, by simp, ht, fun p hp => ?_⟩
          rw [← join_eq_some, hj] at hp; simp at hp
        | some p =>
          simp only [hj] at h
          by_cases hm : p ∈ right
          · simp only [if_pos hm] at h
            obtain ⟨_, u, hu, hx⟩ := ih h
            exact ⟨u, List.mem_cons_of_mem _ hu, hx⟩
          · simp [hm] at h

theorem checkSubtypes_nil (types : Option TypeDict) (left : List Str) :
    checkSubtypes types left [] = .ok () := by
  cases left <;> simp [checkSubtypes]

theorem checkSubtypes_some (d : TypeDict) (left right : List Str) :
    checkSubtypes (some d) left right = .ok () ∨ checkSubtypes (some d) left right = .error .parsing ∨
    checkSubtypes (some d) left right = .error .diverges := by
  induction left with
  | nil => simp [checkSubtypes]
  | cons t ts ih =>
    rw [checkSubtypes]
    split
    · simp
    · split
      · exact ih
      · split
        · simp
        · split
          · exact ih
          · simp

theorem not_subtype {d : TypeDict} {t b : Str} (h : ∀ p, d.lookup t ≠ some (some p)) (hs : IsSubtype d t b) :
    b = t := by
  unfold IsSubtype at hs
  cases Relation.ReflTransGen.cases_head hs with
  | inl e => exact e.symm
  | inr e => obtain ⟨c, hc, _⟩ := e; exact absurd hc (h c)

end Pddl
