/- Helper lemmas: string order, sorting, sets as lists. -/
import Verif.Model.Term
import Verif.Model.Requirements

namespace Pddl

/-! ### String order -/

theorem strLe_refl (a : Str) : strLe a a = true := by
  induction a with
  | nil => rfl
  | cons x xs ih => simp [strLe, ih]

theorem strLe_total (a b : Str) : strLe a b = true ∨ strLe b a = true := by
  induction a generalizing b with
  | nil => simp [strLe]
  | cons x xs ih =>
    cases b with
    | nil => simp [strLe]
    | cons y ys =>
      simp only [strLe]
      rcases Nat.lt_trichotomy x.toNat y.toNat with h | h | h
      · simp [h]
      · have := ih ys; simpa [h] using this
      · simp [h]

theorem strLe_antisymm {a b : Str} (h₁ : strLe a b = true) (h₂ : strLe b a = true) : a = b := by
  induction a generalizing b with
  | nil => cases b with
    | nil => rfl
    | cons y ys => simp [strLe] at h₂
  | cons x xs ih =>
    cases b with
    | nil => simp [strLe] at h₁
    | cons y ys =>
      simp only [strLe] at h₁ h₂
      rcases Nat.lt_trichotomy x.toNat y.toNat with h | h | h
      · have : ¬ y.toNat < x.toNat := by omega
        simp [h, this] at h₂
      · have hx : x = y := Char.toNat_inj.mp h
        subst hx
        simp at h₁ h₂
        rw [ih h₁ h₂]
      · have : ¬ x.toNat < y.toNat := by omega
        simp [h, this] at h₁

theorem strLe_trans {a b c : Str} (h₁ : strLe a b = true) (h₂ : strLe b c = true) :
    strLe a c = true := by
  induction a generalizing b c with
  | nil => simp [strLe]
  | cons x xs ih =>
    cases b with
    | nil => simp [strLe] at h₁
    | cons y ys =>
      cases c with
      | nil => simp [strLe] at h₂
      | cons z zs =>
        simp only [strLe] at h₁ h₂ ⊢
        split at h₁
        · split at h₂
          · have : x.toNat < z.toNat := by omega
            simp [this]
          · split at h₂
            · simp at h₂
            · have : x.toNat < z.toNat := by omega
              simp [this]
        · split at h₁
          · simp at h₁
          · split at h₂
            · have : x.toNat < z.toNat := by omega
              simp [this]
            · split at h₂
              · simp at h₂
              · have h3 : ¬ x.toNat < z.toNat := by omega
                have h4 : ¬ z.toNat < x.toNat := by omega
                simp [h3, h4, ih h₁ h₂]

theorem strLt_irrefl (a : Str) : strLt a a = false := by simp [strLt, strLe_refl]

theorem strLt_trans {a b c : Str} (h₁ : strLt a b = true) (h₂ : strLt b c = true) :
    strLt a c = true := by
  simp only [strLt, Bool.not_eq_true'] at *
  by_contra h
  simp only [Bool.not_eq_false] at h
  have hab : strLe a b = true := (strLe_total a b).resolve_right (by simp [h₁])
  have := strLe_trans h hab
  simp [this] at h₂

theorem strLt_trichotomy (a b : Str) : strLt a b = true ∨ a = b ∨ strLt b a = true := by
  simp only [strLt, Bool.not_eq_true']
  by_cases h1 : strLe b a = true
  · by_cases h2 : strLe a b = true
    · exact .inr (.inl (strLe_antisymm h2 h1))
    · exact .inr (.inr (by simpa using h2))
  · exact .inl (by simpa using h1)

theorem strLt_asymm {a b : Str} (h : strLt a b = true) : strLt b a = false := by
  by_contra h'
  simp only [Bool.not_eq_false] at h'
  have := strLt_trans h h'
  simp [strLt_irrefl] at this

/-! ### Sorting -/

theorem insertBy_perm {α} (le : α → α → Bool) (a : α) (l : List α) : (insertBy le a l).Perm (a :: l) := by
  induction l with
  | nil => exact List.Perm.refl _
  | cons b l ih =>
    unfold insertBy
    split
    · exact List.Perm.refl _
    · exact (ih.cons b).trans (List.Perm.swap a b l)

theorem sortBy_perm {α} (le : α → α → Bool) (l : List α) : (sortBy le l).Perm l := by
  induction l with
  | nil => exact List.Perm.refl _
  | cons a l ih => exact (insertBy_perm le a _).trans (ih.cons a)

theorem sortBy_pairwise {α} {le : α → α → Bool} {l : List α}
    (ht : ∀ a ∈ l, ∀ b ∈ l, ∀ c ∈ l, le a b = true → le b c = true → le a c = true)
    (hc : ∀ a ∈ l, ∀ b ∈ l, le a b = true ∨ le b a = true) :
    (sortBy le l).Pairwise (fun a b => le a b = true) := by
  induction l with
  | nil => exact List.Pairwise.nil
  | cons a l ih =>
    have ih := ih (fun x hx y hy z hz => ht x (by simp [hx]) y (by simp [hy]) z (by simp [hz]))
      (fun x hx y hy => hc x (by simp [hx]) y (by simp [hy]))
    have hsub : ∀ x ∈ sortBy le l, x ∈ a :: l := fun x hx =>
      List.mem_cons_of_mem _ ((sortBy_perm le l).mem_iff.1 hx)
    show (insertBy le a (sortBy le l)).Pairwise _
    generalize sortBy le l = m at ih hsub
    induction m with
    | nil => simp [insertBy]
    | cons b m ihm =>
      have hb : b ∈ a :: l := hsub b (by simp)
      rw [List.pairwise_cons] at ih
      unfold insertBy
      split
      · next hab =>
        rw [List.pairwise_cons]
        refine ⟨?_, List.pairwise_cons.2 ih⟩
        intro x hx
        rcases List.mem_cons.1 hx with rfl | hx
        · exact hab
        · exact ht a (by simp) b hb x (hsub x (by simp [hx])) hab (ih.1 x hx)
      · next hab =>
        rw [List.pairwise_cons]
        refine ⟨?_, ihm ih.2 (fun x hx => hsub x (by simp [hx]))⟩
        intro x hx
        rcases List.mem_cons.1 ((insertBy_perm le a m).mem_iff.1 hx) with rfl | hx
        · exact (hc x (by simp) b hb).resolve_left hab
        · exact ih.1 x hx

theorem sortedStr_perm (l : List Str) : (sortedStr l).Perm l := sortBy_perm _ l

theorem sortedStr_pairwise (l : List Str) : (sortedStr l).Pairwise (fun a b => strLe a b = true) :=
  sortBy_pairwise (le := strLe) (fun _ _ _ _ _ _ => strLe_trans) (fun a _ b _ => strLe_total a b)

theorem sortedStr_eq_of_perm {a b : List Str} (h : a.Perm b) : sortedStr a = sortedStr b := by
  refine List.Perm.eq_of_pairwise (le := fun a b => strLe a b = true) ?_
    (sortedStr_pairwise a) (sortedStr_pairwise b) ?_
  · intro x y _ _ h1 h2
    exact strLe_antisymm h1 h2
  · exact (sortedStr_perm a).trans (h.trans (sortedStr_perm b).symm)

@[simp] theorem mem_sortedStr {x : Str} {l : List Str} : x ∈ sortedStr l ↔ x ∈ l :=
  (sortedStr_perm l).mem_iff

theorem sortedStr_nil : sortedStr [] = [] := rfl
theorem sortedStr_singleton (a : Str) : sortedStr [a] = [a] := rfl

theorem sortedStr_length (l : List Str) : (sortedStr l).length = l.length :=
  (sortedStr_perm l).length_eq

/-! ### Sets as lists -/

section
variable {α : Type _} {eq : α → α → Bool}

theorem memBy_iff {x : α} {l : List α} : memBy eq x l = true ↔ ∃ y ∈ l, eq x y = true := by
  simp [memBy]

theorem memBy_append {x : α} {a b : List α} :
    memBy eq x (a ++ b) = (memBy eq x a || memBy eq x b) := by simp [memBy]

theorem dedupAux_subset {seen l : List α} {x : α} (h : x ∈ dedupAux eq seen l) : x ∈ l := by
  induction l generalizing seen with
  | nil => simp [dedupAux] at h
  | cons y ys ih =>
    simp only [dedupAux] at h
    split at h
    · exact List.mem_cons_of_mem _ (ih h)
    · rcases List.mem_cons.mp h with h | h
      · simp [h]
      · exact List.mem_cons_of_mem _ (ih h)

theorem dedupBy_subset {l : List α} {x : α} (h : x ∈ dedupBy eq l) : x ∈ l := dedupAux_subset h

theorem dedupAux_sublist (seen l : List α) : (dedupAux eq seen l).Sublist l := by
  induction l generalizing seen with
  | nil => simp [dedupAux]
  | cons y ys ih =>
    simp only [dedupAux]
    split
    · exact (ih _).cons _
    · exact (ih _).cons_cons _

theorem dedupBy_sublist (l : List α) : (dedupBy eq l).Sublist l := dedupAux_sublist _ _

/-- The elements of a deduplicated list cover the original list. -/
theorem dedupAux_cover (hrefl : ∀ a, eq a a = true) {seen l : List α} {x : α} (h : x ∈ l) :
    memBy eq x (seen ++ dedupAux eq seen l) = true := by
  induction l generalizing seen with
  | nil => simp at h
  | cons y ys ih =>
    simp only [dedupAux]
    rcases List.mem_cons.mp h with h | h
    · subst h
      split
      · next hm => rw [memBy_append]; simp [hm]
      · rw [memBy_iff]; exact ⟨x, by simp, hrefl x⟩
    · split
      · exact ih h
      · have := ih (seen := seen ++ [y]) h
        simpa [List.append_assoc] using this

theorem dedupBy_cover (hrefl : ∀ a, eq a a = true) {l : List α} {x : α} (h : x ∈ l) :
    memBy eq x (dedupBy eq l) = true := by
  have := dedupAux_cover (eq := eq) hrefl (seen := []) h
  simpa [dedupBy] using this

theorem dedupAux_pairwise (seen l : List α) :
    (dedupAux eq seen l).Pairwise (fun a b => eq b a = false) ∧
    ∀ x ∈ dedupAux eq seen l, memBy eq x seen = false := by
  induction l generalizing seen with
  | nil => simp [dedupAux]
  | cons y ys ih =>
    simp only [dedupAux]
    split
    · exact ih seen
    · next hm =>
      have ⟨h1, h2⟩ := ih (seen ++ [y])
      constructor
      · rw [List.pairwise_cons]
        refine ⟨fun x hx => ?_, h1⟩
        have := h2 x hx
        rw [memBy_append] at this
        simp [memBy] at this
        exact this.2
      · intro x hx
        rcases List.mem_cons.mp hx with rfl | hx
        · simpa using hm
        · have := h2 x hx
          rw [memBy_append] at this
          simp only [Bool.or_eq_false_iff] at this
          exact this.1

/-- No two elements of a deduplicated list are equal. -/
theorem dedupBy_pairwise (l : List α) :
    (dedupBy eq l).Pairwise (fun a b => eq b a = false) := (dedupAux_pairwise [] l).1

theorem dedupAux_eq_self {seen l : List α}
    (h : l.Pairwise (fun a b => eq b a = false)) (hs : ∀ x ∈ l, memBy eq x seen = false) :
    dedupAux eq seen l = l := by
  induction l generalizing seen with
  | nil => rfl
  | cons y ys ih =>
    rw [List.pairwise_cons] at h
    have hy := hs y (by simp)
    simp only [dedupAux, hy]
    simp only [Bool.false_eq_true, if_false]
    rw [ih h.2]
    intro x hx
    rw [memBy_append, hs x (by simp [hx])]
    simp [memBy, h.1 x hx]

theorem dedupBy_eq_self {l : List α} (h : l.Pairwise (fun a b => eq b a = false)) :
    dedupBy eq l = l := dedupAux_eq_self h (by simp [memBy])

theorem dedupBy_idem (l : List α) : dedupBy eq (dedupBy eq l) = dedupBy eq l :=
  dedupBy_eq_self (dedupBy_pairwise l)

end

section
variable {α : Type _} [DecidableEq α]

@[simp] theorem memBy_decide {x : α} {l : List α} :
    memBy (fun a b => decide (a = b)) x l = decide (x ∈ l) := by
  rw [Bool.eq_iff_iff, memBy_iff]; simp

theorem mem_dedup {x : α} {l : List α} :
    x ∈ dedupBy (fun a b => decide (a = b)) l ↔ x ∈ l := by
  constructor
  · exact dedupBy_subset
  · intro h
    have := dedupBy_cover (eq := fun a b => decide (a = b)) (by simp) h
    simpa using this

theorem dedup_nodup (l : List α) : (dedupBy (fun a b => decide (a = b)) l).Nodup := by
  have := dedupBy_pairwise (eq := fun a b => decide (a = b)) l
  refine this.imp ?_
  intro a b h hab
  simp [hab] at h

theorem dedup_of_nodup {l : List α} (h : l.Nodup) :
    dedupBy (fun a b => decide (a = b)) l = l := by
  apply dedupBy_eq_self
  refine h.imp ?_
  intro a b hab
  simpa using fun h => hab h.symm

theorem setEqBy_decide {a b : List α} :
    setEqBy (fun x y => decide (x = y)) a b = true ↔ ∀ x, x ∈ a ↔ x ∈ b := by
  simp only [setEqBy, memBy_decide, Bool.and_eq_true, List.all_eq_true, decide_eq_true_eq]
  exact ⟨fun ⟨h1, h2⟩ x => ⟨h1 x, h2 x⟩, fun h => ⟨fun x => (h x).1, fun x => (h x).2⟩⟩

end

theorem setEq_iff {a b : List Str} : setEq a b = true ↔ ∀ x, x ∈ a ↔ x ∈ b := setEqBy_decide

theorem check_ok {c : Bool} {e : Exc} {u : Unit} : check c e = .ok u ↔ c = true := by
  cases c <;> simp [check]

@[simp] theorem check_true (e : Exc) : check true e = .ok () := rfl
@[simp] theorem check_false (e : Exc) : check false e = .error e := rfl

/-- `do` blocks in `Except`. -/
theorem bind_ok_iff {ε α β} {x : Except ε α} {f : α → Except ε β} {b : β} :
    (x >>= f) = .ok b ↔ ∃ a, x = .ok a ∧ f a = .ok b := by
  cases x with
  | error e => simp [bind, Except.bind]
  | ok a => simp [bind, Except.bind]

@[simp] theorem pure_ok {ε α} (a : α) : (pure a : Except ε α) = .ok a := rfl
@[simp] theorem ok_bind {ε α β} (a : α) (f : α → Except ε β) : (Except.ok a >>= f) = f a := rfl
@[simp] theorem error_bind {ε α β} (e : ε) (f : α → Except ε β) :
    ((Except.error e : Except ε α) >>= f) = .error e := rfl

end Pddl
