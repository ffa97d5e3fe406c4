/-
C09: what exactly is lost when operands are repeated.
-/
import Verif.Spec.Operands
import Verif.Props.Formula

namespace Pddl.Props
open Pddl Pddl.Spec

theorem memBy_mono {x : Expr} {s s' : List Expr} (h : ∀ y, y ∈ s ↔ y ∈ s') : memBy Expr.pyEq x s = memBy Expr.pyEq x s' := by
  rw [Bool.eq_iff_iff]
  simp [memBy, h]

theorem firstsOf_dedup (l : List Expr) (seen seen' : List Expr) (h : ∀ y, y ∈ seen ↔ y ∈ seen') :
    ∃ dropped, FirstsOf seen' l (dedupAux Expr.pyEq seen l) dropped := by
  induction l generalizing seen seen' with
  | nil => exact ⟨[], .nil⟩
  | cons x l ih =>
    rw [dedupAux]
    split
    · next hm =>
      obtain ⟨d, hd⟩ := ih seen seen' h
      refine ⟨x :: d, .drop ?_ hd⟩
      rw [memBy_mono h] at hm
      simpa [memBy] using hm
    · next hm =>
      obtain ⟨d, hd⟩ := ih (seen ++ [x]) (x :: seen') (by intro y; simp [h, or_comm])
      refine ⟨d, .keep ?_ hd⟩
      rw [memBy_mono h] at hm
      simpa [memBy] using hm

theorem firstsOf_unique {seen l k d k' d' : List Expr} (h : FirstsOf seen l k d) (h' : FirstsOf seen l k' d') : k = k' ∧ d = d' := by
  induction h generalizing k' d' with
  | nil => cases h'; exact ⟨rfl, rfl⟩
  | keep hn _ ih =>
    rcases h' with _ | ⟨_, h'⟩ | ⟨⟨y, hy, he⟩, _⟩
    · obtain ⟨rfl, rfl⟩ := ih h'; exact ⟨rfl, rfl⟩
    · rw [hn y hy] at he; cases he
  | drop hn _ ih =>
    rcases h' with _ | ⟨h1, _⟩ | ⟨_, h'⟩
    · obtain ⟨y, hy, he⟩ := hn; rw [h1 y hy] at he; cases he
    · obtain ⟨rfl, rfl⟩ := ih h'; exact ⟨rfl, rfl⟩

/-- C09, exactly. Whatever the operands, the operator is applied to the flattened ones without those equal to one before. -/
theorem C09_exact {o : FOp} (hm : (Cls.fop o).isMeta = true) {es kept dropped : List Expr} (h2 : 2 ≤ es.length)
    (h : FirstsOf [] (leavesAll (.fop o) es) kept dropped) :
    construct (.fop o) es = .bfun o kept ∧
    ∀ {D} (I : Interp D) ρ, value I ρ (construct (.fop o) es) = (values I ρ kept).bind (arith o) := by
  have hs := simplOperands_loop (c := .fop o) (args := es) (by simpa [Cls.idempotent] using h2)
  simp only [Cls.idempotent, Bool.false_eq_true, if_false] at hs
  obtain ⟨d, hd⟩ := firstsOf_dedup (leavesAll (.fop o) es) [] [] (fun _ => Iff.rfl)
  have e : dedupBy Expr.pyEq (flattenEs (.fop o) es) = kept := by
    rw [← leaves_eq]; exact (firstsOf_unique hd h).1
  rw [e] at hs
  have : construct (.fop o) es = .bfun o kept := by
    simp only [construct, hm, if_true, hs, Cls.idempotent, Bool.false_eq_true, if_false]
    match kept with
    | [] => rfl
    | [x] => rfl
    | _ :: _ :: _ => rfl
  exact ⟨this, fun I ρ => by rw [this, value]⟩

/-- The operands that are kept and dropped exist. -/
theorem C09_split (o : FOp) (es : List Expr) : ∃ kept dropped, FirstsOf [] (leavesAll (.fop o) es) kept dropped ∧
    ∀ k d, FirstsOf [] (leavesAll (.fop o) es) k d → k = kept ∧ d = dropped := by
  obtain ⟨d, hd⟩ := firstsOf_dedup (leavesAll (.fop o) es) [] [] (fun _ => Iff.rfl)
  exact ⟨_, d, hd, fun _ _ h => firstsOf_unique h hd⟩

theorem firstsOf_values {D} {I : Interp D} {ρ : Str → D} {op : Rat → Rat → Rat} {u : Rat}
    (hass : ∀ a b c, op (op a b) c = op a (op b c)) (hcom : ∀ a b, op a b = op b a) (hu : ∀ a, op u a = a)
    {seen l k d : List Expr} (h : FirstsOf seen l k d) :
    (values I ρ l).map (List.foldr op u) = ((values I ρ k).map (List.foldr op u)).bind fun v =>
      (values I ρ d).map fun ds => op v (ds.foldr op u) := by
  induction h with
  | nil => simp [values, hu]
  | keep hn _ ih =>
    rename_i x l k d _
    simp only [values]
    cases value I ρ x with
    | none => simp
    | some v =>
      revert ih
      cases values I ρ l <;> cases values I ρ k <;> cases values I ρ d <;> simp [hass]
      intro h; rw [h]
  | drop hn _ ih =>
    rename_i x l k d _
    simp only [values]
    cases value I ρ x with
    | none => simp
    | some v =>
      revert ih
      cases values I ρ l <;> cases values I ρ k <;> cases values I ρ d <;> simp
      intro h; rw [h, ← hass, hcom v, hass]

/-- C09, exactly, for sums: what is missing is the sum of the operands that are dropped. -/
theorem C09_plus_exact {D} (I : Interp D) (ρ : Str → D) {es kept dropped : List Expr} (h2 : 2 ≤ es.length)
    (h : FirstsOf [] (leavesAll (.fop .plus) es) kept dropped) :
    (values I ρ es).bind (arith .plus) = (value I ρ (construct (.fop .plus) es)).bind fun v =>
      (values I ρ dropped).map fun ds => v + ds.sum := by
  rw [(C09_exact rfl h2 h).2 I ρ]
  have h1 := values_flatten I ρ .plus (· + ·) 0 (fun a b c => by ring) (fun a => by ring) (fun a => by ring) (fun l => rfl) es
  have h3 := firstsOf_values (I := I) (ρ := ρ) (op := (· + ·)) (u := 0) (fun a b c => by ring) (fun a b => by ring) (fun a => by ring) h
  rw [leaves_eq, h1] at h3
  revert h3
  cases values I ρ es <;> cases values I ρ kept <;> cases values I ρ dropped <;> simp [arith, List.sum]

/-- C09, exactly, for products: what is missing is the product of the operands that are dropped. -/
theorem C09_times_exact {D} (I : Interp D) (ρ : Str → D) {es kept dropped : List Expr} (h2 : 2 ≤ es.length)
    (h : FirstsOf [] (leavesAll (.fop .times) es) kept dropped) :
    (values I ρ es).bind (arith .times) = (value I ρ (construct (.fop .times) es)).bind fun v =>
      (values I ρ dropped).map fun ds => v * ds.prod := by
  rw [(C09_exact rfl h2 h).2 I ρ]
  have h1 := values_flatten I ρ .times (· * ·) 1 (fun a b c => by ring) (fun a => by ring) (fun a => by ring) (fun l => rfl) es
  have h3 := firstsOf_values (I := I) (ρ := ρ) (op := (· * ·)) (u := 1) (fun a b c => by ring) (fun a b => by ring) (fun a => by ring) h
  rw [leaves_eq, h1] at h3
  revert h3
  cases values I ρ es <;> cases values I ρ kept <;> cases values I ρ dropped <;> simp [arith, List.prod]

theorem values_none {D} {I : Interp D} {ρ : Str → D} {l : List Expr} : values I ρ l = none ↔ ∃ x ∈ l, value I ρ x = none := by
  induction l with
  | nil => simp [values]
  | cons x l ih =>
    simp only [values, List.mem_cons, exists_eq_or_imp, ← ih]
    cases value I ρ x <;> simp

theorem firstsOf_kept {seen l k d : List Expr} (h : FirstsOf seen l k d) : ∀ x ∈ k, x ∈ l := by
  induction h with
  | nil => simp
  | keep _ _ ih =>
    intro x hx
    rcases List.mem_cons.1 hx with rfl | hx
    · simp
    · exact List.mem_cons_of_mem _ (ih x hx)
  | drop _ _ ih => exact fun x hx => List.mem_cons_of_mem _ (ih x hx)

/-- A dropped operand has the value of one that is kept. -/
theorem firstsOf_value {D} {I : Interp D} {ρ : Str → D} {seen l k d : List Expr} (h : FirstsOf seen l k d)
    (hs : ∀ y ∈ seen, value I ρ y ≠ none) : ∀ x ∈ l, value I ρ x = none → ∃ y ∈ k, value I ρ y = none := by
  induction h with
  | nil => simp
  | keep _ _ ih =>
    rename_i x l k d _ _
    intro z hz hv
    by_cases hx : value I ρ x = none
    · exact ⟨x, by simp, hx⟩
    · rcases List.mem_cons.1 hz with rfl | hz
      · exact absurd hv hx
      · obtain ⟨y, hy, h⟩ := ih (fun y hy => by
          rcases List.mem_cons.1 hy with rfl | hy
          · exact hx
          · exact hs y hy) z hz hv
        exact ⟨y, List.mem_cons_of_mem _ hy, h⟩
  | drop hn _ ih =>
    intro z hz hv
    rcases List.mem_cons.1 hz with rfl | hz
    · obtain ⟨y, hy, he⟩ := hn
      exact absurd ((value_congr I ((Expr.pyEq_iff _ _).1 he)).symm.trans hv) (hs y hy)
    · exact ih hs z hz hv

/-- C09, exactly, for sums: the value is right if and only if an operand has no value or the dropped ones add up to 0. -/
theorem C09_plus_iff {D} (I : Interp D) (ρ : Str → D) {es kept dropped : List Expr} (h2 : 2 ≤ es.length)
    (h : FirstsOf [] (leavesAll (.fop .plus) es) kept dropped) :
    value I ρ (construct (.fop .plus) es) = (values I ρ es).bind (arith .plus) ↔
      values I ρ es = none ∨ (values I ρ dropped).map List.sum = some 0 := by
  have he := C09_plus_exact I ρ h2 h
  have hnone : values I ρ es = none → value I ρ (construct (.fop .plus) es) = none := by
    intro hn
    rw [(C09_exact rfl h2 h).2 I ρ]
    have hd : ∀ x ∈ leavesAll (.fop .plus) es, value I ρ x = none → ∃ y ∈ kept, value I ρ y = none := firstsOf_value h (by simp)
    have h1 := values_flatten I ρ .plus (· + ·) 0 (fun a b c => by ring) (fun a => by ring) (fun a => by ring) (fun l => rfl) es
    rw [hn, ← leaves_eq] at h1
    have h3 : values I ρ (leavesAll (.fop .plus) es) = none := by simpa using h1
    obtain ⟨x, hx, hv⟩ := values_none.1 h3
    obtain ⟨y, hy, hv⟩ := hd x hx hv
    rw [values_none.2 ⟨y, hy, hv⟩]
    rfl
  rw [he]
  cases hv : values I ρ es with
  | none => simp [hnone hv]
  | some vs =>
    rw [hv] at he
    revert he
    cases value I ρ (construct (.fop .plus) es) <;> cases values I ρ dropped <;> simp [arith, eq_comm]

/-- `(+ f f)` loses one `f`, so it is right exactly where `f` is 0 or has no value. -/
example : FirstsOf [] (leavesAll (.fop .plus) [demoF s%"f", .bfun .plus [demoF s%"g", demoF s%"f"]])
    [demoF s%"f", demoF s%"g"] [demoF s%"f"] :=
  .keep (by simp) (.keep (by decide +kernel) (.drop (by decide +kernel) .nil))

end Pddl.Props
