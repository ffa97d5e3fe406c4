/-
Renamings that are given on the names of a text only, and capital and small letters.
-/
import Verif.Spec.LetterCase
import Verif.Proofs.RenameExchange
import Verif.Proofs.TypedText
import Mathlib.Data.Fintype.Sum

namespace Pddl
open Spec

/-! ### Extending a renaming -/

/-- A word with a meaning of its own. -/
def Kept (w : Str) : Prop := Reserved w ∨ w = s%"number"

/-- A one to one renaming of finitely many names is part of a renaming of all names. -/
theorem renaming_extend {N : List Str} {f : Str → Str} (hN : ∀ a ∈ N, NameShape a) (hs : ∀ a ∈ N, NameShape (f a))
    (hinj : ∀ a ∈ N, ∀ b ∈ N, f a = f b → a = b) (hk : ∀ a ∈ N, Kept a → f a = a) (hk' : ∀ a ∈ N, Kept (f a) → f a = a) :
    ∃ ρ, Renaming ρ ∧ ∀ a ∈ N, ρ a = f a := by
  classical
  let A : Finset Str := N.toFinset.filter (fun w => ¬ Kept w)
  let U : Finset Str := A ∪ A.image f
  have hA : ∀ a, a ∈ A ↔ a ∈ N ∧ ¬ Kept a := fun a => by simp [A]
  have hU : ∀ x ∈ U, NameShape x ∧ ¬ Kept x := by
    intro x hx
    rcases Finset.mem_union.1 hx with hx | hx
    · exact ⟨hN x ((hA x).1 hx).1, ((hA x).1 hx).2⟩
    · obtain ⟨a, ha, rfl⟩ := Finset.mem_image.1 hx
      obtain ⟨h1, h2⟩ := (hA a).1 ha
      refine ⟨hs a h1, fun h => h2 ?_⟩
      rw [hk' a h1 h] at h
      exact h
  obtain ⟨g, hg⟩ := Finset.exists_equiv_extend_of_card_eq (α := U) (t := U) (by simp)
    (s := Finset.univ.filter (fun x : U => x.1 ∈ A)) (f := fun x => f x.1) (by
      intro y hy
      obtain ⟨x, hx, rfl⟩ := Finset.mem_image.1 hy
      exact Finset.mem_union_right _ (Finset.mem_image_of_mem _ (Finset.mem_filter.1 hx).2)) (by
      intro x hx y hy e
      have hx := ((hA _).1 (Finset.mem_filter.1 hx).2).1
      have hy := ((hA _).1 (Finset.mem_filter.1 hy).2).1
      exact Subtype.ext (hinj _ hx _ hy e))
  refine ⟨fun w => if h : w ∈ U then (g ⟨w, h⟩).1 else w, ⟨?_, ?_, ?_, ?_, ?_⟩, ?_⟩
  · intro a b h
    by_cases ha : a ∈ U <;> by_cases hb : b ∈ U <;> simp only [ha, hb, dif_pos, dif_neg, not_false_eq_true] at h
    · exact congrArg Subtype.val (g.injective (Subtype.ext h))
    · exact absurd (h ▸ (g ⟨a, ha⟩).2) hb
    · exact absurd (h ▸ (g ⟨b, hb⟩).2) ha
    · exact h
  · intro w hw
    split
    · exact (hU _ (g _).2).1
    · exact hw
  · intro w hw
    exact dif_neg (fun h => hw (hU w h).1)
  · intro w hw
    exact dif_neg (fun h => (hU w h).2 (.inl hw))
  · exact dif_neg (fun h => (hU _ h).2 (.inr rfl))
  · intro a ha
    by_cases hka : Kept a
    · rw [hk a ha hka]; exact dif_neg (fun h => (hU a h).2 hka)
    · have haA : a ∈ A := (hA a).2 ⟨ha, hka⟩
      have haU : a ∈ U := Finset.mem_union_left _ haA
      refine (dif_pos haU).trans ?_
      exact hg ⟨a, haU⟩ (by simp [haA])

/-- The names of a text. -/
def textNames (t : Str) : List Str := (lex t).filterMap (fun | .name w => some w | _ => none)

theorem mem_textNames {t w : Str} : w ∈ textNames t ↔ Tok.name w ∈ lex t := by
  unfold textNames
  rw [List.mem_filterMap]
  constructor
  · rintro ⟨k, hk, h⟩
    split at h
    · simp only [Option.some.injEq] at h; subst h; exact hk
    · simp at h
  · intro h
    exact ⟨_, h, rfl⟩

theorem name_shape {t w : Str} (h : Tok.name w ∈ lex t) : NameShape w := (nameRegex_iff w).1 (lex_ok t _ h)

theorem renamed_congr {ρ f : Str → Str} {t t' : Str} (h : ∀ w, Tok.name w ∈ lex t → ρ w = f w) (hr : Renamed f t t') :
    Renamed ρ t t' := by
  unfold Renamed at hr ⊢
  rw [hr]
  apply List.map_congr_left
  intro k hk
  cases k <;> simp only [Tok.rename]
  rw [h _ hk]

/-! ### Capital and small letters -/

theorem same_refl (a : Str) : SameIgnoringCase a a := rfl

theorem exchange_twice (a b w : Str) : exchange a b (exchange a b w) = w := by
  unfold exchange
  by_cases h1 : w = a
  · subst h1
    by_cases h2 : b = w
    · simp [h2]
    · simp [h2]
  · by_cases h2 : w = b
    · subst h2; simp [h1]
    · simp [h1, h2]

/-- The other spelling of a name. -/
theorem respelt_renamed {t t' : Str} (h : RespeltText t t') (hs : SpeltAlike t') :
    ∃ f : Str → Str, Renamed f t t' ∧ ∀ a, Tok.name a ∈ lex t → SameIgnoringCase a (f a) := by
  classical
  let Q : Str → Str → Prop := fun a b => (Tok.name a, Tok.name b) ∈ (lex t).zip (lex t')
  have hQ : ∀ a b, Q a b → Tok.name b ∈ lex t' ∧ SameIgnoringCase a b := by
    intro a b hq
    refine ⟨(List.of_mem_zip hq).2, ?_⟩
    have := List.forall₂_iff_zip.1 h
    have := this.2 hq
    cases this with
    | same => exact rfl
    | name e => exact e
  let f : Str → Str := fun a => if h : ∃ b, Q a b then h.choose else a
  have hf : ∀ a b, Q a b → f a = b := by
    intro a b hq
    have hex : ∃ b, Q a b := ⟨b, hq⟩
    have e : f a = hex.choose := dif_pos hex
    rw [e]
    obtain ⟨h1, h2⟩ := hQ _ _ hex.choose_spec
    obtain ⟨h3, h4⟩ := hQ _ _ hq
    exact hs.names _ _ h1 h3 (h2.symm.trans h4)
  refine ⟨f, ?_, ?_⟩
  · unfold Renamed
    have hl : (lex t).length = (lex t').length := h.length_eq
    apply List.ext_getElem
    · simp [hl]
    · intro i h1 h2
      rw [List.getElem_map]
      have h2' : i < (lex t).length := by simpa using h2
      have hz : ((lex t)[i], (lex t')[i]) ∈ (lex t).zip (lex t') := by
        rw [List.mem_iff_getElem]
        exact ⟨i, by simp; omega, by simp⟩
      have hrel := (List.forall₂_iff_zip.1 h).2 hz
      generalize (lex t)[i] = x at hrel hz ⊢
      generalize (lex t')[i] = y at hrel hz ⊢
      cases hrel with
      | same =>
        cases x <;> simp only [Tok.rename]
        rw [hf _ _ hz]
      | name e => simp only [Tok.rename]; rw [hf _ _ hz]
  · intro a ha
    by_cases hex : ∃ b, Q a b
    · obtain ⟨b, hb⟩ := hex
      rw [hf a b hb]
      exact (hQ a b hb).2
    · have : f a = a := dif_neg hex
      rw [this]
      exact rfl

theorem renamed_mem {f : Str → Str} {t t' : Str} (h : Renamed f t t') {a : Str} (ha : Tok.name a ∈ lex t) :
    Tok.name (f a) ∈ lex t' := by
  rw [h]
  exact List.mem_map.2 ⟨_, ha, rfl⟩

/-- Two texts that differ only in the capital and small letters of their names: one is a renaming of the other, by
names that differ only in capital and small letters. -/
theorem respelt_renaming {t t' : Str} (h : RespeltText t t') (hs : SpeltAlike t) (hs' : SpeltAlike t') :
    ∃ ρ, Renaming ρ ∧ Renamed ρ t t' ∧ ∀ w, SameIgnoringCase (ρ w) w := by
  classical
  obtain ⟨f, hr, hf⟩ := respelt_renamed h hs'
  let C : Str → Str → Prop := fun w a => Tok.name a ∈ lex t ∧ SameIgnoringCase w a
  have hC : ∀ w a b, C w a → C w b → a = b := fun w a b ha hb => hs.names a b ha.1 hb.1 (ha.2.symm.trans hb.2)
  let ρ : Str → Str := fun w => if h : ∃ a, C w a then exchange h.choose (f h.choose) w else w
  have hρ : ∀ w a, C w a → ρ w = exchange a (f a) w := by
    intro w a ha
    have hex : ∃ a, C w a := ⟨a, ha⟩
    have e : ρ w = exchange hex.choose (f hex.choose) w := dif_pos hex
    rw [e, hC w _ _ hex.choose_spec ha]
  have hρ' : ∀ w, (¬ ∃ a, C w a) → ρ w = w := fun w hn => dif_neg hn
  have hcase : ∀ w, SameIgnoringCase (ρ w) w := by
    intro w
    by_cases hex : ∃ a, C w a
    · obtain ⟨a, ha⟩ := hex
      rw [hρ w a ha]
      unfold exchange
      split
      · rename_i e; rw [e]; exact (hf a ha.1).symm
      · split
        · rename_i e; rw [e]; exact hf a ha.1
        · exact rfl
    · rw [hρ' w hex]; exact rfl
  have hkept : ∀ w, Kept w → ρ w = w := by
    intro w hk
    by_cases hex : ∃ a, C w a
    · obtain ⟨a, ha⟩ := hex
      have e1 : a = w := hs.words a w ha.1 hk ha.2.symm
      subst e1
      have e2 : f a = a := hs'.words _ a (renamed_mem hr ha.1) hk (hf a ha.1).symm
      rw [hρ a a ha, e2]
      simp [exchange]
    · exact hρ' w hex
  refine ⟨ρ, ⟨?_, ?_, ?_, fun w hw => hkept w (.inl hw), hkept _ (.inr rfl)⟩, renamed_congr ?_ hr, hcase⟩
  · intro a b e
    have hab : SameIgnoringCase a b := (hcase a).symm.trans (by rw [e]; exact hcase b)
    by_cases hex : ∃ x, C a x
    · obtain ⟨x, hx⟩ := hex
      rw [hρ a x hx, hρ b x ⟨hx.1, hab.symm.trans hx.2⟩] at e
      rw [← exchange_twice x (f x) a, e, exchange_twice]
    · have hex' : ¬ ∃ x, C b x := fun ⟨x, hx⟩ => hex ⟨x, hx.1, hab.trans hx.2⟩
      rw [hρ' a hex, hρ' b hex'] at e
      exact e
  · intro w hw
    by_cases hex : ∃ a, C w a
    · obtain ⟨a, ha⟩ := hex
      rw [hρ w a ha]
      unfold exchange
      split
      · exact name_shape (renamed_mem hr ha.1)
      · split
        · exact name_shape ha.1
        · exact hw
    · rw [hρ' w hex]; exact hw
  · intro w hw
    by_cases hex : ∃ a, C w a
    · obtain ⟨a, ha⟩ := hex
      rw [hρ w a ha]
      unfold exchange
      rw [if_neg, if_neg]
      · rintro rfl; exact hw (name_shape (renamed_mem hr ha.1))
      · rintro rfl; exact hw (name_shape ha.1)
    · exact hρ' w hex
  · intro w hw
    rw [hρ w w ⟨hw, rfl⟩]
    simp [exchange]

/-! ### Renaming twice -/

section
variable (ρ σ : Str → Str)

theorem Var.rename_comp (v : Var) : (v.rename ρ).rename σ = v.rename (σ ∘ ρ) := by simp [Var.rename]
theorem Term.rename_comp (t : Term) : (t.rename ρ).rename σ = t.rename (σ ∘ ρ) := by
  cases t <;> simp [Term.rename, Var.rename_comp]

theorem Pred.rename_comp (p : Pred) : (p.rename ρ).rename σ = p.rename (σ ∘ ρ) := by
  simp [Pred.rename, Function.comp_def, Term.rename_comp]
theorem NFun.rename_comp (p : NFun) : (p.rename ρ).rename σ = p.rename (σ ∘ ρ) := by
  simp [NFun.rename, Function.comp_def, Term.rename_comp]

theorem Expr.rename_comp (e : Expr) : (e.rename ρ).rename σ = e.rename (σ ∘ ρ) := by
  have hl : ∀ as : List Expr, (∀ a ∈ as, (a.rename ρ).rename σ = a.rename (σ ∘ ρ)) →
      Expr.renames σ (Expr.renames ρ as) = Expr.renames (σ ∘ ρ) as := by
    intro as h
    induction as with
    | nil => rfl
    | cons a as ih =>
      simp only [Expr.renames]
      rw [h a (by simp), ih (fun b hb => h b (List.mem_cons_of_mem _ hb))]
  induction e using Expr.ind with
  | hpred p => simp only [Expr.rename, Pred.rename_comp]
  | heq l r => simp only [Expr.rename, Term.rename_comp]
  | hnfun f => simp only [Expr.rename, NFun.rename_comp]
  | hnum n => rfl
  | hbfun o as ih => simp only [Expr.rename, hl as ih]
  | hbin o as ih => simp only [Expr.rename, hl as ih]
  | hnot a ih => simp only [Expr.rename, ih]
  | hquant q vs c ih => simp only [Expr.rename, ih, List.map_map, Function.comp_def, Var.rename_comp]
  | hwhen c e ih1 ih2 => simp only [Expr.rename, ih1, ih2]
  | hfall vs e ih => simp only [Expr.rename, ih, List.map_map, Function.comp_def, Var.rename_comp]

theorem Action.rename_comp (a : Action) : (a.rename ρ).rename σ = a.rename (σ ∘ ρ) := by
  simp [Action.rename, Function.comp_def, Term.rename_comp, Expr.rename_comp]
theorem Derived.rename_comp (d : Derived) : (d.rename ρ).rename σ = d.rename (σ ∘ ρ) := by
  simp [Derived.rename, Pred.rename_comp, Expr.rename_comp]
theorem Metric.rename_comp (d : Metric) : (d.rename ρ).rename σ = d.rename (σ ∘ ρ) := by
  simp [Metric.rename, Expr.rename_comp]
theorem Domain.rename_comp (d : Domain) : (d.rename ρ).rename σ = d.rename (σ ∘ ρ) := by
  simp [Domain.rename, Function.comp_def, Term.rename_comp, Pred.rename_comp, NFun.rename_comp, Derived.rename_comp,
    Action.rename_comp]
theorem Problem.rename_comp (p : Problem) : (p.rename ρ).rename σ = p.rename (σ ∘ ρ) := by
  simp [Problem.rename, Function.comp_def, Term.rename_comp, Expr.rename_comp, Domain.rename_comp, Metric.rename_comp]
theorem Plan.rename_comp (p : Plan) : (p.rename ρ).rename σ = p.rename (σ ∘ ρ) := by
  simp [Plan.rename, Function.comp_def, Term.rename_comp]

end

end Pddl
