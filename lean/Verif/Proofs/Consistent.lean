/- `_check_terms_consistency`. -/
import Verif.Proofs.InstComp

namespace Pddl
open Spec

/-- Same name implies same type tags. -/
def Agree (a b : Term) : Prop := a.name = b.name → ∀ x, x ∈ a.tags ↔ x ∈ b.tags

theorem dictGet_append_single {β} (d : List (Str × β)) (k k' : Str) (v : β) :
    dictGet (d ++ [(k, v)]) k' = (dictGet d k').or (if k = k' then some v else none) := by
  have hb : (k' == k) = decide (k = k') := by
    rw [Bool.eq_iff_iff, beq_iff_eq, decide_eq_true_eq]; exact eq_comm
  induction d with
  | nil => by_cases h : k = k' <;> simp [dictGet, List.lookup, hb, h]
  | cons p d ih =>
    obtain ⟨a, b⟩ := p
    by_cases h : k' = a
    · simp [dictGet, List.lookup, h]
    · have h' : (k' == a) = false := by simpa using h
      simp only [dictGet, List.cons_append, List.lookup, h'] at ih ⊢
      exact ih

theorem termsConsistent_iff (seen : List (Str × List Str)) (ts : List Term) :
    termsConsistent seen ts = true ↔
      (∀ t ∈ ts, ∀ tags, dictGet seen t.name = some tags → ∀ x, x ∈ tags ↔ x ∈ t.tags) ∧
      ts.Pairwise Agree := by
  induction ts generalizing seen with
  | nil => simp [termsConsistent]
  | cons t ts ih =>
    rw [termsConsistent, List.pairwise_cons, List.forall_mem_cons]
    cases hg : dictGet seen t.name with
    | none =>
      simp only [ih, dictGet_append_single]
      constructor
      · rintro ⟨h1, h2⟩
        refine ⟨⟨by simp, ?_⟩, ?_, h2⟩
        · intro u hu tags e
          exact h1 u hu tags (by simp [e])
        · intro u hu e
          exact h1 u hu t.tags (by rw [← e, hg]; simp)
      · rintro ⟨⟨_, h1⟩, h3, h2⟩
        refine ⟨?_, h2⟩
        intro u hu tags e
        by_cases hn : t.name = u.name
        · rw [← hn, hg] at e; simp at e; subst e
          exact h3 u hu hn
        · simp [hn] at e
          exact h1 u hu tags e
    | some tags =>
      simp only [Bool.and_eq_true, ih, setEq_iff]
      constructor
      · rintro ⟨h0, h1, h2⟩
        refine ⟨⟨by simpa using h0, h1⟩, ?_, h2⟩
        intro u hu e x
        rw [← h0, h1 u hu tags (by rw [← e, hg]) x]
      · rintro ⟨⟨h0, h1⟩, _, h2⟩
        exact ⟨h0 tags rfl, h1, h2⟩

theorem termsConsistent_nil (ts : List Term) : termsConsistent [] ts = true ↔ ts.Pairwise Agree := by
  rw [termsConsistent_iff]; simp [dictGet]

/-- Every name has one set of types. -/
def Conforms (τ : Str → List Str) (t : Term) : Prop := ∀ x, x ∈ t.tags ↔ x ∈ τ t.name

theorem conforms_consistent {τ : Str → List Str} {ts : List Term} (h : ∀ t ∈ ts, Conforms τ t) :
    termsConsistent [] ts = true := by
  rw [termsConsistent_nil]
  apply List.Pairwise.imp_of_mem (R := fun _ _ => True)
  · intro a b ha hb _ e x
    rw [h a ha x, h b hb x, e]
  · exact List.pairwise_of_forall (fun _ _ => trivial)

theorem conforms_subst {m : Mapping} {τ : Str → List Str} (hm : ∀ p ∈ m, Conforms τ p.2) {t : Term}
    (h : Conforms τ t) : Conforms τ (substTerm m t) := by
  cases t with
  | const => exact h
  | var v =>
    simp only [substTerm]
    cases hg : m.get (.var v) with
    | none => exact h
    | some u =>
      unfold Mapping.get at hg
      split at hg
      · next p hp => simp at hg; subst hg; exact hm p (List.mem_of_find?_eq_some hp)
      · simp at hg

/-- With consistently typed names instantiation does not raise. -/
theorem inst_ok_of_conforms {m : Mapping} {τ : Str → List Str} (hm : ∀ p ∈ m, Conforms τ p.2) {f : Expr}
    (g : f.Good) (hn : NoEffect f) (hf : ∀ x ∈ atoms f, ∀ t ∈ x.2, Conforms τ t) :
    ∃ g, f.inst m = .ok g := by
  have hl : ∀ as : List Expr, (∀ a ∈ as, ∃ b, a.inst m = .ok b) →
      ∃ bs, List.Forall₂ (fun a b => a.inst m = .ok b) as bs := by
    intro as h
    induction as with
    | nil => exact ⟨[], .nil⟩
    | cons a as ih =>
      obtain ⟨b, hb⟩ := h a (by simp)
      obtain ⟨bs, hbs⟩ := ih (fun x hx => h x (List.mem_cons_of_mem _ hx))
      exact ⟨b :: bs, .cons hb hbs⟩
  induction f using Expr.ind with
  | hpred p =>
    refine ⟨_, inst_pred_ok.mpr ⟨g.1, conforms_consistent (τ := τ) ?_, rfl⟩⟩
    intro t ht
    obtain ⟨u, hu, rfl⟩ := List.mem_map.mp ht
    exact conforms_subst hm (hf (p.name, p.terms) (by simp [atoms]) u hu)
  | heq l r =>
    refine ⟨_, inst_eq_ok.mpr ⟨conforms_consistent (τ := τ) ?_, rfl⟩⟩
    have h1 := hf (s%"=", [l, r]) (by simp [atoms])
    intro t ht
    simp at ht
    rcases ht with rfl | rfl
    · exact conforms_subst hm (h1 l (by simp))
    · exact conforms_subst hm (h1 r (by simp))
  | hnfun f => exact ⟨_, inst_nfun_ok.mpr ⟨g, rfl⟩⟩
  | hnum n => exact ⟨_, inst_num_ok.mpr rfl⟩
  | hbfun o as ih =>
    obtain ⟨bs, h⟩ := hl as (fun a ha => ih a ha (goods_iff.mp g.2 a ha) (noEffects_iff.mp hn a ha)
      (fun x hx => hf x (by simp only [atoms]; exact mem_atomsAll.mpr ⟨a, ha, hx⟩)))
    exact ⟨_, inst_bfun_ok.mpr ⟨bs, h, rfl⟩⟩
  | hbin o as ih =>
    obtain ⟨bs, h⟩ := hl as (fun a ha => ih a ha (goods_iff.mp g.2 a ha) (noEffects_iff.mp hn a ha)
      (fun x hx => hf x (by simp only [atoms]; exact mem_atomsAll.mpr ⟨a, ha, hx⟩)))
    exact ⟨_, inst_bin_ok.mpr ⟨bs, h, rfl⟩⟩
  | hnot a ih =>
    obtain ⟨b, hb⟩ := ih g hn hf
    exact ⟨_, inst_not_ok.mpr ⟨b, hb, rfl⟩⟩
  | hquant q vs c ih =>
    obtain ⟨b, hb⟩ := ih g.2 hn hf
    exact ⟨_, inst_quant_ok.mpr ⟨b, hb, rfl⟩⟩
  | hwhen c e _ _ => exact absurd hn (by simp [NoEffect])
  | hfall vs e _ => exact absurd hn (by simp [NoEffect])

end Pddl
