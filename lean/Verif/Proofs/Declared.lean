/-
Constants and free variables of parsed formulas and of instances.
-/
import Verif.Spec.Declared
import Verif.Proofs.ActionText
import Verif.Proofs.GroundSem

namespace Pddl
open Spec

theorem mem_freeVarsAll {as : List Expr} {v : Var} : v ∈ freeVarsAll as ↔ ∃ a ∈ as, v ∈ freeVars a := by
  induction as with
  | nil => simp [freeVarsAll]
  | cons a as ih => simp [freeVarsAll, ih]

theorem freeVars_construct {c : Cls} {es : List Expr} {P : Var → Prop} (h : ∀ e ∈ es, ∀ v ∈ freeVars e, P v) :
    ∀ v ∈ freeVars (construct c es), P v := by
  have hop : ∀ as, (∀ v ∈ freeVars (Expr.ofCls c as), P v) ↔ ∀ a ∈ as, ∀ v ∈ freeVars a, P v := by
    intro as
    have : freeVars (Expr.ofCls c as) = freeVarsAll as := by cases c <;> rfl
    rw [this]
    constructor
    · intro h a ha v hv; exact h v (mem_freeVarsAll.2 ⟨a, ha, hv⟩)
    · intro h v hv
      obtain ⟨a, ha, hv⟩ := mem_freeVarsAll.1 hv
      exact h a ha v hv
  rcases construct_read (P := fun e => ∀ v ∈ freeVars e, P v) c (fun as => (hop as).1) h with h | ⟨as, h1, h2⟩
  · exact h.1
  · rw [h1]; exact (hop as).2 h2

/-- Free variables occur. -/
theorem free_occurs {e : Expr} : ∀ v ∈ freeVars e, v ∈ occurrences e := by
  have hl : ∀ as : List Expr, (∀ a ∈ as, ∀ v ∈ freeVars a, v ∈ occurrences a) → ∀ v ∈ freeVarsAll as,
      v ∈ (atomsAll as).flatMap (fun a => a.2.flatMap varOf) := by
    intro as ih v hv
    obtain ⟨a, ha, hv⟩ := mem_freeVarsAll.1 hv
    obtain ⟨x, hx, hv⟩ := List.mem_flatMap.1 (ih a ha v hv)
    exact List.mem_flatMap.2 ⟨x, mem_atomsAll.2 ⟨a, ha, hx⟩, hv⟩
  induction e using Expr.ind with
  | hpred p => intro v hv; simpa [occurrences, atoms, freeVars] using hv
  | heq l r => intro v hv; simpa [occurrences, atoms, freeVars] using hv
  | hnfun f => intro v hv; simpa [occurrences, atoms, freeVars] using hv
  | hnum n => intro v hv; cases hv
  | hbfun o as ih => exact hl as ih
  | hbin o as ih => exact hl as ih
  | hnot a ih => exact ih
  | hquant q vs c ih => exact fun v hv => ih v (List.mem_filter.1 hv).1
  | hwhen c e ih1 ih2 =>
    intro v hv
    unfold occurrences
    rw [atoms, List.flatMap_append, List.mem_append]
    exact (List.mem_append.1 hv).imp (ih1 v) (ih2 v)
  | hfall vs e ih => exact fun v hv => ih v (List.mem_filter.1 hv).1

theorem varOf_subst {m : Mapping} (hm : ToConstants m) {t : Term} {v : Var} (h : v ∈ varOf (substTerm m t)) :
    v ∈ varOf t ∧ m.get (.var v) = none := by
  cases t with
  | const n tag => simp [substTerm, varOf] at h
  | var u =>
    have e : substTerm m (.var u) = (m.get (.var u)).getD (.var u) := rfl
    rw [e] at h
    cases hg : m.get (.var u) with
    | none =>
      rw [hg] at h
      simp only [Option.getD_none, varOf, List.mem_singleton] at h
      subst h
      exact ⟨by simp [varOf], hg⟩
    | some t =>
      rw [hg] at h
      obtain ⟨n, tag, rfl⟩ := get_const hm hg
      simp [varOf] at h

/-- The free variables of an instance are those of the formula that are not mapped. -/
theorem inst_free {m : Mapping} (hm : ToConstants m) {f g : Expr} (h : f.inst m = .ok g) :
    ∀ v ∈ freeVars g, v ∈ freeVars f ∧ m.get (.var v) = none := by
  have ht : ∀ ts : List Term, ∀ v ∈ (ts.map (substTerm m)).flatMap varOf,
      v ∈ ts.flatMap varOf ∧ m.get (.var v) = none := by
    intro ts v hv
    obtain ⟨t', ht', hv⟩ := List.mem_flatMap.1 hv
    obtain ⟨t, ht, rfl⟩ := List.mem_map.1 ht'
    obtain ⟨h1, h2⟩ := varOf_subst hm hv
    exact ⟨List.mem_flatMap.2 ⟨t, ht, h1⟩, h2⟩
  induction f using Expr.ind generalizing g with
  | hpred p => obtain ⟨_, _, rfl⟩ := inst_pred_ok.mp h; exact ht p.terms
  | heq l r =>
    obtain ⟨_, rfl⟩ := inst_eq_ok.mp h
    intro v hv
    have := ht [l, r] v (by simpa [freeVars] using hv)
    simpa [freeVars] using this
  | hnfun f => obtain ⟨_, rfl⟩ := inst_nfun_ok.mp h; exact ht f.terms
  | hnum n => have := inst_num_ok.mp h; subst this; intro v hv; cases hv
  | hbfun o as ih =>
    obtain ⟨bs, h2, rfl⟩ := inst_bfun_ok.mp h
    refine freeVars_construct (fun b hb v hv => ?_)
    obtain ⟨a, ha, e⟩ := forall2_mem h2 b hb
    obtain ⟨h1, h2⟩ := ih a ha e v hv
    exact ⟨mem_freeVarsAll.2 ⟨a, ha, h1⟩, h2⟩
  | hbin o as ih =>
    obtain ⟨bs, h2, rfl⟩ := inst_bin_ok.mp h
    refine freeVars_construct (fun b hb v hv => ?_)
    obtain ⟨a, ha, e⟩ := forall2_mem h2 b hb
    obtain ⟨h1, h2⟩ := ih a ha e v hv
    exact ⟨mem_freeVarsAll.2 ⟨a, ha, h1⟩, h2⟩
  | hnot a ih =>
    obtain ⟨b, h1, rfl⟩ := inst_not_ok.mp h
    exact fun v hv => ih h1 v hv
  | hquant q vs c ih =>
    obtain ⟨b, h1, rfl⟩ := inst_quant_ok.mp h
    intro v hv
    obtain ⟨hv, hn⟩ := List.mem_filter.1 hv
    obtain ⟨h2, h3⟩ := ih h1 v hv
    refine ⟨List.mem_filter.2 ⟨h2, ?_⟩, h3⟩
    simp only [decide_eq_true_eq, List.mem_map, not_exists, not_and] at hn ⊢
    intro u hu e
    have := dedupBy_cover (eq := Var.pyEq) (fun a => Var.pyEq_iff.2 rfl) hu
    unfold memBy at this
    obtain ⟨w, hw, e'⟩ := List.any_eq_true.1 this
    refine hn w hw ?_
    simp only [Var.pyEq, Bool.and_eq_true, decide_eq_true_eq] at e'
    rw [← e]
    first | exact e'.1 | exact e'.1.symm
  | hwhen c e _ _ => rw [inst_when] at h; simp at h
  | hfall vs e _ => rw [inst_fall] at h; simp at h

/-- Setting the types of variables does not change the constants. -/
theorem update_consts {env : VarTypes} {f g : Expr} (h : f.updateTags env = .ok g) {n : Str} {tag : Option Str} :
    UsesConst n tag g → UsesConst n tag f := by
  have ht : ∀ {env : VarTypes} {ts us : List Term}, ts.mapM (Term.retag env) = .ok us → Term.const n tag ∈ us → Term.const n tag ∈ ts := by
    intro env ts us h hu
    obtain ⟨t, ht, e⟩ := forall2_mem (mapM_ok_iff.1 h) _ hu
    cases t with
    | const m tg => injection e with e; rw [← e]; exact ht
    | var v =>
      simp only [Term.retag] at e
      split at e
      · obtain ⟨v', _, e⟩ := bind_ok_iff.1 e
        injection e with e; cases e
      · injection e with e; cases e
  have hl : ∀ {env : VarTypes} (c : Cls) (as bs : List Expr), (∀ a ∈ as, ∀ b : Expr, a.updateTags env = .ok b →
      UsesConst n tag b → UsesConst n tag a) → List.Forall₂ (fun a b => a.updateTags env = .ok b) as bs →
      UsesConst n tag (construct c bs) → ∃ x ∈ atomsAll as, Term.const n tag ∈ x.2 := by
    rintro env c as bs ih h2 ⟨x, hx, hc⟩
    obtain ⟨b, hb, hx⟩ := mem_atomsAll.mp (atoms_construct_sub hx)
    obtain ⟨a, ha, e⟩ := forall2_mem h2 b hb
    obtain ⟨y, hy, hc⟩ := ih a ha b e ⟨x, hx, hc⟩
    exact ⟨y, mem_atomsAll.2 ⟨a, ha, hy⟩, hc⟩
  induction f using Expr.ind generalizing g env with
  | hpred p =>
    rw [Expr.updateTags, bind_ok_iff] at h
    obtain ⟨ts, h1, h⟩ := h
    obtain ⟨p', h2, h⟩ := bind_ok_iff.1 h
    injection h with h
    subst h
    obtain ⟨_, _, rfl⟩ := mkPred_ok.mp h2
    rintro ⟨x, hx, hc⟩
    rw [atoms, List.mem_singleton] at hx
    subst hx
    exact ⟨_, List.mem_singleton.2 rfl, ht h1 hc⟩
  | heq l r =>
    rw [Expr.updateTags, bind_ok_iff] at h
    obtain ⟨l', h1, h⟩ := h
    obtain ⟨r', h2, h⟩ := bind_ok_iff.1 h
    obtain ⟨_, rfl⟩ := mkEq_ok.1 h
    rintro ⟨x, hx, hc⟩
    rw [atoms, List.mem_singleton] at hx
    subst hx
    exact ⟨_, List.mem_singleton.2 rfl, ht (mapM_ok_iff.2 (.cons h1 (.cons h2 .nil))) hc⟩
  | hnfun f =>
    rw [Expr.updateTags, bind_ok_iff] at h
    obtain ⟨ts, h1, h⟩ := h
    obtain ⟨p', h2, h⟩ := bind_ok_iff.1 h
    injection h with h
    subst h
    obtain ⟨_, rfl⟩ := mkNFun_ok.mp h2
    rintro ⟨x, hx, hc⟩
    rw [atoms, List.mem_singleton] at hx
    subst hx
    exact ⟨_, List.mem_singleton.2 rfl, ht h1 hc⟩
  | hnum m => rintro ⟨x, hx, hc⟩; simp [Expr.updateTags] at h; subst h; cases hx
  | hbfun o as ih =>
    obtain ⟨bs, h2, rfl⟩ := update_bfun_ok.mp h
    exact hl _ as bs (fun a ha b => ih a ha) h2
  | hbin o as ih =>
    obtain ⟨bs, h2, rfl⟩ := update_bin_ok.mp h
    exact hl _ as bs (fun a ha b => ih a ha) h2
  | hnot a ih =>
    obtain ⟨b, h1, rfl⟩ := update_not_ok.mp h
    exact fun hc => ih h1 hc
  | hquant q vs c ih =>
    obtain ⟨b, h1, rfl⟩ := update_quant_ok.mp h
    exact fun hc => ih h1 hc
  | hwhen c e _ _ => rw [Expr.updateTags] at h; simp at h
  | hfall vs e _ => rw [Expr.updateTags] at h; simp at h

end Pddl
