/-
What the instance of a condition says.
-/
import Verif.Spec.Instance
import Verif.Proofs.InstSem

namespace Pddl
open Spec
variable {D : Type} {I : Interp D} {m : Mapping}

theorem merges_meta (o : FOp) : merges o = (Cls.fop o).isMeta := by cases o <;> rfl

theorem holdsAllWith_iff {as : List Expr} {ρ : Str → D} : holdsAllWith I m as ρ ↔ ∀ a ∈ as, holdsWith I m a ρ := by
  induction as with
  | nil => simp [holdsAllWith]
  | cons a as ih => simp [holdsAllWith, ih]

theorem holdsSomeWith_iff {as : List Expr} {ρ : Str → D} : holdsSomeWith I m as ρ ↔ ∃ a ∈ as, holdsWith I m a ρ := by
  induction as with
  | nil => simp [holdsSomeWith]
  | cons a as ih => simp [holdsSomeWith, ih]

/-- What instantiating an arithmetic node gives. -/
theorem construct_fop_merged {o : FOp} {as bs : List Expr} (g : Stable (.fop o) as)
    (hn : ∀ a ∈ as, Numeric a) (h2 : List.Forall₂ (fun a b => a.inst m = .ok b) as bs) :
    construct (.fop o) bs = .bfun o (if merges o then dedupBy Expr.pyEq bs else bs) := by
  rw [merges_meta]
  by_cases hm : (Cls.fop o).isMeta = true
  · have hl := h2.length_eq
    rw [if_pos hm]
    by_cases h1 : 2 ≤ as.length
    · have hc : Canonical (.fop o) as := by
        have hs := simplOperands_loop (c := .fop o) (args := as) (by simpa [Cls.idempotent] using h1)
        simp only [Cls.idempotent, Bool.false_eq_true, if_false] at hs
        have hcd := canonical_dedup (.fop o) as
        rw [← hs] at hcd
        unfold Stable construct at g
        simp only [hm, if_true, Cls.idempotent, Bool.false_eq_true, if_false] at g
        have e : simplOperands (.fop o) as = as := by
          revert g
          generalize simplOperands (.fop o) as = l
          match l with
          | [] => simp [Expr.ofCls]
          | [x] => simp [Expr.ofCls]
          | _ :: _ :: _ => simp [Expr.ofCls]
        rw [e] at hcd; exact hcd
      have hf : ∀ b ∈ bs, b.operandsIf (.fop o) = none := by
        intro b hb
        obtain ⟨a, ha, e⟩ := forall2_mem h2 b hb
        exact (inst_numeric e (hn a ha)).2 o (hc.flat a ha)
      have hs := simplOperands_loop (c := .fop o) (args := bs) (by simpa [Cls.idempotent, ← hl] using h1)
      simp only [Cls.idempotent, Bool.false_eq_true, if_false, flattenEs_flat hf] at hs
      simp only [construct, hm, if_true, hs, Cls.idempotent, Bool.false_eq_true, if_false]
      match dedupBy Expr.pyEq bs with
      | [] => rfl
      | [x] => rfl
      | _ :: _ :: _ => rfl
    · rw [hl] at h1
      match bs, h1 with
      | [], _ => simp [construct, hm, simplOperands, Expr.ofCls, Cls.idempotent, dedupBy, dedupAux]
      | [x], _ => simp [construct, hm, simplOperands, Expr.ofCls, Cls.idempotent, dedupBy_length_one]
      | _ :: _ :: _, h1 => simp at h1
  · rw [if_neg hm]
    simp [construct, hm, Expr.ofCls]

theorem memBy_instances {x y : Expr} {seen done : List Expr} (hx : x.inst m = .ok y)
    (h : List.Forall₂ (fun a b => a.inst m = .ok b) seen done) : memBy Expr.pyEq y done = seen.any (sameInstance m x) := by
  unfold memBy
  induction h with
  | nil => rfl
  | cons h _ ih => simp only [List.any_cons, ih, sameInstance, hx, h]

theorem values_instances {ρ : Str → D} {once : Bool} {as bs seen done : List Expr}
    (ih : ∀ a ∈ as, ∀ b, a.inst m = .ok b → value I ρ b = valueWith I m ρ a)
    (h : List.Forall₂ (fun a b => a.inst m = .ok b) as bs) (hs : List.Forall₂ (fun a b => a.inst m = .ok b) seen done) :
    values I ρ (if once then dedupAux Expr.pyEq done bs else bs) = valuesWith I m ρ once seen as := by
  induction h generalizing seen done with
  | nil => cases once <;> simp [valuesWith, values, dedupAux]
  | @cons a b as bs h1 h2 ihl =>
    have ih' : ∀ a ∈ as, ∀ b, a.inst m = .ok b → value I ρ b = valueWith I m ρ a :=
      fun a ha => ih a (List.mem_cons_of_mem _ ha)
    have hs' : List.Forall₂ (fun a b => a.inst m = .ok b) (seen ++ [a]) (done ++ [b]) :=
      List.rel_append hs (.cons h1 .nil)
    cases once with
    | false =>
      have := ihl ih' hs'
      simp only [Bool.false_eq_true, if_false] at this
      simp only [Bool.false_eq_true, if_false, valuesWith, Bool.false_and, values, ih a (by simp) b h1, this]
    | true =>
      simp only [if_true, dedupAux, valuesWith, Bool.true_and, memBy_instances h1 hs]
      split
      · have := ihl ih' hs
        simpa using this
      · have := ihl ih' hs'
        simp only [if_true] at this
        simp only [values, ih a (by simp) b h1, this]

theorem value_instance {ρ : Str → D} {a b : Expr} (hnum : Numeric a) (hw : WellSorted a) (hg : a.Good)
    (h : a.inst m = .ok b) : value I ρ b = valueWith I m ρ a := by
  induction a using Expr.ind generalizing b with
  | hnfun f =>
    obtain ⟨_, rfl⟩ := inst_nfun_ok.mp h
    simp only [value, valueWith, List.map_map]
    rfl
  | hnum n => have := inst_num_ok.mp h; subst this; rfl
  | hbfun o as ih =>
    obtain ⟨bs, h2, rfl⟩ := inst_bfun_ok.mp h
    rw [construct_fop_merged hg.1 hw.1 h2]
    simp only [value, valueWith]
    rw [← values_instances (fun a ha b h => ih a ha (hw.1 a ha) (wellSorteds_iff.mp hw.2 a ha) (goods_iff.mp hg.2 a ha) h)
      h2 .nil]
    rfl
  | _ => exact absurd hnum (by simp [Numeric])

theorem holds_instance {a b : Expr} (hw : WellSorted a) (hg : a.Good) (h : a.inst m = .ok b) {ρ : Str → D} :
    holds I b ρ ↔ holdsWith I m a ρ := by
  induction a using Expr.ind generalizing b ρ with
  | hpred p =>
    obtain ⟨_, _, rfl⟩ := inst_pred_ok.mp h
    simp only [holds, holdsWith, List.map_map]
    rfl
  | heq l r =>
    obtain ⟨_, rfl⟩ := inst_eq_ok.mp h
    rfl
  | hnfun f => obtain ⟨_, rfl⟩ := inst_nfun_ok.mp h; simp [holds, holdsWith]
  | hnum n => have := inst_num_ok.mp h; subst this; simp [holds, holdsWith]
  | hbfun o as ih =>
    obtain ⟨bs, h2, rfl⟩ := inst_bfun_ok.mp h
    rw [construct_fop_merged hg.1 hw.1 h2]
    simp only [holds, holdsWith]
    rw [← values_instances (fun a ha b h => value_instance (hw.1 a ha) (wellSorteds_iff.mp hw.2 a ha)
      (goods_iff.mp hg.2 a ha) h) h2 .nil]
    rfl
  | hbin o as ih =>
    obtain ⟨bs, h2, rfl⟩ := inst_bin_ok.mp h
    have hw' := wellSorteds_iff.mp hw
    have hg' := goods_iff.mp hg.2
    have key : List.Forall₂ (fun a b => holds I b ρ ↔ holdsWith I m a ρ) as bs := by
      clear hw hg h
      induction h2 with
      | nil => exact .nil
      | cons h _ ihl =>
        exact .cons (ih _ (by simp) (hw' _ (by simp)) (hg' _ (by simp)) h)
          (ihl (fun a haa => ih a (List.mem_cons_of_mem _ haa)) (fun a haa => hw' a (List.mem_cons_of_mem _ haa))
            (fun a haa => hg' a (List.mem_cons_of_mem _ haa)))
    cases o with
    | and =>
      rw [show construct (.bop .and) bs = mkAnd bs from rfl, holds_mkAnd, holdsWith, holdsAllWith_iff]
      constructor
      · intro h a ha'
        obtain ⟨b, hb, e⟩ := forall2_mem' key a ha'
        exact e.mp (h b hb)
      · intro h b hb
        obtain ⟨a, ha', e⟩ := forall2_mem key b hb
        exact e.mpr (h a ha')
    | or =>
      rw [show construct (.bop .or) bs = mkOr bs from rfl, holds_mkOr, holdsWith, holdsSomeWith_iff]
      constructor
      · rintro ⟨b, hb, h⟩
        obtain ⟨a, ha', e⟩ := forall2_mem key b hb
        exact ⟨a, ha', e.mp h⟩
      · rintro ⟨a, ha', h⟩
        obtain ⟨b, hb, e⟩ := forall2_mem' key a ha'
        exact ⟨b, hb, e.mpr h⟩
    | imply =>
      rw [show construct (.bop .imply) bs = .bin .imply bs from rfl, holds, holdsWith]
      cases key with
      | nil => simp [holdsImply, holdsImplyWith]
      | cons e key =>
        cases key with
        | nil => simp [holdsImply, holdsImplyWith]
        | cons e' key =>
          cases key with
          | nil => simp [holdsImply, holdsImplyWith, e, e']
          | cons _ _ => simp [holdsImply, holdsImplyWith]
    | oneof =>
      rw [show construct (.bop .oneof) bs = .bin .oneof bs from rfl, holds, holdsWith]
  | hnot a ih =>
    obtain ⟨b, h1, rfl⟩ := inst_not_ok.mp h
    simp only [holds, holdsWith]
    rw [ih hw hg h1]
  | hquant q vs c ih =>
    obtain ⟨b, h1, rfl⟩ := inst_quant_ok.mp h
    cases q with
    | all =>
      simp only [mkQuant, holds, holdsWith, dedupVars_rebind]
      exact forall_congr' fun ρ' => imp_congr_right fun _ => ih hw hg.2 h1
    | ex =>
      simp only [mkQuant, holds, holdsWith, dedupVars_rebind]
      exact exists_congr fun ρ' => and_congr_right fun _ => ih hw hg.2 h1
  | hwhen c e _ _ => rw [inst_when] at h; simp at h
  | hfall vs e _ => rw [inst_fall] at h; simp at h

end Pddl
