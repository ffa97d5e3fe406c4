/- Instantiation and truth. -/
import Verif.Proofs.Inst

namespace Pddl
open Spec

variable {m : Mapping} {D : Type} {I : Interp D}

/-- `Updated` below the binders `B`. -/
structure AgreeB (I : Interp D) (m : Mapping) (B : List Str) (ρ ρ' : Str → D) : Prop where
  bound : ∀ n ∈ B, ρ' n = ρ n
  mapped : ∀ v t, v.name ∉ B → m.get (.var v) = some t → ρ' v.name = denote I ρ t
  other : ∀ n, n ∉ B → ¬ MapsName m n → ρ' n = ρ n

theorem get_const (hm : ToConstants m) {k t : Term} (h : m.get k = some t) : ∃ n tag, t = .const n tag := by
  unfold Mapping.get at h
  split at h
  · next p hp =>
    simp at h; subst h
    exact hm p (List.mem_of_find?_eq_some hp)
  · simp at h

theorem denote_subst {B : List Str} {ρ ρ' : Str → D} (h : AgreeB I m B ρ ρ') {t : Term}
    (hs : SafeTerm m B t) : denote I ρ (substTerm m t) = denote I ρ' t := by
  cases t with
  | const n tag => rfl
  | var v =>
    obtain ⟨h1, h2⟩ := hs
    by_cases hb : v.name ∈ B
    · simp [substTerm, h1 hb, denote, h.bound _ hb]
    · cases hg : m.get (.var v) with
      | some t => simp [substTerm, hg, denote, h.mapped v t hb hg]
      | none =>
        have : ¬ MapsName m v.name := fun hn => h2 hb hn hg
        simp [substTerm, hg, denote, h.other _ hb this]

theorem denote_substs {B : List Str} {ρ ρ' : Str → D} (h : AgreeB I m B ρ ρ') {ts : List Term}
    (hs : ∀ t ∈ ts, SafeTerm m B t) :
    (ts.map (substTerm m)).map (denote I ρ) = ts.map (denote I ρ') := by
  rw [List.map_map]
  exact List.map_congr_left (fun t ht => denote_subst h (hs t ht))

theorem safeAll_iff {as : List Expr} {B} : SafeAll m as B ↔ ∀ a ∈ as, Safe m a B := by
  induction as with
  | nil => simp [SafeAll]
  | cons a as ih => simp [SafeAll, ih]

theorem noCollisions_iff {as : List Expr} : NoCollisions m as ↔ ∀ a ∈ as, NoCollision m a := by
  induction as with
  | nil => simp [NoCollisions]
  | cons a as ih => simp [NoCollisions, ih]

theorem wellSorteds_iff {as : List Expr} : WellSorteds as ↔ ∀ a ∈ as, WellSorted a := by
  induction as with
  | nil => simp [WellSorteds]
  | cons a as ih => simp [WellSorteds, ih]

theorem forall2_mem {α β} {R : α → β → Prop} {as : List α} {bs : List β} (h : List.Forall₂ R as bs) :
    ∀ b ∈ bs, ∃ a ∈ as, R a b := by
  induction h with
  | nil => simp
  | cons h _ ih =>
    intro b hb
    rcases List.mem_cons.mp hb with rfl | hb
    · exact ⟨_, by simp, h⟩
    · obtain ⟨a, ha, e⟩ := ih b hb; exact ⟨a, List.mem_cons_of_mem _ ha, e⟩

theorem forall2_mem' {α β} {R : α → β → Prop} {as : List α} {bs : List β} (h : List.Forall₂ R as bs) :
    ∀ a ∈ as, ∃ b ∈ bs, R a b := by
  induction h with
  | nil => simp
  | cons h _ ih =>
    intro b hb
    rcases List.mem_cons.mp hb with rfl | hb
    · exact ⟨_, by simp, h⟩
    · obtain ⟨a, ha, e⟩ := ih b hb; exact ⟨a, List.mem_cons_of_mem _ ha, e⟩

/-- What instantiating an arithmetic node gives when the operands stay different. -/
theorem construct_fop_inst {o : FOp} {as bs : List Expr} (g : Stable (.fop o) as)
    (hn : ∀ a ∈ as, Numeric a) (h2 : List.Forall₂ (fun a b => a.inst m = .ok b) as bs)
    (hd : (Cls.fop o).isMeta = true → Distinct bs) : construct (.fop o) bs = .bfun o bs := by
  by_cases hm : (Cls.fop o).isMeta = true
  · have hl := h2.length_eq
    by_cases h1 : 2 ≤ as.length
    · have hc : Canonical (.fop o) as := by
        have hs := simplOperands_loop (c := .fop o) (args := as) (by simpa [Cls.idempotent] using h1)
        simp only [Cls.idempotent, Bool.false_eq_true, if_false] at hs
        have hcd := canonical_dedup (.fop o) as
        rw [← hs] at hcd
        unfold Stable construct at g
        simp only [hm, if_true, Cls.idempotent, Bool.false_eq_true, if_false] at g
        have e : simplOperands (.fop o) as = as := by
          revert g
          generalize simplOperands (.fop o) as = l
          match l with
          | [] => simp [Expr.ofCls]
          | [x] => simp [Expr.ofCls]
          | _ :: _ :: _ => simp [Expr.ofCls]
        rw [e] at hcd; exact hcd
      have hc' : Canonical (.fop o) bs := by
        refine ⟨fun b hb => ?_, ?_⟩
        · obtain ⟨a, ha, e⟩ := forall2_mem h2 b hb
          exact (inst_numeric e (hn a ha)).2 o (hc.flat a ha)
        · refine List.Pairwise.imp ?_ (hd hm)
          intro a b e
          cases e' : b.pyEq a with
          | false => rfl
          | true => rw [Expr.pyEq_symm e'] at e; simp at e
      exact hc'.stable (by simp [Cls.idempotent])
    · rw [hl] at h1
      match bs, h1 with
      | [], _ => simp [construct, hm, simplOperands, Expr.ofCls, Cls.idempotent]
      | [x], _ => simp [construct, hm, simplOperands, Expr.ofCls, Cls.idempotent]
      | _ :: _ :: _, h1 => simp at h1
  · simp [construct, hm, Expr.ofCls]

theorem inst_values_of {B : List Str} {ρ ρ' : Str → D} {as bs : List Expr}
    (ih : ∀ a ∈ as, ∀ b, Safe m a B → NoCollision m a → WellSorted a → a.Good → a.inst m = .ok b →
      value I ρ b = value I ρ' a)
    (hs : ∀ a ∈ as, Safe m a B) (hc : ∀ a ∈ as, NoCollision m a) (hw : ∀ a ∈ as, WellSorted a)
    (hg : ∀ a ∈ as, a.Good) (h2 : List.Forall₂ (fun a b => a.inst m = .ok b) as bs) :
    values I ρ bs = values I ρ' as := by
  induction h2 with
  | nil => rfl
  | cons h _ ihl =>
    rw [values, values, ih _ (by simp) _ (hs _ (by simp)) (hc _ (by simp)) (hw _ (by simp)) (hg _ (by simp)) h,
      ihl (fun a ha => ih a (List.mem_cons_of_mem _ ha)) (fun a ha => hs a (List.mem_cons_of_mem _ ha)) (fun a ha => hc a (List.mem_cons_of_mem _ ha))
        (fun a ha => hw a (List.mem_cons_of_mem _ ha)) (fun a ha => hg a (List.mem_cons_of_mem _ ha))]

theorem inst_value {B : List Str} {ρ ρ' : Str → D} (ha : AgreeB I m B ρ ρ') {a b : Expr}
    (hnum : Numeric a)
    (hs : Safe m a B) (hc : NoCollision m a) (hw : WellSorted a) (hg : a.Good)
    (h : a.inst m = .ok b) : value I ρ b = value I ρ' a := by
  induction a using Expr.ind generalizing b with
  | hnfun f =>
    obtain ⟨_, rfl⟩ := inst_nfun_ok.mp h
    simp only [value, denote_substs ha hs]
  | hnum n => have := inst_num_ok.mp h; subst this; rfl
  | hbfun o as ih =>
    obtain ⟨bs, h2, rfl⟩ := inst_bfun_ok.mp h
    rw [construct_fop_inst hg.1 hw.1 h2 (fun hm => hc.2 hm bs (insts_ok.mpr h2))]
    have hn := hw.1
    simp only [value]
    rw [inst_values_of (B := B) (ρ' := ρ') (fun a ha b h1 h2 h3 h4 h5 => ih a ha (hn a ha) h1 h2 h3 h4 h5)
      (safeAll_iff.mp hs) (noCollisions_iff.mp hc.1) (wellSorteds_iff.mp hw.2) (goods_iff.mp hg.2) h2]
  | _ => exact absurd hnum (by simp [Numeric])

theorem dedupVars_rebind {vs : List Var} {ρ σ : Str → D} :
    Rebind I (dedupBy Var.pyEq vs) ρ σ ↔ Rebind I vs ρ σ := by
  apply rebind_congr
  have : varsEq (dedupBy Var.pyEq vs) vs = true := by
    rw [varsEq_iff]
    ext x
    simp only [varsNorm, List.mem_toFinset, List.mem_map]
    constructor
    · rintro ⟨v, hv, rfl⟩; exact ⟨v, dedupBy_subset hv, rfl⟩
    · rintro ⟨v, hv, rfl⟩
      obtain ⟨w, hw, e⟩ := memBy_iff.mp (dedupBy_cover (eq := Var.pyEq) (fun a => Var.pyEq_iff.mpr rfl) hv)
      exact ⟨w, hw, (Var.pyEq_iff.mp e).symm⟩
  exact varsEq_iff.mp this

theorem inst_holds (hm : ToConstants m) {a b : Expr} (hw : WellSorted a) (hg : a.Good)
    (hc : NoCollision m a) (h : a.inst m = .ok b) {B : List Str} (hs : Safe m a B) {ρ ρ' : Str → D}
    (ha : AgreeB I m B ρ ρ') : holds I b ρ ↔ holds I a ρ' := by
  induction a using Expr.ind generalizing b B ρ ρ' with
  | hpred p =>
    obtain ⟨_, _, rfl⟩ := inst_pred_ok.mp h
    simp only [holds, denote_substs ha hs]
  | heq l r =>
    obtain ⟨_, rfl⟩ := inst_eq_ok.mp h
    simp only [holds, denote_subst ha hs.1, denote_subst ha hs.2]
  | hnfun f => obtain ⟨_, rfl⟩ := inst_nfun_ok.mp h; simp [holds]
  | hnum n => have := inst_num_ok.mp h; subst this; simp [holds]
  | hbfun o as ih =>
    obtain ⟨bs, h2, rfl⟩ := inst_bfun_ok.mp h
    rw [construct_fop_inst hg.1 hw.1 h2 (fun hm => hc.2 hm bs (insts_ok.mpr h2))]
    have hn := hw.1
    simp only [holds]
    rw [inst_values_of (B := B) (ρ' := ρ')
      (fun a haa b h1 h2 h3 h4 h5 => inst_value ha (hn a haa) h1 h2 h3 h4 h5)
      (safeAll_iff.mp hs) (noCollisions_iff.mp hc.1) (wellSorteds_iff.mp hw.2) (goods_iff.mp hg.2) h2]
  | hbin o as ih =>
    obtain ⟨bs, h2, rfl⟩ := inst_bin_ok.mp h
    have hs' := safeAll_iff.mp hs
    have hc' := noCollisions_iff.mp hc
    have hw' := wellSorteds_iff.mp hw
    have hg' := goods_iff.mp hg.2
    have key : List.Forall₂ (fun a b => holds I b ρ ↔ holds I a ρ') as bs := by
      clear hs hc hw hg h
      induction h2 with
      | nil => exact .nil
      | cons h _ ihl =>
        exact .cons
          (ih _ (by simp) (hw' _ (by simp)) (hg' _ (by simp)) (hc' _ (by simp)) h (hs' _ (by simp)) ha)
          (ihl (fun a haa => ih a (List.mem_cons_of_mem _ haa)) (fun a haa => hs' a (List.mem_cons_of_mem _ haa))
            (fun a haa => hc' a (List.mem_cons_of_mem _ haa)) (fun a haa => hw' a (List.mem_cons_of_mem _ haa))
            (fun a haa => hg' a (List.mem_cons_of_mem _ haa)))
    cases o with
    | and =>
      rw [show construct (.bop .and) bs = mkAnd bs from rfl, holds_mkAnd, holds, holdsAll_iff]
      constructor
      · intro h a ha'
        obtain ⟨b, hb, e⟩ := forall2_mem' key a ha'
        exact e.mp (h b hb)
      · intro h b hb
        obtain ⟨a, ha', e⟩ := forall2_mem key b hb
        exact e.mpr (h a ha')
    | or =>
      rw [show construct (.bop .or) bs = mkOr bs from rfl, holds_mkOr, holds, holdsSome_iff]
      constructor
      · rintro ⟨b, hb, h⟩
        obtain ⟨a, ha', e⟩ := forall2_mem key b hb
        exact ⟨a, ha', e.mp h⟩
      · rintro ⟨a, ha', h⟩
        obtain ⟨b, hb, e⟩ := forall2_mem' key a ha'
        exact ⟨b, hb, e.mpr h⟩
    | imply =>
      rw [show construct (.bop .imply) bs = .bin .imply bs from rfl, holds, holds]
      cases key with
      | nil => simp [holdsImply]
      | cons e key =>
        cases key with
        | nil => simp [holdsImply]
        | cons e' key =>
          cases key with
          | nil => simp [holdsImply, e, e']
          | cons _ _ => simp [holdsImply]
    | oneof =>
      rw [show construct (.bop .oneof) bs = .bin .oneof bs from rfl, holds, holds]
  | hnot a ih =>
    obtain ⟨b, h1, rfl⟩ := inst_not_ok.mp h
    simp only [holds]
    rw [ih hw hg hc h1 hs ha]
  | hquant q vs c ih =>
    obtain ⟨b, h1, rfl⟩ := inst_quant_ok.mp h
    have hcst : ∀ σ σ' : Str → D, ∀ k t, m.get k = some t → denote I σ t = denote I σ' t := by
      intro σ σ' k t hk
      obtain ⟨n, tag, rfl⟩ := get_const hm hk
      rfl
    have agree : ∀ σ σ' : Str → D, (∀ n, n ∈ vs.map Var.name → σ' n = σ n) →
        (∀ n, n ∉ vs.map Var.name → σ n = ρ n) → (∀ n, n ∉ vs.map Var.name → σ' n = ρ' n) →
        AgreeB I m (B ++ vs.map Var.name) σ σ' := by
      intro σ σ' h1 h2 h3
      refine ⟨?_, ?_, ?_⟩
      · intro n hn
        by_cases hv : n ∈ vs.map Var.name
        · exact h1 n hv
        · rw [h3 n hv, h2 n hv]
          exact ha.bound n ((List.mem_append.mp hn).resolve_right hv)
      · intro v t hv hg'
        rw [List.mem_append, not_or] at hv
        rw [h3 _ hv.2, ha.mapped v t hv.1 hg']
        exact hcst _ _ _ _ hg'
      · intro n hn hmn
        rw [List.mem_append, not_or] at hn
        rw [h3 _ hn.2, h2 _ hn.2, ha.other n hn.1 hmn]
    have toA : ∀ n, (∀ v ∈ vs, v.name ≠ n) ↔ n ∉ vs.map Var.name := by
      intro n; simp [List.mem_map]
    -- transfer of bindings
    have fwd : ∀ σ, Rebind I vs ρ σ → ∃ σ', Rebind I vs ρ' σ' ∧ AgreeB I m (B ++ vs.map Var.name) σ σ' := by
      intro σ hr
      classical
      refine ⟨fun n => if n ∈ vs.map Var.name then σ n else ρ' n, ⟨?_, ?_⟩, ?_⟩
      · intro n hn; simp only [if_neg ((toA n).mp hn)]
      · intro v hv
        have : v.name ∈ vs.map Var.name := List.mem_map_of_mem hv
        simp only [if_pos this]; exact hr.2 v hv
      · exact agree _ _ (fun n hn => by simp only [if_pos hn])
          (fun n hn => hr.1 n ((toA n).mpr hn)) (fun n hn => by simp only [if_neg hn])
    have bwd : ∀ σ', Rebind I vs ρ' σ' → ∃ σ, Rebind I vs ρ σ ∧ AgreeB I m (B ++ vs.map Var.name) σ σ' := by
      intro σ' hr
      classical
      refine ⟨fun n => if n ∈ vs.map Var.name then σ' n else ρ n, ⟨?_, ?_⟩, ?_⟩
      · intro n hn; simp only [if_neg ((toA n).mp hn)]
      · intro v hv
        have : v.name ∈ vs.map Var.name := List.mem_map_of_mem hv
        simp only [if_pos this]; exact hr.2 v hv
      · exact agree _ _ (fun n hn => by simp only [if_pos hn])
          (fun n hn => by simp only [if_neg hn]) (fun n hn => hr.1 n ((toA n).mpr hn))
    cases q with
    | all =>
      simp only [mkQuant, holds, dedupVars_rebind]
      constructor
      · intro h σ' hr
        obtain ⟨σ, hr', hag⟩ := bwd σ' hr
        exact (ih hw hg.2 hc h1 hs hag).mp (h σ hr')
      · intro h σ hr
        obtain ⟨σ', hr', hag⟩ := fwd σ hr
        exact (ih hw hg.2 hc h1 hs hag).mpr (h σ' hr')
    | ex =>
      simp only [mkQuant, holds, dedupVars_rebind]
      constructor
      · rintro ⟨σ, hr, h⟩
        obtain ⟨σ', hr', hag⟩ := fwd σ hr
        exact ⟨σ', hr', (ih hw hg.2 hc h1 hs hag).mp h⟩
      · rintro ⟨σ', hr, h⟩
        obtain ⟨σ, hr', hag⟩ := bwd σ' hr
        exact ⟨σ, hr', (ih hw hg.2 hc h1 hs hag).mpr h⟩
  | hwhen c e _ _ => rw [inst_when] at h; simp at h
  | hfall vs e _ => rw [inst_fall] at h; simp at h

end Pddl
