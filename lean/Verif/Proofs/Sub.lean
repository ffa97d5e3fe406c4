/- Replacing terms everywhere, without the checks of the constructors. -/
import Verif.Proofs.InstComp
import Verif.Proofs.InstSem

namespace Pddl
open Spec

variable {m : Mapping}

mutual
/-- `instantiate` without the checks, and for all classes. -/
def Expr.sub (m : Mapping) : Expr → Expr
  | .pred p => .pred ⟨p.name, p.terms.map (substTerm m)⟩
  | .eq l r => .eq (substTerm m l) (substTerm m r)
  | .nfun f => .nfun ⟨f.name, f.terms.map (substTerm m)⟩
  | .num n => .num n
  | .bfun o as => construct (.fop o) (Expr.subs m as)
  | .bin o as => construct (.bop o) (Expr.subs m as)
  | .not a => .not (a.sub m)
  | .quant q vs c => mkQuant q (c.sub m) vs
  | .when c e => .when (c.sub m) (e.sub m)
  | .fall vs e => mkForall (e.sub m) vs
def Expr.subs (m : Mapping) : List Expr → List Expr
  | [] => []
  | a :: as => a.sub m :: Expr.subs m as
end

theorem subs_map (as : List Expr) : Expr.subs m as = as.map (Expr.sub m) := by
  induction as with
  | nil => rfl
  | cons a as ih => rw [Expr.subs, ih]; rfl

theorem sub_cls (c : Cls) (as : List Expr) : (Expr.ofCls c as).sub m = construct c (as.map (Expr.sub m)) := by
  cases c <;> rw [Expr.ofCls, Expr.sub, subs_map]

/-- Where `instantiate` returns, it returns that. -/
theorem inst_sub {a b : Expr} (h : a.inst m = .ok b) : b = a.sub m := by
  have hl : ∀ as bs : List Expr, (∀ a ∈ as, ∀ b, a.inst m = .ok b → b = a.sub m) →
      List.Forall₂ (fun a b => a.inst m = .ok b) as bs → bs = as.map (Expr.sub m) := by
    intro as bs ih h
    induction h with
    | nil => rfl
    | cons e _ ihl =>
      rw [List.map_cons, ih _ (by simp) _ e, ← ihl (fun a ha => ih a (List.mem_cons_of_mem _ ha))]
  induction a using Expr.ind generalizing b with
  | hpred p => obtain ⟨_, _, rfl⟩ := inst_pred_ok.mp h; rfl
  | heq l r => obtain ⟨_, rfl⟩ := inst_eq_ok.mp h; rfl
  | hnfun f => obtain ⟨_, rfl⟩ := inst_nfun_ok.mp h; rfl
  | hnum n => rw [inst_num_ok.mp h]; rfl
  | hbfun o as ih =>
    obtain ⟨bs, h1, rfl⟩ := inst_bfun_ok.mp h
    rw [Expr.sub, subs_map, hl as bs (fun a ha b => ih a ha) h1]
  | hbin o as ih =>
    obtain ⟨bs, h1, rfl⟩ := inst_bin_ok.mp h
    rw [Expr.sub, subs_map, hl as bs (fun a ha b => ih a ha) h1]
  | hnot a ih => obtain ⟨_, h1, rfl⟩ := inst_not_ok.mp h; rw [Expr.sub, ih h1]
  | hquant q vs c ih => obtain ⟨_, h1, rfl⟩ := inst_quant_ok.mp h; rw [Expr.sub, ih h1]
  | hwhen c e _ _ => rw [inst_when] at h; cases h
  | hfall vs e _ => rw [inst_fall] at h; cases h

/-- Equal formulas stay equal. -/
theorem sub_congr {a b : Expr} (h : a.norm = b.norm) : (a.sub m).norm = (b.sub m).norm := by
  have hl : ∀ as bs : List Expr, (∀ a ∈ as, ∀ b : Expr, a.norm = b.norm → (a.sub m).norm = (b.sub m).norm) →
      Expr.norms as = Expr.norms bs → Expr.norms (Expr.subs m as) = Expr.norms (Expr.subs m bs) := by
    intro as
    induction as with
    | nil =>
      intro bs _ h
      cases bs with
      | nil => rfl
      | cons => simp [Expr.norms] at h
    | cons a as ihl =>
      intro bs ih h
      cases bs with
      | nil => simp [Expr.norms] at h
      | cons b bs =>
        simp [Expr.norms] at h
        simp only [Expr.subs, Expr.norms]
        rw [ih a (by simp) b h.1, ihl bs (fun x hx => ih x (List.mem_cons_of_mem _ hx)) h.2]
  induction a using Expr.ind generalizing b with
  | hpred p =>
    cases b <;> simp [Expr.norm] at h
    simp only [Expr.sub, Expr.norm, h.1, substTerms_congr h.2]
  | heq l r =>
    cases b <;> simp [Expr.norm] at h
    simp only [Expr.sub, Expr.norm, substTerm_congr h.1, substTerm_congr h.2]
  | hnfun f =>
    cases b <;> simp [Expr.norm] at h
    simp only [Expr.sub, Expr.norm, h.1, substTerms_congr h.2]
  | hnum n =>
    cases b <;> simp [Expr.norm] at h
    simp [Expr.sub, Expr.norm, h]
  | hbfun o as ih =>
    cases b <;> simp [Expr.norm] at h
    obtain ⟨rfl, h⟩ := h
    rw [Expr.sub, Expr.sub]
    exact construct_congr (hl as _ (fun a ha b e => ih a ha e) h)
  | hbin o as ih =>
    cases b <;> simp [Expr.norm] at h
    obtain ⟨rfl, h⟩ := h
    rw [Expr.sub, Expr.sub]
    exact construct_congr (hl as _ (fun a ha b e => ih a ha e) h)
  | hnot a ih =>
    cases b <;> simp [Expr.norm] at h
    simp only [Expr.sub, Expr.norm, ih h]
  | hquant q vs c ih =>
    cases b <;> simp [Expr.norm] at h
    obtain ⟨rfl, hv, h⟩ := h
    simp only [Expr.sub, mkQuant, Expr.norm, varsNorm_dedup, ih h, hv]
  | hwhen c e ih1 ih2 =>
    cases b <;> simp [Expr.norm] at h
    simp only [Expr.sub, Expr.norm, ih1 h.1, ih2 h.2]
  | hfall vs e ih =>
    cases b <;> simp [Expr.norm] at h
    obtain ⟨hv, h⟩ := h
    simp only [Expr.sub, mkForall, Expr.norm, varsNorm_dedup, ih h, hv]

/-! ### Objects whose operands are simplified -/

mutual
/-- All operands are as the constructors leave them. -/
def Expr.Tidy : Expr → Prop
  | .bfun o as => Stable (.fop o) as ∧ Expr.Tidys as
  | .bin o as => Stable (.bop o) as ∧ Expr.Tidys as
  | .not a => a.Tidy
  | .quant _ _ c => c.Tidy
  | .when c e => c.Tidy ∧ e.Tidy
  | .fall _ e => e.Tidy
  | _ => True
def Expr.Tidys : List Expr → Prop
  | [] => True
  | a :: as => a.Tidy ∧ Expr.Tidys as
end

theorem tidys_iff {as : List Expr} : Expr.Tidys as ↔ ∀ a ∈ as, a.Tidy := by
  induction as with
  | nil => simp [Expr.Tidys]
  | cons a as ih => simp [Expr.Tidys, ih]

theorem tidy_ofCls {c : Cls} {as : List Expr} : (Expr.ofCls c as).Tidy ↔ Stable c as ∧ ∀ a ∈ as, a.Tidy := by
  cases c <;> simp [Expr.ofCls, Expr.Tidy, tidys_iff]

theorem tidy_operands {c : Cls} {e : Expr} {as} (h : e.operandsIf c = some as) (g : e.Tidy) : ∀ a ∈ as, a.Tidy := by
  rw [ofCls_operandsIf] at h; subst h; exact (tidy_ofCls.mp g).2

theorem tidy_construct {c : Cls} {args : List Expr} (h : ∀ a ∈ args, a.Tidy) : (construct c args).Tidy := by
  have hf : ∀ e ∈ flattenEs c args ++ args, e.Tidy := by
    intro e he
    rcases List.mem_append.mp he with he | he
    · exact flatten_closed (P := Expr.Tidy) c (fun _ _ h g => tidy_operands h g) args h e he
    · exact h e he
  rcases construct_cases c args with ⟨e, he, hmem, _⟩ | ⟨as, he, hst, hmem⟩
  · rw [he]; exact hf e hmem
  · rw [he, tidy_ofCls]; exact ⟨hst, fun e h => hf e (hmem e h)⟩

theorem Expr.Good.tidy {e : Expr} : e.Good → e.Tidy := by
  induction e using Expr.ind with
  | hbfun o as ih => exact fun h => ⟨h.1, tidys_iff.2 (fun a ha => ih a ha (goods_iff.1 h.2 a ha))⟩
  | hbin o as ih => exact fun h => ⟨h.1, tidys_iff.2 (fun a ha => ih a ha (goods_iff.1 h.2 a ha))⟩
  | hnot a ih => exact fun h => ih h
  | hquant q vs c ih => exact fun h => ih h.2
  | hwhen c e ih1 ih2 => exact fun h => ⟨ih1 h.1, ih2 h.2⟩
  | hfall vs e ih => exact fun h => ih h.2
  | _ => intros; trivial

theorem sub_tidy (e : Expr) : (e.sub m).Tidy := by
  induction e using Expr.ind with
  | hbfun o as ih =>
    rw [Expr.sub, subs_map]
    exact tidy_construct (by simpa using ih)
  | hbin o as ih =>
    rw [Expr.sub, subs_map]
    exact tidy_construct (by simpa using ih)
  | hnot a ih => exact ih
  | hquant q vs c ih => exact ih
  | hwhen c e ih1 ih2 => exact ⟨ih1, ih2⟩
  | hfall vs e ih => exact ih
  | _ => trivial

theorem construct_eq_node' {c : Cls} (hm : c.isMeta = true) (hi : c.idempotent = true) {l : List Expr}
    (hg : ∀ a ∈ l, a.Tidy) : construct c l = nodeOf c (content c l) := by
  by_cases h2 : 2 ≤ (dedupBy Expr.pyEq l).length
  · have hs := simplOperands_loop (c := c) (args := l) (by simpa [hi] using h2)
    simp only [hi, if_true] at hs
    rw [dedup_flatten_dedup] at hs
    simp only [construct, hm, if_true, hs, hi, content]
    generalize dedupBy Expr.pyEq (flattenEs c l) = k
    match k with
    | [] => rfl
    | [x] => rfl
    | _ :: _ :: _ => rfl
  · match hd : dedupBy Expr.pyEq l, h2 with
    | [], _ =>
      have : l = [] := by
        match l with
        | [] => rfl
        | x :: l => simp [dedupBy, dedupAux, memBy] at hd
      subst this
      simp [construct, hm, simplOperands, hi, content, nodeOf, flattenEs, dedupBy, dedupAux]
    | [x], _ =>
      have h1 : construct c l = x := by simp [construct, hm, simplOperands, hi, hd]
      have h3 : content c l = content c [x] := by
        rw [content, ← dedup_flatten_dedup, hd, content]
      have hx : x.Tidy := hg x (dedupBy_subset (eq := Expr.pyEq) (by rw [hd]; simp))
      rw [h1, h3]
      cases ho : x.operandsIf c with
      | none =>
        have : content c [x] = [x] := by
          simp [content, flattenEs, flattenE_none ho, dedupBy_length_one]
        rw [this]; rfl
      | some as =>
        have e := ofCls_operandsIf.mp ho
        subst e
        obtain ⟨hst, _⟩ := tidy_ofCls.mp hx
        obtain ⟨hc, hl1⟩ := Stable.canonical hm hi hst
        have : content c [Expr.ofCls c as] = as := by
          rw [content, flattenEs, flattenE_some ho]
          simp only [flattenEs, List.append_nil]
          exact content_canonical hc
        rw [this]
        match as, hl1 with
        | [], _ => rfl
        | [x], h => simp at h
        | _ :: _ :: _, _ => rfl
    | _ :: _ :: _, h => simp at h

theorem content_construct' {c : Cls} (hm : c.isMeta = true) {l : List Expr}
    (hg : ∀ a ∈ l, a.Tidy) : content c [construct c l] = content c l := by
  have hc := canonical_dedup c l
  change Canonical c (content c l) at hc
  have hnode : ∀ k : List Expr, content c [Expr.ofCls c k] = content c k := by
    intro k
    simp only [content, flattenEs, flattenE_some (operandsIf_ofCls c k), List.append_nil]
  cases hi : c.idempotent with
  | true =>
    rw [construct_eq_node' hm hi hg]
    generalize content c l = k at hc
    match k with
    | [] => simp [nodeOf, content, flattenEs, flattenE_some (operandsIf_ofCls c []), dedupBy, dedupAux]
    | [x] => exact content_canonical hc
    | x :: y :: r => rw [nodeOf, hnode, content_canonical hc]; simp
  | false =>
    by_cases h2 : 2 ≤ l.length
    · have hs := simplOperands_loop (c := c) (args := l) (by simpa [hi] using h2)
      simp only [hi, Bool.false_eq_true, if_false] at hs
      have : construct c l = Expr.ofCls c (content c l) := by
        simp only [construct, hm, if_true, hs, hi, Bool.false_eq_true, if_false, content]
        generalize dedupBy Expr.pyEq (flattenEs c l) = k
        match k with
        | [] => rfl
        | [x] => rfl
        | _ :: _ :: _ => rfl
      rw [this, hnode, content_canonical hc]
    · have : construct c l = Expr.ofCls c l := by
        match l, h2 with
        | [], _ => simp [construct, hm, simplOperands, hi]
        | [x], _ => simp [construct, hm, simplOperands, hi]
        | _ :: _ :: _, h => simp at h
      rw [this, hnode]

/-! ### Replacing in a constructed object -/

theorem sub_dedupAux {c : Cls} {sa l seen : List Expr}
    (hseen : ∀ a ∈ sa, ∀ x ∈ flattenE c (a.sub m), memBy Expr.pyEq x seen = true) :
    dedupAux Expr.pyEq seen (flattenEs c ((dedupAux Expr.pyEq sa l).map (Expr.sub m))) =
      dedupAux Expr.pyEq seen (flattenEs c (l.map (Expr.sub m))) := by
  induction l generalizing sa seen with
  | nil => rfl
  | cons x l ih =>
    rw [dedupAux]
    split
    · next hmem =>
      rw [ih hseen, List.map_cons, flattenEs, dedupAux_append]
      obtain ⟨y, hy, e⟩ := memBy_iff.mp hmem
      have hn := flattenE_congr (c := c) _ _ (sub_congr (m := m) ((Expr.pyEq_iff _ _).mp e))
      have : ∀ z ∈ flattenE c (x.sub m), memBy Expr.pyEq z seen = true := by
        intro z hz
        have : z.norm ∈ (flattenE c (y.sub m)).map Expr.norm := by
          rw [← hn]; exact List.mem_map_of_mem hz
        obtain ⟨w, hw, hwn⟩ := List.mem_map.mp this
        obtain ⟨s, hs, e'⟩ := memBy_iff.mp (hseen y hy w hw)
        exact memBy_iff.mpr ⟨s, hs, Expr.pyEq_trans ((Expr.pyEq_iff _ _).mpr hwn.symm) e'⟩
      rw [dedupAux_skip this]; simp
    · rw [List.map_cons, List.map_cons, flattenEs, flattenEs, dedupAux_append, dedupAux_append]
      congr 1
      refine ih ?_
      intro a ha z hz
      rw [memBy_append, Bool.or_eq_true]
      rcases List.mem_append.mp ha with ha | ha
      · exact Or.inl (hseen a ha z hz)
      · simp at ha; subst ha
        have := dedupAux_cover (eq := Expr.pyEq) Expr.pyEq_refl (seen := seen) hz
        rw [memBy_append, Bool.or_eq_true] at this
        exact this

theorem sub_dedup {c : Cls} (l : List Expr) :
    content c ((dedupBy Expr.pyEq l).map (Expr.sub m)) = content c (l.map (Expr.sub m)) :=
  sub_dedupAux (sa := []) (by simp)

theorem sub_flatten {c : Cls} (hm : c.isMeta = true) (l : List Expr) :
    content c ((flattenEs c l).map (Expr.sub m)) = content c (l.map (Expr.sub m)) := by
  have key : ∀ n, ∀ l : List Expr, Expr.sizes l = n →
      content c ((flattenEs c l).map (Expr.sub m)) = content c (l.map (Expr.sub m)) := by
    intro n
    induction n using Nat.strongRecOn with
    | _ n ih =>
      intro l hn
      cases l with
      | nil => rfl
      | cons e rest =>
        have hpos : 0 < e.size := by cases e <;> simp [Expr.size]
        simp only [Expr.sizes] at hn
        have hr := ih (Expr.sizes rest) (by omega) rest rfl
        have he : content c ((flattenE c e).map (Expr.sub m)) = content c [e.sub m] := by
          cases ho : e.operandsIf c with
          | none => rw [flattenE_none ho]; rfl
          | some bs =>
            rw [flattenE_some ho]
            have hs := Expr.size_operands ho
            have eo := ofCls_operandsIf.mp ho
            subst eo
            rw [ih (Expr.sizes bs) (by omega) bs rfl, sub_cls, content_construct' hm]
            simpa using fun a _ => sub_tidy a
        rw [flattenEs, List.map_append, List.map_cons, content_congr_append he hr]
        rfl
  exact key _ l rfl

theorem sub_content {c : Cls} (hm : c.isMeta = true) (l : List Expr) :
    content c ((content c l).map (Expr.sub m)) = content c (l.map (Expr.sub m)) := by
  rw [show content c l = dedupBy Expr.pyEq (flattenEs c l) from rfl, sub_dedup, sub_flatten hm]

theorem sub_construct_bop {o : BOp} {l : List Expr} (hg : ∀ a ∈ l, a.Tidy) :
    (construct (.bop o) l).sub m = construct (.bop o) (l.map (Expr.sub m)) := by
  by_cases hm : (Cls.bop o).isMeta = true
  · have hi : (Cls.bop o).idempotent = true := by cases o <;> first | rfl | cases hm
    have hg2 : ∀ b ∈ l.map (Expr.sub m), b.Tidy := by simpa using fun a _ => sub_tidy a
    have hg3 : ∀ b ∈ (content (.bop o) l).map (Expr.sub m), b.Tidy := by simpa using fun a _ => sub_tidy a
    rw [construct_eq_node' hm hi hg2, ← sub_content hm, ← construct_eq_node' hm hi hg3, construct_eq_node' hm hi hg]
    generalize content (.bop o) l = k
    match k with
    | [] => exact sub_cls (.bop o) []
    | [x] =>
      simp only [nodeOf, List.map_cons, List.map_nil, construct, hm, simplOperands, hi, dedupBy_length_one, if_true]
    | x :: y :: r => exact sub_cls (.bop o) (x :: y :: r)
  · have e : ∀ l, construct (.bop o) l = Expr.ofCls (.bop o) l := fun l => by simp [construct, hm]
    rw [e l, sub_cls]

/-- Replacing keeps the class of a numeric expression. -/
theorem sub_numeric {a : Expr} (hn : Numeric a) :
    Numeric (a.sub m) ∧ ∀ o, a.operandsIf (.fop o) = none → (a.sub m).operandsIf (.fop o) = none := by
  cases a with
  | bfun o' as =>
    rw [Expr.sub]
    rcases construct_cases (.fop o') (Expr.subs m as) with ⟨_, _, _, hi⟩ | ⟨as', he, _, _⟩
    · simp [Cls.idempotent] at hi
    · rw [he]
      refine ⟨trivial, fun o ho => ?_⟩
      have : o ≠ o' := by intro e; subst e; simp [Expr.operandsIf] at ho
      simp [Expr.ofCls, Expr.operandsIf, this]
  | nfun f => exact ⟨trivial, fun _ _ => rfl⟩
  | num n => exact ⟨trivial, fun _ _ => rfl⟩
  | _ => exact absurd hn (by simp [Numeric])

theorem construct_fop_two {o : FOp} (hm : (Cls.fop o).isMeta = true) {l : List Expr} (h2 : 2 ≤ l.length) :
    construct (.fop o) l = .bfun o (content (.fop o) l) := by
  have hs := simplOperands_loop (c := .fop o) (args := l) (by simpa [Cls.idempotent] using h2)
  simp only [Cls.idempotent, Bool.false_eq_true, if_false] at hs
  simp only [construct, hm, if_true, hs, Cls.idempotent, Bool.false_eq_true, if_false, content]
  generalize dedupBy Expr.pyEq (flattenEs _ l) = k
  match k with
  | [] => rfl
  | [x] => rfl
  | _ :: _ :: _ => rfl

theorem sub_construct_fop {o : FOp} {l : List Expr} (hg : ∀ a ∈ l, Numeric a ∧ WellSorted a) :
    (construct (.fop o) l).sub m = construct (.fop o) (l.map (Expr.sub m)) := by
  have hnum : ∀ a ∈ content (.fop o) l, Numeric a := by
    intro a ha
    refine (flatten_closed (P := fun a => Numeric a ∧ WellSorted a) (.fop o) ?_ l hg a (dedupBy_subset ha)).1
    intro e as he h b hb
    rw [ofCls_operandsIf] at he
    subst he
    exact ⟨h.2.1 b hb, wellSorteds_iff.1 h.2.2 b hb⟩
  by_cases hm : (Cls.fop o).isMeta = true
  · by_cases h2 : 2 ≤ l.length
    · rw [construct_fop_two hm h2, construct_fop_two hm (by simpa using h2), ← sub_content hm]
      have : (Expr.bfun o (content (.fop o) l)).sub m =
          construct (.fop o) ((content (.fop o) l).map (Expr.sub m)) := sub_cls (.fop o) _
      rw [this]
      have hc := canonical_dedup (.fop o) l
      change Canonical (.fop o) (content (.fop o) l) at hc
      have hflat : ∀ b ∈ (content (.fop o) l).map (Expr.sub m), b.operandsIf (.fop o) = none := by
        intro b hb
        obtain ⟨a, ha, rfl⟩ := List.mem_map.1 hb
        exact (sub_numeric (hnum a ha)).2 o (hc.flat a ha)
      rw [construct_fop_flat hm hflat]
      generalize (content (.fop o) l).map (Expr.sub m) = k at hflat
      rw [content, flattenEs_flat hflat]
    · match l, h2 with
      | [], _ => simp [construct, hm, simplOperands, Cls.idempotent, sub_cls]
      | [x], _ => simp [construct, hm, simplOperands, Cls.idempotent, sub_cls]
      | _ :: _ :: _, h => simp at h
  · have e : ∀ l, construct (.fop o) l = Expr.ofCls (.fop o) l := fun l => by simp [construct, hm]
    rw [e l, sub_cls]

end Pddl
