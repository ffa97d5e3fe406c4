/-
The meaning of ground instances of parsed conditions and effects.
-/
import Verif.Spec.Ground
import Verif.Proofs.EffectSem
import Verif.Proofs.EffectRead
import Verif.Proofs.InstAtoms
import Verif.Proofs.InstSem
import Verif.Proofs.ActionText

namespace Pddl
open Spec

mutual
/-- No sums, products, quotients or numeric equations in the formula, and numbers only where they belong. -/
def Expr.Plain : Expr → Prop
  | .bfun o as => ((Cls.fop o).isMeta = false ∨ as.length ≤ 1) ∧ (∀ a ∈ as, Numeric a) ∧ Expr.Plains as
  | .bin _ as => Expr.Plains as
  | .not a => a.Plain
  | .quant _ _ c => c.Plain
  | .when c e => c.Plain ∧ e.Plain
  | .fall _ e => e.Plain
  | _ => True
def Expr.Plains : List Expr → Prop
  | [] => True
  | a :: as => a.Plain ∧ Expr.Plains as
end

theorem plains_iff {as : List Expr} : Expr.Plains as ↔ ∀ a ∈ as, a.Plain := by
  induction as with
  | nil => simp [Expr.Plains]
  | cons a as ih => simp [Expr.Plains, ih]

theorem Expr.Plain.sorted {e : Expr} : e.Plain → WellSorted e := by
  induction e using Expr.ind with
  | hbfun o as ih =>
    rintro ⟨_, h2, h3⟩
    exact ⟨h2, wellSorteds_iff.2 (fun a ha => ih a ha (plains_iff.1 h3 a ha))⟩
  | hbin o as ih => intro h; exact wellSorteds_iff.2 (fun a ha => ih a ha (plains_iff.1 h a ha))
  | hnot a ih => exact ih
  | hquant q vs c ih => exact ih
  | hwhen c e ih1 ih2 => exact fun h => ⟨ih1 h.1, ih2 h.2⟩
  | hfall vs e ih => exact ih
  | _ => intro _; trivial

theorem Expr.Plain.noCollision (m : Mapping) {e : Expr} : e.Plain → NoCollision m e := by
  induction e using Expr.ind with
  | hbfun o as ih =>
    rintro ⟨h1, _, h3⟩
    refine ⟨noCollisions_iff.2 (fun a ha => ih a ha (plains_iff.1 h3 a ha)), ?_⟩
    intro hm bs hbs
    rcases h1 with h1 | h1
    · rw [h1] at hm; cases hm
    · have := (insts_ok.1 hbs).length_eq
      rw [this] at h1
      match bs, h1 with
      | [], _ => exact .nil
      | [x], _ => exact .cons (by simp) .nil
  | hbin o as ih => intro h; exact noCollisions_iff.2 (fun a ha => ih a ha (plains_iff.1 h a ha))
  | hnot a ih => exact ih
  | hquant q vs c ih => exact ih
  | hwhen c e ih1 ih2 => exact fun h => ⟨ih1 h.1, ih2 h.2⟩
  | hfall vs e ih => exact ih
  | _ => intro _; trivial

theorem plain_bop {o : BOp} {es : List Expr} (h : ∀ e ∈ es, e.Plain) : (construct (.bop o) es).Plain := by
  rcases construct_read (P := Expr.Plain) (.bop o) (fun as => plains_iff.1) h with h | ⟨as, h1, h2⟩
  · exact h.1
  · rw [h1]; exact plains_iff.2 h2

theorem Spec.NoArithmetic.part {s t : Tree} (h : NoArithmetic t) (hi : Inside s t) : NoArithmetic s where
  plus a hs := h.plus a (hs.trans hi)
  times a hs := h.times a (hs.trans hi)
  divide a hs := h.divide a (hs.trans hi)
  eq a hs := h.eq a (hs.trans hi)

variable {E : GEnv}

theorem FRel.noMerge {t : Tree} {e : Expr} (h : FRel E t e) (hn : NoArithmetic t) : Numeric e ∧ e.Plain := by
  induction h with
  | num _ => exact ⟨trivial, trivial⟩
  | @plus args _ _ _ _ _ => exact absurd .refl (hn.plus args)
  | @times args _ _ _ _ _ => exact absurd .refl (hn.times args)
  | @divide a b _ _ _ _ _ _ => exact absurd .refl (hn.divide [a, b])
  | @minus a e _ ih =>
    have e1 : construct (.fop .minus) [e] = .bfun .minus [e] := by
      simp [construct, Cls.isMeta, simplOperands, Cls.idempotent, Expr.ofCls]
    have := ih (hn.part (.node (by simp) .refl))
    rw [e1]
    refine ⟨trivial, .inr (by simp), ?_, plains_iff.2 ?_⟩
    · intro x hx; rw [List.mem_singleton.1 hx]; exact this.1
    · intro x hx; rw [List.mem_singleton.1 hx]; exact this.2
  | fn0 _ => exact ⟨trivial, trivial⟩
  | fn _ _ => exact ⟨trivial, trivial⟩

theorem plain_fop {o : FOp} {a b : Expr} (ho : (Cls.fop o).isMeta = false) (ha : Numeric a ∧ a.Plain) (hb : Numeric b ∧ b.Plain) :
    construct (.fop o) [a, b] = .bfun o [a, b] ∧ (construct (.fop o) [a, b]).Plain := by
  have e1 : construct (.fop o) [a, b] = .bfun o [a, b] := by simp [construct, ho, Expr.ofCls]
  refine ⟨e1, ?_⟩
  rw [e1]
  refine ⟨.inl ho, ?_, plains_iff.2 ?_⟩
  · intro x hx
    simp only [List.mem_cons, List.not_mem_nil, or_false] at hx
    rcases hx with rfl | rfl
    · exact ha.1
    · exact hb.1
  · intro x hx
    simp only [List.mem_cons, List.not_mem_nil, or_false] at hx
    rcases hx with rfl | rfl
    · exact ha.2
    · exact hb.2

theorem GRel.noMerge {t : Tree} {e : Expr} (h : GRel E t e) (hn : NoArithmetic t) : e.Plain := by
  induction h with
  | and hl _ ih =>
    refine plain_bop (fun e he => ?_)
    obtain ⟨a, ha⟩ := zip_right hl he
    exact ih (a, e) ha (hn.part (.node (List.mem_cons_of_mem _ (List.of_mem_zip ha).1) .refl))
  | or hl _ _ ih =>
    refine plain_bop (fun e he => ?_)
    obtain ⟨a, ha⟩ := zip_right hl he
    exact ih (a, e) ha (hn.part (.node (List.mem_cons_of_mem _ (List.of_mem_zip ha).1) .refl))
  | not _ ih => exact ih (hn.part (.node (by simp) .refl))
  | imply _ _ _ ih1 ih2 =>
    refine plain_bop (fun e he => ?_)
    simp only [List.mem_cons, List.not_mem_nil, or_false] at he
    rcases he with rfl | rfl
    · exact ih1 (hn.part (.node (by simp) .refl))
    · exact ih2 (hn.part (.node (by simp) .refl))
  | quant _ _ _ _ _ ih => exact ih (hn.part (.node (by simp) .refl))
  | atom _ _ _ => trivial
  | eq _ _ _ h =>
    obtain ⟨_, rfl⟩ := mkEq_ok.1 h
    trivial
  | @comp t op a b e e' h1 h2 h3 h4 =>
    have ha := (fExp_rel h3).noMerge (hn.part (.node (by simp) .refl))
    have hb := (fExp_rel h4).noMerge (hn.part (.node (by simp) .refl))
    by_cases ht : t = .eq
    · subst ht
      have := hn.eq [a, b] .refl
      have h2 := h2 rfl
      exfalso
      revert this h2
      cases a with
      | node _ => simp [termsOnly]
      | atom x => cases x <;> simp [termsOnly, startsWithTerm]
    · refine (plain_fop ?_ ha hb).2
      cases t <;> simp [compOp] at h1 ht <;> subst h1 <;> rfl

/-! ### Effects -/

mutual
/-- The shape of parsed effects without `oneof` (and with or without conditional and universal effects). -/
def Expr.EffShape : Expr → Prop
  | .pred _ => True
  | .eq _ _ => True
  | .not (.pred _) => True
  | .not (.eq _ _) => True
  | .bfun _ _ => True
  | .bin .and as => Expr.EffShapes as
  | .bin .or as => as = []
  | .when _ _ => True
  | .fall _ _ => True
  | _ => False
def Expr.EffShapes : List Expr → Prop
  | [] => True
  | a :: as => a.EffShape ∧ Expr.EffShapes as
end

theorem effShapes_iff {as : List Expr} : Expr.EffShapes as ↔ ∀ a ∈ as, a.EffShape := by
  induction as with
  | nil => simp [Expr.EffShapes]
  | cons a as ih => simp [Expr.EffShapes, ih]

theorem effShape_and {es : List Expr} (h : ∀ e ∈ es, e.EffShape) : (mkAnd es).EffShape := by
  rcases construct_read (P := Expr.EffShape) (.bop .and) (fun as => effShapes_iff.1) h with h | ⟨as, h1, h2⟩
  · exact h.1
  · rw [mkAnd, h1]; exact effShapes_iff.2 h2

theorem atomic_shape {a : List Tree} {e : Expr} (h : E.atomic a = .ok e) : (∃ p, e = .pred p) ∨ ∃ l r, e = .eq l r := by
  match a, h with
  | .atom (.name n) :: args, h =>
    obtain ⟨ts, p, _, _, rfl⟩ := atomic_name_ok.1 h
    exact .inl ⟨p, rfl⟩
  | .atom .eq :: args, h =>
    obtain ⟨l, r, _, _, h⟩ := atomic_eq_ok.1 h
    obtain ⟨_, rfl⟩ := mkEq_ok.1 h
    exact .inr ⟨l, r, rfl⟩

theorem assignOp_plain {w : Str} {op : FOp} (h : assignOp w = some op) : (Cls.fop op).isMeta = false := by
  unfold assignOp at h
  repeat' split at h
  all_goals first | (injection h with h; subst h; rfl) | cases h

theorem PRel.effShape {t : Tree} {e : Expr} (h : PRel E t e) (hn : NoArithmetic t) : e.EffShape ∧ e.Plain := by
  cases h with
  | not h => rcases atomic_shape h with ⟨p, rfl⟩ | ⟨l, r, rfl⟩ <;> exact ⟨trivial, trivial⟩
  | @assign w op h x f e h1 h2 h3 =>
    have := plain_fop (assignOp_plain h1) (a := .nfun f) ⟨trivial, trivial⟩
      ((fExp_rel h3).noMerge (hn.part (.node (by simp) .refl)))
    refine ⟨?_, this.2⟩
    rw [this.1]
    trivial
  | atom _ _ h => rcases atomic_shape h with ⟨p, rfl⟩ | ⟨l, r, rfl⟩ <;> exact ⟨trivial, trivial⟩
  | eq h => rcases atomic_shape h with ⟨p, rfl⟩ | ⟨l, r, rfl⟩ <;> exact ⟨trivial, trivial⟩

theorem CRel.noMerge {t : Tree} {e : Expr} (h : CRel E t e) (hn : NoArithmetic t) : e.Plain := by
  cases h with
  | and h =>
    refine plain_bop (fun e he => ?_)
    obtain ⟨a, ha, hp⟩ := h.mem_right he
    exact (hp.effShape (hn.part (.node (List.mem_cons_of_mem _ ha) .refl))).2
  | one _ h => exact (h.effShape hn).2

theorem ERel.effShape {top : Bool} {t : Tree} {e : Expr} (h : ERel E top t e) (ho : NoOneof t) (hn : NoArithmetic t) :
    e.EffShape ∧ e.Plain := by
  induction h with
  | @and args es hl _ ih =>
    have : ∀ e ∈ es, Expr.EffShape e ∧ Expr.Plain e := fun e he => by
      obtain ⟨a, ha⟩ := zip_right hl he
      have hi := Inside.node (List.mem_cons_of_mem (.atom (.name s%"and")) (List.of_mem_zip ha).1) .refl
      exact ih (a, e) ha (fun args h => ho args (h.trans hi)) (hn.part hi)
    exact ⟨effShape_and (fun e he => (this e he).1), plain_bop (fun e he => (this e he).2)⟩
  | fall _ _ _ _ ih =>
    have hi : ∀ {a b c : Tree}, Inside c (.node [a, b, c]) := .node (by simp) .refl
    exact ⟨trivial, (ih (fun args h => ho args (h.trans hi)) (hn.part hi)).2⟩
  | when h1 h2 =>
    exact ⟨trivial, (gd_rel h1).noMerge (hn.part (.node (by simp) .refl)),
      (condEffect_iff.1 h2).noMerge (hn.part (.node (by simp) .refl))⟩
  | @oneof _ args _ _ _ _ _ _ => exact absurd .refl (ho args)
  | lit _ h => exact (pEffect_iff.1 h).effShape hn

/-- Instances of effects make the changes with the mapped variables replaced. -/
theorem inst_makes {m : Mapping} {D : Type} {I : Interp D} {c : Change D} {a b : Expr} (hsh : a.EffShape) (hp : a.Plain)
    (hg : a.Good) (h : a.inst m = .ok b) (hs : Safe m a []) {ρ ρ' : Str → D} (ha : AgreeB I m [] ρ ρ') :
    makes I c b ρ ↔ makes I c a ρ' := by
  induction a using Expr.ind generalizing b with
  | hpred p =>
    obtain ⟨_, _, rfl⟩ := inst_pred_ok.mp h
    simp only [makes, denote_substs ha hs]
  | heq l r =>
    obtain ⟨_, rfl⟩ := inst_eq_ok.mp h
    simp [makes]
  | hnfun f => exact hsh.elim
  | hnum n => exact hsh.elim
  | hbfun o as ih =>
    obtain ⟨bs, h2, rfl⟩ := inst_bfun_ok.mp h
    rw [construct_fop_inst hg.1 hp.2.1 h2 (fun hm => ((Expr.Plain.noCollision m hp).2 hm bs (insts_ok.mpr h2)))]
    simp only [makes]
    have hs' := safeAll_iff.mp hs
    have hp' := plains_iff.1 hp.2.2
    have hg' := goods_iff.mp hg.2
    have hn := hp.2.1
    match as, bs, h2 with
    | [], _, .nil => simp [updated]
    | [x], [y], .cons h1 .nil => simp [updated]
    | [x, z], [y, w], .cons h1 (.cons h3 .nil) =>
      have hv := inst_value ha (hn z (by simp)) (hs' z (by simp)) (Expr.Plain.noCollision m (hp' z (by simp)))
        (hp' z (by simp)).sorted (hg' z (by simp)) h3
      cases x with
      | nfun f =>
        obtain ⟨_, rfl⟩ := inst_nfun_ok.mp h1
        simp only [updated, hv, denote_substs ha (hs' (.nfun f) (by simp))]
      | num n => have := inst_num_ok.mp h1; subst this; simp [updated]
      | bfun o' as' =>
        obtain ⟨bs', h2', rfl⟩ := inst_bfun_ok.mp h1
        have hpx := hp' (.bfun o' as') (by simp)
        rw [construct_fop_inst (hg' (.bfun o' as') (by simp)).1 hpx.2.1 h2'
          (fun hm => ((Expr.Plain.noCollision m hpx).2 hm bs' (insts_ok.mpr h2')))]
        simp [updated]
      | _ => exact (hn _ List.mem_cons_self).elim
    | _ :: _ :: _ :: _, _ :: _ :: _ :: _, .cons _ (.cons _ (.cons _ _)) => simp [updated]
  | hbin o as ih =>
    obtain ⟨bs, h2, rfl⟩ := inst_bin_ok.mp h
    cases o with
    | and =>
      have hs' := safeAll_iff.mp hs
      have hp' := plains_iff.1 hp
      have hg' := goods_iff.mp hg.2
      have hsh' := effShapes_iff.1 hsh
      rw [show construct (.bop .and) bs = mkAnd bs from rfl, makes_mkAnd, makes, makesSome_iff]
      constructor
      · rintro ⟨b, hb, hm⟩
        obtain ⟨a, haa, e⟩ := forall2_mem h2 b hb
        exact ⟨a, haa, (ih a haa (hsh' a haa) (hp' a haa) (hg' a haa) e (hs' a haa)).1 hm⟩
      · rintro ⟨a, haa, hm⟩
        obtain ⟨b, hb, e⟩ := forall2_mem' h2 a haa
        exact ⟨b, hb, (ih a haa (hsh' a haa) (hp' a haa) (hg' a haa) e (hs' a haa)).2 hm⟩
    | or =>
      have e1 : as = [] := hsh
      subst e1
      cases h2
      have : construct (.bop .or) [] = .bin .or [] := by decide +kernel
      rw [this]
      simp [makes]
    | _ => exact hsh.elim
  | hnot a ih =>
    obtain ⟨b, h1, rfl⟩ := inst_not_ok.mp h
    cases a with
    | pred p =>
      obtain ⟨_, _, rfl⟩ := inst_pred_ok.mp h1
      have : ∀ t ∈ p.terms, SafeTerm m [] t := hs
      simp only [makes, deletes, denote_substs ha this]
    | eq l r =>
      obtain ⟨_, rfl⟩ := inst_eq_ok.mp h1
      simp [makes, deletes]
    | _ => exact hsh.elim
  | hquant q vs c ih => exact hsh.elim
  | hwhen c e _ _ => rw [inst_when] at h; simp at h
  | hfall vs e _ => rw [inst_fall] at h; simp at h

/-! ### Binders -/

theorem binders_bop {c : Cls} {es : List Expr} {P : Var → Prop} (h : ∀ e ∈ es, ∀ v ∈ binders e, P v) :
    ∀ v ∈ binders (construct c es), P v := by
  have hop : ∀ as, (∀ v ∈ binders (Expr.ofCls c as), P v) ↔ ∀ a ∈ as, ∀ v ∈ binders a, P v := by
    intro as
    have : binders (Expr.ofCls c as) = bindersAll as := by cases c <;> rfl
    rw [this]
    constructor
    · intro h a ha v hv; exact h v (mem_bindersAll.2 ⟨a, ha, hv⟩)
    · intro h v hv
      obtain ⟨a, ha, hv⟩ := mem_bindersAll.1 hv
      exact h a ha v hv
  rcases construct_read (P := fun e => ∀ v ∈ binders e, P v) c (fun as => (hop as).1) h with h | ⟨as, h1, h2⟩
  · exact h.1
  · rw [h1]; exact (hop as).2 h2

theorem FRel.noBinders {t : Tree} {e : Expr} (h : FRel E t e) : ∀ v ∈ binders e, False := by
  induction h with
  | num _ => simp [binders]
  | plus _ hl _ ih => exact binders_bop (fun e he => by obtain ⟨a, ha⟩ := zip_right hl he; exact ih (a, e) ha)
  | times _ hl _ ih => exact binders_bop (fun e he => by obtain ⟨a, ha⟩ := zip_right hl he; exact ih (a, e) ha)
  | divide _ _ ih1 ih2 =>
    refine binders_bop (fun e he => ?_)
    simp only [List.mem_cons, List.not_mem_nil, or_false] at he
    rcases he with rfl | rfl
    · exact ih1
    · exact ih2
  | minus _ ih => exact binders_bop (fun e he => by rw [List.mem_singleton.1 he]; exact ih)
  | fn0 _ => simp [binders]
  | fn _ _ => simp [binders]

/-- The variables bound in a parsed condition are written in a quantifier. -/
theorem GRel.binders_written {t : Tree} {e : Expr} (h : GRel E t e) (hE : ParserEnv E)
    (hw : ∀ w, Inside (.atom (.name w)) t → nameRegex w = true) : ∀ v ∈ binders e,
    ∃ w vs c l, (w = s%"forall" ∨ w = s%"exists") ∧ Inside (.node [.atom (.name w), .node vs, c]) t ∧ VarsText vs l ∧
      ∃ p ∈ l.vars, p.1 = v.name := by
  have lift : ∀ {s t : Tree} {v : Var}, Inside s t → (∃ w vs c l, (w = s%"forall" ∨ w = s%"exists") ∧
      Inside (.node [.atom (.name w), .node vs, c]) s ∧ VarsText vs l ∧ ∃ p ∈ l.vars, p.1 = v.name) →
      ∃ w vs c l, (w = s%"forall" ∨ w = s%"exists") ∧ Inside (.node [.atom (.name w), .node vs, c]) t ∧ VarsText vs l ∧
      ∃ p ∈ l.vars, p.1 = v.name := by
    rintro s t v hi ⟨w, vs, c, l, h1, h2, h3⟩
    exact ⟨w, vs, c, l, h1, h2.trans hi, h3⟩
  induction h with
  | and hl _ ih =>
    refine binders_bop (fun e he v hv => ?_)
    obtain ⟨a, ha⟩ := zip_right hl he
    have hi := Inside.node (List.mem_cons_of_mem (.atom (.name s%"and")) (List.of_mem_zip ha).1) .refl
    exact lift hi (ih (a, e) ha (fun w h => hw w (h.trans hi)) v hv)
  | or hl _ _ ih =>
    refine binders_bop (fun e he v hv => ?_)
    obtain ⟨a, ha⟩ := zip_right hl he
    have hi := Inside.node (List.mem_cons_of_mem (.atom (.name s%"or")) (List.of_mem_zip ha).1) .refl
    exact lift hi (ih (a, e) ha (fun w h => hw w (h.trans hi)) v hv)
  | @not a e _ ih =>
    have hi : Inside a (.node [.atom (.name s%"not"), a]) := .node (by simp) .refl
    exact fun v hv => lift hi (ih (fun w h => hw w (h.trans hi)) v hv)
  | @imply a b e e' _ _ _ ih1 ih2 =>
    have hi : Inside a (.node [.atom (.name s%"imply"), a, b]) := .node (by simp) .refl
    have hi' : Inside b (.node [.atom (.name s%"imply"), a, b]) := .node (by simp) .refl
    refine binders_bop (fun e he v hv => ?_)
    simp only [List.mem_cons, List.not_mem_nil, or_false] at he
    rcases he with rfl | rfl
    · exact lift hi (ih1 (fun w h => hw w (h.trans hi)) v hv)
    · exact lift hi' (ih2 (fun w h => hw w (h.trans hi')) v hv)
  | @quant q vs c e toks r vars h1 h2 _ hu h3 ih =>
    have hi : Inside c (.node [.atom (.name q.symbol), .node vs, c]) := .node (by simp) .refl
    have hvs : Inside (.node vs) (.node [.atom (.name q.symbol), .node vs, c]) := .node (by simp) .refl
    intro v hv
    simp only [mkQuant, binders, List.mem_append] at hv
    rcases hv with hv | hv
    · obtain ⟨l, hl, ht⟩ := typedVarToks_iff.1 h1
      have hty := hE.typedVars (by intro he; simp [GEnv.hasAny, he] at hu) _ _ h2
      subst ht
      obtain ⟨ok, hc, rfl⟩ := typedListVariable_ok hl (fun w hm => hw w ((Inside.node hm .refl).trans hvs)) hty
      have hv' : vars = builtVars l := by
        have hb := parseTypedVars_eq hl ok hc
        unfold parseTypedVars at hb
        rw [h1] at hb
        simp only [hty, ok_bind] at hb
        rw [h3] at hb
        injection hb
      rw [hv'] at hv
      obtain ⟨p, hp, rfl⟩ := List.mem_map.1 (dedupBy_subset hv)
      refine ⟨q.symbol, vs, c, l, ?_, .refl, hl, p, hp, rfl⟩
      cases q
      · exact .inl rfl
      · exact .inr rfl
    · exact lift hi (ih (fun w h => hw w (h.trans hi)) v hv)
  | atom _ _ _ => simp [binders]
  | eq _ _ _ h =>
    obtain ⟨_, rfl⟩ := mkEq_ok.1 h
    simp [binders]
  | @comp t op a b e e' h1 h2 h3 h4 =>
    refine binders_bop (fun e he v hv => ?_)
    simp only [List.mem_cons, List.not_mem_nil, or_false] at he
    rcases he with rfl | rfl
    · exact ((fExp_rel h3).noBinders v hv).elim
    · exact ((fExp_rel h4).noBinders v hv).elim

/-! ### The mapping from parameters to arguments -/

theorem safe_of {m : Mapping} {ns : List Str} (hkeys : ∀ n, MapsName m n → n ∈ ns)
    (hget : ∀ v : Var, v.name ∉ ns → m.get (.var v) = none) (e : Expr)
    (hocc : ∀ v ∈ occurrences e, v.name ∈ ns → m.get (.var v) ≠ none) (hb : ∀ v ∈ binders e, v.name ∉ ns)
    (B : List Str) (hB : ∀ n ∈ B, n ∉ ns) : Safe m e B := by
  have hterm : ∀ (x : Str) (ts : List Term) (B : List Str), (∀ n ∈ B, n ∉ ns) →
      (∀ v ∈ ts.flatMap varOf, v.name ∈ ns → m.get (.var v) ≠ none) → ∀ t ∈ ts, SafeTerm m B t := by
    intro _ ts B hB hocc t ht
    cases t with
    | const n tag => trivial
    | var v =>
      refine ⟨fun hv => hget v (hB _ hv), fun _ hm => hocc v ?_ (hkeys _ hm)⟩
      exact List.mem_flatMap.2 ⟨_, ht, by simp [varOf]⟩
  have hocc' : ∀ x ∈ atoms e, ∀ v ∈ x.2.flatMap varOf, v.name ∈ ns → m.get (.var v) ≠ none :=
    fun x hx v hv => hocc v (List.mem_flatMap.2 ⟨x, hx, hv⟩)
  clear hocc
  induction e using Expr.ind generalizing B with
  | hpred p => exact hterm p.name p.terms B hB (hocc' (p.name, p.terms) (by simp [atoms]))
  | heq l r =>
    have := hterm s%"" [l, r] B hB (hocc' _ (by simp [atoms]; rfl))
    exact ⟨this l (by simp), this r (by simp)⟩
  | hnfun f => exact hterm f.name f.terms B hB (hocc' (f.name, f.terms) (by simp [atoms]))
  | hnum n => trivial
  | hbfun o as ih =>
    exact safeAll_iff.2 (fun a ha => ih a ha (fun v hv => hb v (mem_bindersAll.2 ⟨a, ha, hv⟩)) B hB
      (fun x hx => hocc' x (mem_atomsAll.2 ⟨a, ha, hx⟩)))
  | hbin o as ih =>
    exact safeAll_iff.2 (fun a ha => ih a ha (fun v hv => hb v (mem_bindersAll.2 ⟨a, ha, hv⟩)) B hB
      (fun x hx => hocc' x (mem_atomsAll.2 ⟨a, ha, hx⟩)))
  | hnot a ih => exact ih hb B hB hocc'
  | hquant q vs c ih =>
    refine ih (fun v hv => hb v (List.mem_append_right _ hv)) _ ?_ hocc'
    intro n hn
    rcases List.mem_append.1 hn with hn | hn
    · exact hB n hn
    · obtain ⟨v, hv, rfl⟩ := List.mem_map.1 hn
      exact hb v (List.mem_append_left _ hv)
  | hwhen c e ih1 ih2 =>
    exact ⟨ih1 (fun v hv => hb v (List.mem_append_left _ hv)) B hB (fun x hx => hocc' x (List.mem_append_left _ hx)),
      ih2 (fun v hv => hb v (List.mem_append_right _ hv)) B hB (fun x hx => hocc' x (List.mem_append_right _ hx))⟩
  | hfall vs c ih =>
    refine ih (fun v hv => hb v (List.mem_append_right _ hv)) _ ?_ hocc'
    intro n hn
    rcases List.mem_append.1 hn with hn | hn
    · exact hB n hn
    · obtain ⟨v, hv, rfl⟩ := List.mem_map.1 hn
      exact hb v (List.mem_append_left _ hv)

theorem numeric_noBinders {e : Expr} : Numeric e → e.Plain → binders e = [] := by
  induction e using Expr.ind with
  | hbfun o as ih =>
    rintro _ ⟨_, h2, h3⟩
    rw [List.eq_nil_iff_forall_not_mem]
    intro v hv
    obtain ⟨a, ha, hv⟩ := mem_bindersAll.1 hv
    rw [ih a ha (h2 a ha) (plains_iff.1 h3 a ha)] at hv
    cases hv
  | hnfun _ => intros; rfl
  | hnum _ => intros; rfl
  | _ => intro h; exact h.elim

/-- An effect that can be instantiated binds no variables. -/
theorem effect_noBinders {m : Mapping} {a b : Expr} (hsh : a.EffShape) (hp : a.Plain) (h : a.inst m = .ok b) :
    binders a = [] := by
  induction a using Expr.ind generalizing b with
  | hbfun o as ih => exact numeric_noBinders (e := .bfun o as) trivial hp
  | hbin o as ih =>
    obtain ⟨bs, h2, rfl⟩ := inst_bin_ok.mp h
    cases o with
    | and =>
      rw [List.eq_nil_iff_forall_not_mem]
      intro v hv
      obtain ⟨a, ha, hv⟩ := mem_bindersAll.1 hv
      obtain ⟨b, _, e⟩ := forall2_mem' h2 a ha
      rw [ih a ha (effShapes_iff.1 hsh a ha) (plains_iff.1 hp a ha) e] at hv
      cases hv
    | or =>
      have e1 : as = [] := hsh
      subst e1
      rfl
    | _ => exact hsh.elim
  | hnot a ih =>
    cases a with
    | pred p => rfl
    | eq l r => rfl
    | _ => exact hsh.elim
  | hwhen c e _ _ => rw [inst_when] at h; simp at h
  | hfall vs e _ => rw [inst_fall] at h; simp at h
  | hquant q vs c ih => exact hsh.elim
  | _ => rfl

theorem ofZip_keys (ps args : List Term) : ∀ p ∈ Mapping.ofZip ps args, p.1 ∈ ps := by
  have : ∀ (l : List (Term × Term)) (m : Mapping), (∀ p ∈ m, p.1 ∈ ps) → (∀ p ∈ l, p.1 ∈ ps) →
      ∀ p ∈ l.foldl (fun m p => m.set p.1 p.2) m, p.1 ∈ ps := by
    intro l
    induction l with
    | nil => intro m hm _; exact hm
    | cons q l ih =>
      intro m hm hl
      rw [List.foldl_cons]
      refine ih _ ?_ (fun p hp => hl p (List.mem_cons_of_mem _ hp))
      intro p hp
      unfold Mapping.set at hp
      split at hp
      · obtain ⟨r, hr, rfl⟩ := List.mem_map.mp hp
        split
        · exact hm r hr
        · exact hm r hr
      · rcases List.mem_append.mp hp with hp | hp
        · exact hm p hp
        · rw [List.mem_singleton.1 hp]; exact hl q List.mem_cons_self
  exact this _ [] (by simp) (fun p hp => (List.of_mem_zip hp).1)

end Pddl
