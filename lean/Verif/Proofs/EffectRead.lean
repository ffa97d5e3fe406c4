/-
Effects that have been read can be written, up to the obstacles of conditions; what is read carries sets of types.
-/
import Verif.Proofs.Printable
import Verif.Proofs.Provenance
import Verif.Proofs.FormulaExact
import Verif.Proofs.Tags

namespace Pddl
open Spec

variable {E : GEnv}

/-! ### Effects -/

/-- Simple effects as they are read. -/
inductive ReadLit (E : GEnv) : Expr → Prop
  | atom {e} : PrintAtom E e → ReadLit E e
  | not {e} : PrintAtom E e → ReadLit E (.not e)
  | assign {o} {f : NFun} {x} : IsAssignment o → (∀ t ∈ f.terms, Known E t) → ReadNum E x →
      ReadLit E (.bfun o [.nfun f, x])

/-- Effects of `when` as they are read. -/
inductive ReadWhen (E : GEnv) : Expr → Prop
  | lit {e} : ReadLit E e → ReadWhen E e
  | and {as} : (∀ a ∈ as, ReadLit E a) → ReadWhen E (.bin .and as)

/-- Effects as they are read. -/
inductive ReadEff (E : GEnv) : Expr → Prop
  | lit {e} : ReadLit E e → ReadEff E e
  | and {as} : (∀ a ∈ as, ReadEff E a) → (∀ a ∈ as, ∀ bs, a ≠ .bin .and bs) → ReadEff E (.bin .and as)
  | when {c e} : ReadCond E c → ReadWhen E e → ReadEff E (.when c e)
  | fall {vs e} : ReadEff E e → ReadEff E (.fall vs e)
  | oneof {as} : as ≠ [] → (∀ a ∈ as, ReadEff E a) → Allows E [.nonDeterministic] → ReadEff E (.bin .oneof as)

theorem atomic_read (hE : TermScope E) {a : List Tree} {e : Expr} (h : E.atomic a = .ok e) : PrintAtom E e := by
  match a, h with
  | .atom (.name n) :: args, h =>
    obtain ⟨ts, p, h1, h2, rfl⟩ := atomic_name_ok.1 h
    obtain ⟨_, _, rfl⟩ := mkPred_ok.1 h2
    exact .pred (terms_known hE h1)
  | .atom .eq :: args, h =>
    obtain ⟨l, r, h1, hr, h2⟩ := atomic_eq_ok.1 h
    obtain ⟨_, rfl⟩ := mkEq_ok.1 h2
    have := terms_known hE h1
    exact .eq (this _ (by simp)) (this _ (by simp)) (allows_iff.2 hr)
  | [], h => simp [GEnv.atomic] at h
  | .node _ :: _, h => simp [GEnv.atomic] at h

theorem fHead_known (hE : TermScope E) {t : Tree} {f : NFun} (h : E.fHead t = .ok f) : ∀ t ∈ f.terms, Known E t := by
  unfold GEnv.fHead at h
  split at h
  · obtain ⟨_, rfl⟩ := mkNFun_ok.1 h
    simp
  · obtain ⟨ts, ht, h⟩ := bind_ok_iff.1 h
    obtain ⟨_, rfl⟩ := mkNFun_ok.1 h
    exact terms_known hE ht
  · simp at h

theorem assignOp_assignment {w : Str} {o : FOp} (h : assignOp w = some o) : IsAssignment o := by
  unfold assignOp at h
  repeat' split at h
  all_goals first | (simp only [Option.some.injEq] at h; subst h; trivial) | simp at h

theorem construct_assign {o : FOp} (h : IsAssignment o) (as : List Expr) : construct (.fop o) as = .bfun o as := by
  have : (Cls.fop o).isMeta = false := by cases o <;> first | rfl | exact h.elim
  simp [construct, this, Expr.ofCls]

theorem PRel.read (hE : TermScope E) {t : Tree} {e : Expr} (h : PRel E t e) : ReadLit E e := by
  cases h with
  | not h => exact .not (atomic_read hE h)
  | assign h1 h2 h3 =>
    have ho := assignOp_assignment h1
    rw [construct_assign ho]
    exact .assign ho (fHead_known hE h2) ((fExp_rel h3).read hE)
  | atom _ _ h => exact .atom (atomic_read hE h)
  | eq h => exact .atom (atomic_read hE h)

theorem ReadLit.not_and {e : Expr} (h : ReadLit E e) (bs : List Expr) : e ≠ .bin .and bs := by
  rintro rfl
  cases h with
  | atom h => cases h

theorem CRel.read (hE : TermScope E) {t : Tree} {e : Expr} (h : CRel E t e) : ReadWhen E e := by
  cases h with
  | and h =>
    rcases construct_read (P := ReadLit E) (.bop .and) (fun as h => absurd rfl (h.not_and as))
      (fun e he => by obtain ⟨a, _, ha⟩ := h.mem_right he; exact ha.read hE) with h | ⟨as, h1, h2⟩
    · exact .lit h.1
    · rw [mkAnd, h1]; exact .and h2
  | one _ h => exact .lit (h.read hE)

/-- `And(*es)` has no operand that is a conjunction, or is one of its operands. -/
theorem mkAnd_read {es : List Expr} (h : ∀ e ∈ es, ReadEff E e) : ReadEff E (mkAnd es) := by
  have hop : ∀ as, ReadEff E (.bin .and as) → ∀ a ∈ as, ReadEff E a := by
    intro as ha
    cases ha with
    | lit h => exact absurd rfl (h.not_and as)
    | and h _ => exact h
  have hall : ∀ e ∈ flattenEs (.bop .and) es ++ es, ReadEff E e := by
    intro e he
    rcases List.mem_append.1 he with he | he
    · refine flatten_closed (.bop .and) ?_ es h e he
      intro e as ho hp
      rw [ofCls_operandsIf.1 ho] at hp
      exact hop as hp
    · exact h e he
  have hs : ∀ as, Stable (.bop .and) as → ∀ a ∈ as, ∀ bs, a ≠ .bin .and bs := by
    intro as g a ha bs e
    have hc := (Stable.canonical (c := .bop .and) rfl rfl g).1
    subst e
    exact absurd (hc.flat _ ha) (by simp [Expr.operandsIf])
  rcases construct_cases (.bop .and) es with ⟨e, h1, h2, h3⟩ | ⟨as, h1, g, h2⟩
  · rw [mkAnd, h1]; exact hall e h2
  · rw [mkAnd, h1]; exact .and (fun a ha => hall a (h2 a ha)) (hs as g)

theorem ERel.read (hE : TermScope E) {top : Bool} {t : Tree} {e : Expr} (h : ERel E top t e) : ReadEff E e := by
  induction h with
  | and hl _ ih =>
    exact mkAnd_read (fun e he => by obtain ⟨a, ha⟩ := zip_right hl he; exact ih (a, e) ha)
  | fall _ _ _ _ ih => exact .fall ih
  | when h1 h2 => exact .when ((gd_rel h1).read hE) ((condEffect_iff.1 h2).read hE)
  | @oneof top args es h1 hl _ hr ih =>
    have : construct (.bop .oneof) es = .bin .oneof es := by simp [construct, Cls.isMeta, Expr.ofCls]
    rw [this]
    refine .oneof ?_ (fun e he => by obtain ⟨a, ha⟩ := zip_right hl he; exact ih (a, e) ha) (allows_iff.2 hr)
    rintro rfl
    simp at hl
    simp [hl] at h1
  | lit _ h => exact .lit ((pEffect_iff.1 h).read hE)

theorem ReadLit.print {e : Expr} (h : ReadLit E e) (hn : NoObstacle E.float e) : PrintLit E e := by
  cases h with
  | atom h => exact .atom h
  | not h => exact .not h
  | assign ho hf hx => exact .assign ho hf (hx.print hn.2.2.1)

theorem ReadWhen.print {e : Expr} (h : ReadWhen E e) (hn : NoObstacle E.float e) : PrintWhen E e := by
  cases h with
  | lit h => exact .lit (h.print hn)
  | and h => exact .and (fun a ha => (h a ha).print (noObstacles_iff.1 hn a ha))

theorem ReadEff.print (hE : DomainScope E) {e : Expr} (h : ReadEff E e) (hn : NoObstacle E.float e) :
    PrintEff E true e ∧ ((∀ bs, e ≠ .bin .and bs) → PrintEff E false e) := by
  induction h with
  | lit h => exact ⟨.lit (h.print hn), fun _ => .lit (h.print hn)⟩
  | and _ hne ih =>
    exact ⟨.and (fun a ha => (ih a ha (noObstacles_iff.1 hn a ha)).2 (hne a ha)), fun h => absurd rfl (h _)⟩
  | when hc he => exact ⟨.when (hc.print hE hn.1) (he.print hn.2), fun _ => .when (hc.print hE hn.1) (he.print hn.2)⟩
  | fall _ ih =>
    have := (ih hn.2).1
    exact ⟨.fall hE.typedLists hn.1 this, fun _ => .fall hE.typedLists hn.1 this⟩
  | oneof h1 _ hr ih =>
    have := fun a ha => (ih a ha (noObstacles_iff.1 hn a ha)).1
    exact ⟨.oneof h1 this hr, fun _ => .oneof h1 this hr⟩

/-! ### What is read is built by the constructors -/

theorem atomic_good {a : List Tree} {e : Expr} (h : E.atomic a = .ok e) : e.Good := by
  match a, h with
  | .atom (.name n) :: args, h =>
    obtain ⟨ts, p, h1, h2, rfl⟩ := atomic_name_ok.1 h
    exact (Built.pred h2).good
  | .atom .eq :: args, h =>
    obtain ⟨l, r, h1, hr, h2⟩ := atomic_eq_ok.1 h
    exact (Built.eq h2).good
  | [], h => simp [GEnv.atomic] at h
  | .node _ :: _, h => simp [GEnv.atomic] at h

theorem fHead_good {t : Tree} {f : NFun} (h : E.fHead t = .ok f) : (Expr.nfun f).Good := by
  unfold GEnv.fHead at h
  split at h
  · exact (Built.nfun h).good
  · obtain ⟨ts, ht, h⟩ := bind_ok_iff.1 h
    exact (Built.nfun h).good
  · simp at h

theorem PRel.good {t : Tree} {e : Expr} (h : PRel E t e) : e.Good := by
  cases h with
  | not h => exact (atomic_good h : Expr.Good _)
  | assign _ h1 h2 =>
    refine good_construct ?_
    intro e he
    simp only [List.mem_cons, List.not_mem_nil, or_false] at he
    rcases he with rfl | rfl
    · exact fHead_good h1
    · exact (fExp_rel h2).good
  | atom _ _ h => exact atomic_good h
  | eq h => exact atomic_good h

theorem CRel.good {t : Tree} {e : Expr} (h : CRel E t e) : e.Good := by
  cases h with
  | and h => exact good_construct (fun e he => by obtain ⟨a, _, ha⟩ := h.mem_right he; exact ha.good)
  | one _ h => exact h.good

theorem ERel.good {top : Bool} {t : Tree} {e : Expr} (h : ERel E top t e) : e.Good := by
  induction h with
  | and hl _ ih => exact good_construct (fun e he => by obtain ⟨a, ha⟩ := zip_right hl he; exact ih (a, e) ha)
  | fall _ _ _ _ ih => exact (Built.fall _ ih.built).good
  | when h1 h2 => exact ⟨(gd_rel h1).good, (condEffect_iff.1 h2).good⟩
  | oneof _ hl _ _ ih => exact good_construct (fun e he => by obtain ⟨a, ha⟩ := zip_right hl he; exact ih (a, e) ha)
  | lit _ h => exact (pEffect_iff.1 h).good

/-! ### Sets of types -/

/-- The types of every bound variable are a set. -/
def BoundSets (e : Expr) : Prop := ∀ v ∈ binders e, v.tags.Nodup

theorem BoundSets.construct {c : Cls} {es : List Expr} (h : ∀ e ∈ es, BoundSets e) : BoundSets (construct c es) := by
  have hop : ∀ as, BoundSets (Expr.ofCls c as) ↔ ∀ a ∈ as, BoundSets a := by
    intro as
    have : binders (Expr.ofCls c as) = bindersAll as := by cases c <;> rfl
    unfold BoundSets
    rw [this]
    constructor
    · intro h a ha v hv; exact h v (mem_bindersAll.2 ⟨a, ha, hv⟩)
    · intro h v hv
      obtain ⟨a, ha, hv⟩ := mem_bindersAll.1 hv
      exact h a ha v hv
  rcases construct_read (P := BoundSets) c (fun as => (hop as).1) h with h | ⟨as, h1, h2⟩
  · exact h.1
  · rw [h1]; exact (hop as).2 h2

theorem mkVars_sets {l : List (Str × List Str)} : ∀ {vs : List Var}, mkVars l = .ok vs → ∀ v ∈ vs, v.tags.Nodup := by
  induction l with
  | nil =>
    intro vs h v hv
    simp only [mkVars, pure_ok, Except.ok.injEq] at h
    subst h; simp at hv
  | cons p l ih =>
    intro vs h v hv
    obtain ⟨n, ts⟩ := p
    simp only [mkVars] at h
    obtain ⟨w, hw, h⟩ := bind_ok_iff.1 h
    obtain ⟨r, hr, h⟩ := bind_ok_iff.1 h
    simp only [pure_ok, Except.ok.injEq] at h
    subst h
    rcases List.mem_cons.1 hv with rfl | hv
    · obtain ⟨_, _, rfl⟩ := mkVar_set_ok.1 hw
      exact dedup_nodup _
    · exact ih hr v hv

theorem BoundSets.none {e : Expr} (h : binders e = []) : BoundSets e := by
  intro v hv; rw [h] at hv; simp at hv

theorem FRel.bounds {t : Tree} {e : Expr} (h : FRel E t e) : BoundSets e := by
  induction h with
  | num _ => exact .none rfl
  | plus _ hl _ ih => exact .construct (fun e he => by obtain ⟨a, ha⟩ := zip_right hl he; exact ih (a, e) ha)
  | times _ hl _ ih => exact .construct (fun e he => by obtain ⟨a, ha⟩ := zip_right hl he; exact ih (a, e) ha)
  | divide _ _ h1 h2 => exact .construct (by simp [h1, h2])
  | minus _ h1 => exact .construct (by simp [h1])
  | fn0 h => exact .none rfl
  | fn _ h => exact .none rfl

theorem GRel.bounds {t : Tree} {e : Expr} (h : GRel E t e) : BoundSets e := by
  induction h with
  | and hl _ ih => exact .construct (fun e he => by obtain ⟨a, ha⟩ := zip_right hl he; exact ih (a, e) ha)
  | or hl _ _ ih => exact .construct (fun e he => by obtain ⟨a, ha⟩ := zip_right hl he; exact ih (a, e) ha)
  | not _ ih => exact ih
  | imply _ _ _ h1 h2 => exact .construct (by simp [h1, h2])
  | quant _ _ _ _ h ih =>
    intro v hv
    simp only [mkQuant, binders, List.mem_append] at hv
    rcases hv with hv | hv
    · exact mkVars_sets h v (dedupBy_subset hv)
    · exact ih v hv
  | atom _ _ h => exact .none rfl
  | eq _ _ _ h => obtain ⟨_, rfl⟩ := mkEq_ok.1 h; exact .none rfl
  | comp _ _ h1 h2 => exact .construct (by simp [(fExp_rel h1).bounds, (fExp_rel h2).bounds])

theorem atomic_bounds {a : List Tree} {e : Expr} (h : E.atomic a = .ok e) : BoundSets e := by
  match a, h with
  | .atom (.name n) :: args, h =>
    obtain ⟨ts, p, h1, h2, rfl⟩ := atomic_name_ok.1 h
    exact .none rfl
  | .atom .eq :: args, h =>
    obtain ⟨l, r, h1, hr, h2⟩ := atomic_eq_ok.1 h
    obtain ⟨_, rfl⟩ := mkEq_ok.1 h2
    exact .none rfl
  | [], h => simp [GEnv.atomic] at h
  | .node _ :: _, h => simp [GEnv.atomic] at h

theorem PRel.bounds {t : Tree} {e : Expr} (h : PRel E t e) : BoundSets e := by
  cases h with
  | not h => exact fun v hv => atomic_bounds h v hv
  | assign _ h1 h2 => exact .construct (by simp [(fExp_rel h2).bounds, BoundSets.none (e := .nfun _) rfl])
  | atom _ _ h => exact atomic_bounds h
  | eq h => exact atomic_bounds h

theorem CRel.bounds {t : Tree} {e : Expr} (h : CRel E t e) : BoundSets e := by
  cases h with
  | and h => exact .construct (fun e he => by obtain ⟨a, _, ha⟩ := h.mem_right he; exact ha.bounds)
  | one _ h => exact h.bounds

theorem ERel.bounds {top : Bool} {t : Tree} {e : Expr} (h : ERel E top t e) : BoundSets e := by
  induction h with
  | and hl _ ih => exact .construct (fun e he => by obtain ⟨a, ha⟩ := zip_right hl he; exact ih (a, e) ha)
  | fall _ _ _ h ih =>
    intro v hv
    simp only [mkForall, binders, List.mem_append] at hv
    rcases hv with hv | hv
    · exact mkVars_sets h v (dedupBy_subset hv)
    · exact ih v hv
  | when h1 h2 =>
    intro v hv
    simp only [binders, List.mem_append] at hv
    rcases hv with hv | hv
    · exact (gd_rel h1).bounds v hv
    · exact (condEffect_iff.1 h2).bounds v hv
  | oneof _ hl _ _ ih => exact .construct (fun e he => by obtain ⟨a, ha⟩ := zip_right hl he; exact ih (a, e) ha)
  | lit _ h => exact (pEffect_iff.1 h).bounds

/-- Every term of a formula is in an atom or bound. -/
theorem terms_split {e : Expr} {t : Term} (h : t ∈ terms e) : (∃ a ∈ atoms e, t ∈ a.2) ∨ ∃ v ∈ binders e, t = .var v := by
  induction e using Expr.ind with
  | hpred p => exact .inl ⟨_, List.mem_singleton.2 rfl, h⟩
  | heq l r => exact .inl ⟨_, List.mem_singleton.2 rfl, h⟩
  | hnfun f => exact .inl ⟨_, List.mem_singleton.2 rfl, h⟩
  | hnum n => simp [terms] at h
  | hbfun o as ih =>
    obtain ⟨a, ha, h⟩ := mem_termsAll.1 h
    rcases ih a ha h with ⟨x, hx, h⟩ | ⟨v, hv, h⟩
    · exact .inl ⟨x, mem_atomsAll.2 ⟨a, ha, hx⟩, h⟩
    · exact .inr ⟨v, mem_bindersAll.2 ⟨a, ha, hv⟩, h⟩
  | hbin o as ih =>
    obtain ⟨a, ha, h⟩ := mem_termsAll.1 h
    rcases ih a ha h with ⟨x, hx, h⟩ | ⟨v, hv, h⟩
    · exact .inl ⟨x, mem_atomsAll.2 ⟨a, ha, hx⟩, h⟩
    · exact .inr ⟨v, mem_bindersAll.2 ⟨a, ha, hv⟩, h⟩
  | hnot a ih => exact ih h
  | hquant q vs c ih =>
    simp only [terms, List.mem_append, List.mem_map] at h
    rcases h with ⟨v, hv, rfl⟩ | h
    · exact .inr ⟨v, by simp [binders, hv], rfl⟩
    · rcases ih h with h | ⟨v, hv, h⟩
      · exact .inl h
      · exact .inr ⟨v, by simp [binders, hv], h⟩
  | hwhen c e ih1 ih2 =>
    simp only [terms, List.mem_append] at h
    rcases h with h | h
    · rcases ih1 h with ⟨x, hx, h⟩ | ⟨v, hv, h⟩
      · exact .inl ⟨x, by simp [atoms, hx], h⟩
      · exact .inr ⟨v, by simp [binders, hv], h⟩
    · rcases ih2 h with ⟨x, hx, h⟩ | ⟨v, hv, h⟩
      · exact .inl ⟨x, by simp [atoms, hx], h⟩
      · exact .inr ⟨v, by simp [binders, hv], h⟩
  | hfall vs e ih =>
    simp only [terms, List.mem_append, List.mem_map] at h
    rcases h with ⟨v, hv, rfl⟩ | h
    · exact .inr ⟨v, by simp [binders, hv], rfl⟩
    · rcases ih h with h | ⟨v, hv, h⟩
      · exact .inl h
      · exact .inr ⟨v, by simp [binders, hv], h⟩

theorem fromEnv_nodup (hE : TermScope E) (hp : ∀ n t, dictGet E.params n = some t → t.tags.Nodup) {t : Term}
    (h : FromEnv E t) : t.tags.Nodup := by
  rcases h with ⟨n, h⟩ | ⟨n, h⟩
  · obtain ⟨_, x, rfl⟩ := hE.constants n t h
    cases x <;> simp [Term.tags]
  · unfold GEnv.variable at h
    split at h
    · rename_i u hu
      simp only [pure_ok, Except.ok.injEq] at h
      subst h; exact hp n _ hu
    · obtain ⟨v, hv, h⟩ := bind_ok_iff.1 h
      simp only [pure_ok, Except.ok.injEq] at h
      subst h
      obtain ⟨_, _, rfl⟩ := mkVar_set_ok.1 hv
      exact dedup_nodup _

theorem tagSets_of (hE : TermScope E) (hp : ∀ n t, dictGet E.params n = some t → t.tags.Nodup) {e : Expr}
    (h : AllFrom E e) (hb : BoundSets e) : TagSets e := by
  intro t ht
  rcases terms_split ht with ⟨a, ha, h'⟩ | ⟨v, hv, rfl⟩
  · exact fromEnv_nodup hE hp (h a ha t h')
  · exact hb v hv

end Pddl
