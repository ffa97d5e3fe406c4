/-
Retagging does not change what a condition says.
-/
import Verif.Proofs.RaisesDomain
import Verif.Proofs.Goal
import Verif.Proofs.Tags
import Verif.Proofs.InstSem
import Verif.Proofs.FormulaParse
import Verif.Proofs.Erase
import Verif.Proofs.Printable

namespace Pddl
open Spec

/-- Numeric expressions. -/
inductive NumShape : Expr → Prop
  | nfun (f : NFun) : NumShape (.nfun f)
  | num (n : Num) : NumShape (.num n)
  | bfun (o : FOp) {as} : (∀ a ∈ as, NumShape a) → NumShape (.bfun o as)

/-- Conditions the numeric parts of which carry the types `τ`. -/
inductive Steady (τ : Str → List Str) : Expr → Prop
  | pred (p : Pred) : Steady τ (.pred p)
  | eq (l r : Term) : Steady τ (.eq l r)
  | bin (o : BOp) {as} : o ≠ .oneof → (∀ a ∈ as, Steady τ a) → Steady τ (.bin o as)
  | number {e} : NumShape e → e.Good → Uniform τ e → Steady τ e
  | not {a} : Steady τ a → Steady τ (.not a)
  | quant {q vs a} : Steady τ a → Steady τ (.quant q vs a)

theorem Steady.mk {τ : Str → List Str} {o : BOp} {es : List Expr} (ho : o ≠ .oneof) (h : ∀ e ∈ es, Steady τ e) :
    Steady τ (construct (.bop o) es) := by
  have hop : ∀ as, Steady τ (Expr.ofCls (.bop o) as) → ∀ a ∈ as, Steady τ a := by
    intro as ha
    cases ha with
    | bin _ _ h => exact h
    | number h => cases h
  rcases construct_read (.bop o) hop h with ⟨h, _⟩ | ⟨as, h1, h2⟩
  · exact h
  · rw [h1]
    exact .bin o ho h2

theorem NumShape.mk {o : FOp} {es : List Expr} (h : ∀ e ∈ es, NumShape e) : NumShape (construct (.fop o) es) := by
  have hop : ∀ as, NumShape (Expr.ofCls (.fop o) as) → ∀ a ∈ as, NumShape a := by
    intro as ha
    cases ha with | bfun _ h => exact h
  rcases construct_read (.fop o) hop h with ⟨h, _⟩ | ⟨as, h1, h2⟩
  · exact h
  · rw [h1]
    exact .bfun o h2

theorem Spec.NoArithmetic.sub {t : Tree} (h : NoArithmetic t) {s : Tree} (hs : Inside s t) : NoArithmetic s where
  plus args hi := h.plus args (hi.trans hs)
  times args hi := h.times args (hi.trans hs)
  divide args hi := h.divide args (hi.trans hs)
  eq args hi := h.eq args (hi.trans hs)

theorem Spec.NoArithmetic.mem {l : List Tree} (h : NoArithmetic (.node l)) {s : Tree} (hs : s ∈ l) : NoArithmetic s :=
  h.sub (.node hs .refl)

theorem FRel.shape {E : GEnv} {t : Tree} {e : Expr} (h : FRel E t e) : NumShape e := by
  induction h with
  | num _ => exact .num _
  | plus _ hl _ ih => exact .mk (fun e he => by obtain ⟨a, ha⟩ := zip_right hl he; exact ih (a, e) ha)
  | times _ hl _ ih => exact .mk (fun e he => by obtain ⟨a, ha⟩ := zip_right hl he; exact ih (a, e) ha)
  | divide _ _ h1 h2 => exact .mk (by simp [h1, h2])
  | minus _ h1 => exact .mk (by simp [h1])
  | fn0 h => exact .nfun _
  | fn h h' => exact .nfun _

theorem GRel.steady {E : GEnv} (hE : E.Plain) {t : Tree} {e : Expr} (h : GRel E t e) : Steady E.tagsOf e := by
  induction h with
  | and hl _ ih => exact .mk (by decide) (fun e he => by obtain ⟨a, ha⟩ := zip_right hl he; exact ih (a, e) ha)
  | or hl _ _ ih => exact .mk (by decide) (fun e he => by obtain ⟨a, ha⟩ := zip_right hl he; exact ih (a, e) ha)
  | not _ h => exact .not h
  | imply _ _ _ h1 h2 => exact .mk (by decide) (by simp [h1, h2])
  | quant _ _ _ _ _ h => exact .quant h
  | atom _ _ h => exact .pred _
  | eq _ _ _ h =>
    simp only [mkEq, bind_ok_iff, pure_ok, Except.ok.injEq] at h
    obtain ⟨_, _, rfl⟩ := h
    exact .eq _ _
  | @comp t op a b e e' ht hs h1 h2 =>
    refine .number (.mk (by simp [(fExp_rel h1).shape, (fExp_rel h2).shape])) (GRel.comp ht hs h1 h2).good ?_
    exact AllFrom.uniform hE (.construct (by simp [(fExp_rel h1).from, (fExp_rel h2).from]))

/-! ### Retagging -/

theorem zipped_left {α β} {R : α → β → Prop} {as : List α} {bs : List β} (h : List.Forall₂ R as bs) {a : α}
    (ha : a ∈ as) : ∃ b ∈ bs, R a b := by
  induction h with
  | nil => simp at ha
  | cons h _ ih =>
    cases ha with
    | head => exact ⟨_, .head _, h⟩
    | tail _ ha => obtain ⟨b, hb, h⟩ := ih ha; exact ⟨b, .tail _ hb, h⟩

theorem zipped_right {α β} {R : α → β → Prop} {as : List α} {bs : List β} (h : List.Forall₂ R as bs) {b : β}
    (hb : b ∈ bs) : ∃ a ∈ as, R a b := by
  induction h with
  | nil => simp at hb
  | cons h _ ih =>
    cases hb with
    | head => exact ⟨_, .head _, h⟩
    | tail _ hb => obtain ⟨a, ha, h⟩ := ih hb; exact ⟨a, .tail _ ha, h⟩

theorem denote_retagged {D} (I : Interp D) (ρ : Str → D) {env : VarTypes} {t u : Term} (h : t.retag env = .ok u) :
    denote I ρ u = denote I ρ t := by
  cases t with
  | const n x => simp only [Term.retag, pure_ok, Except.ok.injEq] at h; subst h; rfl
  | var v =>
    simp only [Term.retag] at h
    split at h
    · obtain ⟨v', hv, h⟩ := bind_ok_iff.1 h
      simp only [pure_ok, Except.ok.injEq] at h
      subst h
      obtain ⟨_, _, rfl⟩ := mkVar_set_ok.1 hv
      rfl
    · simp only [pure_ok, Except.ok.injEq] at h; subst h; rfl

theorem denotes_retagged {D} (I : Interp D) (ρ : Str → D) {env : VarTypes} {ts us : List Term}
    (h : ts.mapM (Term.retag env) = .ok us) : us.map (denote I ρ) = ts.map (denote I ρ) := by
  replace h := mapM_ok_iff.1 h
  induction h with
  | nil => rfl
  | cons h _ ih => simp only [List.map_cons, denote_retagged I ρ h, ih]

/-- The types after retagging. -/
def typesUnder (env : VarTypes) (τ : Str → List Str) (n : Str) : List Str := (dictGet env n).getD (τ n)

theorem retag_uniform {τ : Str → List Str} {env : VarTypes} {t u : Term} (ht : ∀ v ∈ varOf t, ∀ x, x ∈ v.tags ↔ x ∈ τ v.name)
    (h : t.retag env = .ok u) :
    eraseTerm u = eraseTerm t ∧ ∀ v ∈ varOf u, ∀ x, x ∈ v.tags ↔ x ∈ typesUnder env τ v.name := by
  cases t with
  | const n x => simp only [Term.retag, pure_ok, Except.ok.injEq] at h; subst h; simp [varOf]
  | var v =>
    simp only [Term.retag] at h
    split at h
    · rename_i tags hd
      obtain ⟨v', hv, h⟩ := bind_ok_iff.1 h
      simp only [pure_ok, Except.ok.injEq] at h
      subst h
      obtain ⟨_, _, rfl⟩ := mkVar_set_ok.1 hv
      refine ⟨rfl, ?_⟩
      simp only [varOf, List.mem_singleton, forall_eq, typesUnder, hd, Option.getD_some]
      intro x
      exact dd_mem
    · rename_i hd
      simp only [pure_ok, Except.ok.injEq] at h
      subst h
      refine ⟨rfl, ?_⟩
      simpa [varOf, typesUnder, hd] using ht v (by simp [varOf])

theorem retags_uniform {τ : Str → List Str} {env : VarTypes} {ts us : List Term}
    (ht : ∀ t ∈ ts, ∀ v ∈ varOf t, ∀ x, x ∈ v.tags ↔ x ∈ τ v.name) (h : ts.mapM (Term.retag env) = .ok us) :
    us.map eraseTerm = ts.map eraseTerm ∧ ∀ u ∈ us, ∀ v ∈ varOf u, ∀ x, x ∈ v.tags ↔ x ∈ typesUnder env τ v.name := by
  replace h := mapM_ok_iff.1 h
  induction h with
  | nil => simp
  | cons h _ ih =>
    obtain ⟨h1, h2⟩ := retag_uniform (ht _ (by simp)) h
    obtain ⟨h3, h4⟩ := ih (fun t h => ht t (by simp [h]))
    refine ⟨by simp [h1, h3], ?_⟩
    intro u hu
    rcases List.mem_cons.1 hu with rfl | hu
    · exact h2
    · exact h4 u hu

theorem uniform_nfun {τ : Str → List Str} {f : NFun} :
    Uniform τ (.nfun f) ↔ ∀ t ∈ f.terms, ∀ v ∈ varOf t, ∀ x, x ∈ v.tags ↔ x ∈ τ v.name := by
  simp only [Uniform, occurrences, atoms, List.flatMap_cons, List.flatMap_nil, List.append_nil, List.mem_flatMap]
  exact ⟨fun h t ht v hv => h v ⟨t, ht, hv⟩, fun h v ⟨t, ht, hv⟩ => h t ht v hv⟩

theorem uniform_construct {τ : Str → List Str} {c : Cls} {es : List Expr} (h : ∀ e ∈ es, Uniform τ e) : Uniform τ (construct c es) := by
  intro v hv
  simp only [occurrences, List.mem_flatMap] at hv
  obtain ⟨a, ha, t, ht, hv⟩ := hv
  obtain ⟨e, he, hx⟩ := mem_atomsAll.1 (atoms_construct_sub ha)
  exact h e he v (by simp only [occurrences, List.mem_flatMap]; exact ⟨a, hx, t, ht, hv⟩)

/-- Retagging changes nothing but the types of a numeric expression. -/
theorem updateTags_erased {τ : Str → List Str} {env : VarTypes} {e : Expr} (hs : NumShape e) :
    ∀ {e'}, e.Good → Uniform τ e → e.updateTags env = .ok e' → erase e' = erase e ∧ Uniform (typesUnder env τ) e' := by
  induction hs with
  | nfun f =>
    intro e' _ hu h
    rw [Expr.updateTags, bind_ok_iff] at h
    obtain ⟨ts, ht, h⟩ := h
    obtain ⟨f', hf, h⟩ := bind_ok_iff.1 h
    simp only [pure_ok, Except.ok.injEq] at h
    subst h
    obtain ⟨_, rfl⟩ := mkNFun_ok.1 hf
    obtain ⟨h1, h2⟩ := retags_uniform (uniform_nfun.1 hu) ht
    exact ⟨by simp [erase, h1], uniform_nfun.2 h2⟩
  | num n =>
    intro e' _ hu h
    simp only [Expr.updateTags, pure_ok, Except.ok.injEq] at h
    subst h
    exact ⟨rfl, by simp [Uniform, occurrences, atoms]⟩
  | @bfun o as hs ih =>
    intro e' hg hu h
    obtain ⟨bs, h2, rfl⟩ := update_bfun_ok.1 h
    have hu' := occurrences_cls (c := .fop o).mp hu
    have hg' := goods_iff.1 hg.2
    have hb : bs.map erase = as.map erase ∧ ∀ b ∈ bs, Uniform (typesUnder env τ) b := by
      clear hg hu h hs
      induction h2 with
      | nil => simp
      | cons h _ ih' =>
        obtain ⟨h1, h2⟩ := ih _ (by simp) (hg' _ (by simp)) (hu' _ (by simp)) h
        obtain ⟨h3, h4⟩ := ih' (fun a ha => ih a (.tail _ ha)) (fun a ha => hu' a (.tail _ ha)) (fun a ha => hg' a (.tail _ ha))
        refine ⟨by simp [h1, h3], ?_⟩
        intro b hb
        rcases List.mem_cons.1 hb with rfl | hb
        · exact h2
        · exact h4 b hb
    refine ⟨?_, uniform_construct hb.2⟩
    rw [← erase_construct hb.2, hb.1, erase_construct hu']
    have : construct (.fop o) as = .bfun o as := hg.1
    rw [this]

theorem denote_erase {D} (I : Interp D) (ρ : Str → D) (t : Term) : denote I ρ (eraseTerm t) = denote I ρ t := by cases t <;> rfl

theorem value_erase {D} (I : Interp D) (ρ : Str → D) {e : Expr} (h : NumShape e) : value I ρ (erase e) = value I ρ e := by
  induction h with
  | nfun f =>
    simp only [erase, value, List.map_map]
    congr 2
    exact funext (denote_erase I ρ)
  | num n => rfl
  | @bfun o as hs ih =>
    clear hs
    have : values I ρ (erases as) = values I ρ as := by
      induction as with
      | nil => rfl
      | cons a as ih' => simp only [erases, values, ih a (by simp), ih' (fun a ha => ih a (.tail _ ha))]
    simp only [erase, value, this]

theorem values_erase {D} (I : Interp D) (ρ : Str → D) {as : List Expr} (h : ∀ a ∈ as, NumShape a) :
    values I ρ (erases as) = values I ρ as := by
  induction as with
  | nil => rfl
  | cons a as ih => simp only [erases, values, value_erase I ρ (h a (by simp)), ih (fun a ha => h a (.tail _ ha))]

theorem holds_erase {D} (I : Interp D) (ρ : Str → D) {e : Expr} (h : NumShape e) : holds I (erase e) ρ ↔ holds I e ρ := by
  cases h with
  | nfun f => simp [erase, holds]
  | num n => rfl
  | bfun o h => simp only [erase, holds, values_erase I ρ h]

theorem updates_shape {env : VarTypes} {e : Expr} (h : NumShape e) : ∀ {e'}, e.updateTags env = .ok e' → NumShape e' := by
  induction h with
  | nfun f =>
    intro e' h
    rw [Expr.updateTags, bind_ok_iff] at h
    obtain ⟨ts, ht, h⟩ := h
    obtain ⟨f', hf, h⟩ := bind_ok_iff.1 h
    simp only [pure_ok, Except.ok.injEq] at h
    subst h
    exact .nfun _
  | num n =>
    intro e' h
    simp only [Expr.updateTags, pure_ok, Except.ok.injEq] at h
    subst h
    exact .num _
  | bfun o _ ih =>
    intro e' h
    obtain ⟨bs, h2, rfl⟩ := update_bfun_ok.1 h
    exact .mk (fun b hb => by obtain ⟨a, ha, h⟩ := zipped_right h2 hb; exact ih a ha h)

theorem updateTags_holds {D} (I : Interp D) {τ : Str → List Str} {e : Expr} (hs : Steady τ e) :
    ∀ {env e'} (ρ : Str → D), e.updateTags env = .ok e' → (holds I e' ρ ↔ holds I e ρ) := by
  induction hs with
  | pred p =>
    intro env e' ρ h
    rw [Expr.updateTags, bind_ok_iff] at h
    obtain ⟨ts, ht, h⟩ := h
    obtain ⟨f', hf, h⟩ := bind_ok_iff.1 h
    simp only [pure_ok, Except.ok.injEq] at h
    subst h
    obtain ⟨_, _, rfl⟩ := mkPred_ok.1 hf
    simp [holds, denotes_retagged I ρ ht]
  | eq l r =>
    intro env e' ρ h
    rw [Expr.updateTags, bind_ok_iff] at h
    obtain ⟨l', h1, h⟩ := h
    obtain ⟨r', h2, h⟩ := bind_ok_iff.1 h
    obtain ⟨_, rfl⟩ := mkEq_ok.mp h
    simp [holds, denote_retagged I ρ h1, denote_retagged I ρ h2]
  | number hn hg hu =>
    intro env e' ρ h
    rw [← holds_erase I ρ hn, ← holds_erase I ρ (updates_shape hn h), (updateTags_erased hn hg hu h).1]
  | @bin o as ho hs ih =>
    intro env e' ρ h
    obtain ⟨bs, h2, rfl⟩ := update_bin_ok.1 h
    replace h := h2; clear h2
    cases o with
    | and =>
      rw [← mkAnd, holds_mkAnd, holds, holdsAll_iff]
      exact ⟨fun H a ha => by obtain ⟨b, hb, h⟩ := zipped_left h ha; exact (ih a ha ρ h).1 (H b hb),
        fun H b hb => by obtain ⟨a, ha, h⟩ := zipped_right h hb; exact (ih a ha ρ h).2 (H a ha)⟩
    | or =>
      rw [← mkOr, holds_mkOr, holds, holdsSome_iff]
      exact ⟨fun ⟨b, hb, H⟩ => by obtain ⟨a, ha, h⟩ := zipped_right h hb; exact ⟨a, ha, (ih a ha ρ h).1 H⟩,
        fun ⟨a, ha, H⟩ => by obtain ⟨b, hb, h⟩ := zipped_left h ha; exact ⟨b, hb, (ih a ha ρ h).2 H⟩⟩
    | oneof => exact absurd rfl ho
    | imply =>
      have : construct (.bop .imply) bs = .bin .imply bs := rfl
      clear this
      change holdsImply I bs ρ ↔ holdsImply I as ρ
      match as, bs, h with
      | [], _, .nil => simp
      | [_], _, .cons _ .nil => simp [holdsImply]
      | [a, b], _, .cons h1 (.cons h2 .nil) =>
        simp only [holdsImply]
        rw [ih a (by simp) ρ h1, ih b (by simp) ρ h2]
      | _ :: _ :: _ :: _, _, .cons _ (.cons _ (.cons _ _)) => simp [holdsImply]
  | not h ih =>
    intro env e' ρ h
    obtain ⟨b, h2, rfl⟩ := update_not_ok.1 h
    simp [holds, ih ρ h2]
  | @quant q vs a h ih =>
    intro env e' ρ h
    obtain ⟨b, h2, rfl⟩ := update_quant_ok.1 h
    cases q <;> simp only [mkQuant, holds, dedupVars_rebind, ih _ h2]

end Pddl
