/-
Parsing with more declarations.
-/
import Verif.Proofs.MoreReqs
import Verif.Proofs.RulesDom
import Verif.Spec.Grow

namespace Pddl
open Spec Spec.Grammar

/-- The second environment knows what the first knows, and perhaps more. -/
structure GEnv.Le (E E' : GEnv) : Prop where
  float : E'.float = E.float
  ext : ∀ r ∈ E.ext, r ∈ E'.ext
  const : ∀ n t, E.constant n = .ok t → E'.constant n = .ok t
  params : E'.params = E.params
  typed : E'.typedVars = E.typedVars

namespace GEnv.Le
variable {E E' : GEnv} (H : E.Le E')
include H

theorem hasAny {rs : List Req} (ha : E.hasAny rs = true) : E'.hasAny rs = true := by
  unfold GEnv.hasAny at *
  simp only [List.any_eq_true, decide_eq_true_eq] at *
  obtain ⟨r, h1, h2⟩ := ha
  exact ⟨r, h1, H.ext r h2⟩

theorem terms {args : List Tree} {ts : List Term} (h : E.terms args = .ok ts) : E'.terms args = .ok ts := by
  fun_induction GEnv.terms E args generalizing ts with
  | case1 => exact h
  | case2 n ts' ih =>
    obtain ⟨t, h1, h⟩ := bind_ok_iff.1 h
    obtain ⟨r, h2, h⟩ := bind_ok_iff.1 h
    rw [GEnv.terms, H.const _ _ h1, ok_bind, ih h2, ok_bind]
    exact h
  | case3 n ts' ih =>
    obtain ⟨t, h1, h⟩ := bind_ok_iff.1 h
    obtain ⟨r, h2, h⟩ := bind_ok_iff.1 h
    have h1' : E'.variable n = .ok t := by
      unfold GEnv.variable at *
      rw [H.params]
      exact h1
    rw [GEnv.terms, h1', ok_bind, ih h2, ok_bind]
    exact h
  | case4 l h1 h2 h3 => simp at h

theorem frel {t : Tree} {e : Expr} (h : FRel E t e) : FRel E' t e := by
  induction h with
  | num h => exact .num (by rw [H.float]; exact h)
  | plus h1 h2 _ ih => exact .plus h1 h2 ih
  | times h1 h2 _ ih => exact .times h1 h2 ih
  | divide _ _ ih1 ih2 => exact .divide ih1 ih2
  | minus _ ih => exact .minus ih
  | fn0 h => exact .fn0 h
  | fn h1 h2 => exact .fn (H.terms h1) h2

theorem fExp {t : Tree} {e : Expr} (h : E.fExp t = .ok e) : E'.fExp t = .ok e := fExp_iff.2 (H.frel (fExp_iff.1 h))

theorem grel {t : Tree} {e : Expr} (h : GRel E t e) : GRel E' t e := by
  induction h with
  | and h _ ih => exact .and h ih
  | or h _ h2 ih => exact .or h ih (H.hasAny h2)
  | not _ ih => exact .not ih
  | imply _ _ h ih1 ih2 => exact .imply ih1 ih2 (H.hasAny h)
  | quant h1 h2 _ h4 h5 ih => exact .quant h1 (by rw [H.typed]; exact h2) ih (H.hasAny h4) h5
  | atom h1 h2 h3 => exact .atom h1 (H.terms h2) h3
  | eq h1 h2 h3 h4 => exact .eq h1 (H.terms h2) (H.hasAny h3) h4
  | comp h1 h2 h3 h4 => exact .comp h1 h2 (H.fExp h3) (H.fExp h4)

theorem gd {t : Tree} {e : Expr} (h : E.gd t = .ok e) : E'.gd t = .ok e := gd_iff.2 (H.grel (gd_iff.1 h))

theorem atomic {l : List Tree} {e : Expr} (h : E.atomic l = .ok e) : E'.atomic l = .ok e := by
  unfold GEnv.atomic at h
  split at h
  · rename_i args
    obtain ⟨l, r, h1, h2, h3⟩ := atomic_eq_ok.1 (show E.atomic (.atom .eq :: args) = .ok e from h)
    exact atomic_eq_ok.2 ⟨l, r, H.terms h1, H.hasAny h2, h3⟩
  · rename_i n args
    obtain ⟨ts, p, h1, h2, h3⟩ := atomic_name_ok.1 (show E.atomic (.atom (.name n) :: args) = .ok e from h)
    exact atomic_name_ok.2 ⟨ts, p, H.terms h1, h2, h3⟩
  · simp at h

theorem fHead {t : Tree} {f : NFun} (h : E.fHead t = .ok f) : E'.fHead t = .ok f := by
  unfold GEnv.fHead at *
  split at h
  · exact h
  · obtain ⟨ts, h1, h⟩ := bind_ok_iff.1 h
    simp only [H.terms h1, ok_bind]
    exact h
  · simp at h

theorem prel {t : Tree} {e : Expr} (h : PRel E t e) : PRel E' t e := by
  cases h with
  | not h => exact .not (H.atomic h)
  | assign h1 h2 h3 => exact .assign h1 (H.fHead h2) (H.fExp h3)
  | atom h1 h2 h3 => exact .atom h1 h2 (H.atomic h3)
  | eq h => exact .eq (H.atomic h)

theorem crel {t : Tree} {e : Expr} (h : CRel E t e) : CRel E' t e := by
  cases h with
  | and h => exact .and (h.imp (fun p _ hp => H.prel hp))
  | one h1 h2 => exact .one h1 (H.prel h2)

theorem erel {top : Bool} {t : Tree} {e : Expr} (h : ERel E top t e) : ERel E' top t e := by
  induction h with
  | and h _ ih => exact .and h ih
  | fall h1 h2 _ h4 ih => exact .fall h1 (by rw [H.typed]; exact h2) ih h4
  | when h1 h2 => exact .when (gd_iff.2 (H.grel (gd_iff.1 h1))) (condEffect_iff.2 (H.crel (condEffect_iff.1 h2)))
  | oneof h1 h2 _ h4 ih => exact .oneof h1 h2 ih (H.hasAny h4)
  | lit h1 h2 => exact .lit h1 (pEffect_iff.2 (H.prel (pEffect_iff.1 h2)))

theorem preGd {t : Tree} {e : Expr} (h : E.preGd t = .ok e) : E'.preGd t = .ok e := by
  unfold GEnv.preGd at *
  split at h
  · exact h
  · exact H.gd h

theorem effOpt {t : Tree} {e : Expr} (h : E.effOpt t = .ok e) : E'.effOpt t = .ok e := by
  unfold GEnv.effOpt at *
  split at h
  · exact h
  · exact effect_iff.2 (H.erel (effect_iff.1 h))

end GEnv.Le

/-- The second state knows what the first knows, and perhaps more. -/
structure PState.Le (σ τ : PState) : Prop where
  ext : ∀ r ∈ σ.ext, r ∈ τ.ext
  const : ∀ n t, dictGet σ.consts n = some t → dictGet τ.consts n = some t
  pred : ∀ n p, dictGet σ.preds n = some p → dictGet τ.preds n = some p
  params : τ.params = σ.params
  types : ∀ d t p, σ.types = some d → (dictGet d t).join = some p → ∃ d', τ.types = some d' ∧ (dictGet d' t).join = some p

theorem PState.Le.env {σ τ : PState} (H : σ.Le τ) (F : FloatOf) : (σ.env F).Le (τ.env F) where
  float := rfl
  ext := H.ext
  const := by
    intro n t h
    have h' : σ.constant n = .ok t := h
    show τ.constant n = .ok t
    unfold PState.constant at *
    cases hc : dictGet σ.consts n with
    | none => rw [hc] at h'; simp at h'
    | some u => rw [hc] at h'; rw [H.const n u hc]; exact h'
  params := H.params
  typed := rfl

theorem PState.Le.withParams {σ τ : PState} (H : σ.Le τ) (ps : List (Str × Term)) :
    PState.Le { σ with params := ps } { τ with params := ps } :=
  ⟨H.ext, H.const, H.pred, rfl, H.types⟩

theorem checkSubtypes_le {T T' : Option TypeDict}
    (H : ∀ d t p, T = some d → (dictGet d t).join = some p → ∃ d', T' = some d' ∧ (dictGet d' t).join = some p)
    {l r : List Str} (h : checkSubtypes T l r = .ok ()) : checkSubtypes T' l r = .ok () := by
  induction l with
  | nil => exact h
  | cons t ts ih =>
    rw [checkSubtypes.eq_def] at h ⊢
    simp only at h ⊢
    split at h
    · rename_i h0; rw [if_pos h0]
    · rename_i h0
      rw [if_neg h0]
      split at h
      · rename_i h1; rw [if_pos h1]; exact ih h
      · rename_i h1
        rw [if_neg h1]
        cases T with
        | none => simp at h
        | some d =>
          simp only at h
          cases hj : (dictGet d t).join with
          | none => rw [hj] at h; simp at h
          | some p =>
            obtain ⟨d', rfl, hd⟩ := H d t p rfl hj
            rw [hj] at h
            simp only [hd] at h ⊢
            split at h
            · rename_i h2; rw [if_pos h2]; exact ih h
            · simp at h

theorem derivedEnv_le {T T' : Option TypeDict}
    (H : ∀ d t p, T = some d → (dictGet d t).join = some p → ∃ d', T' = some d' ∧ (dictGet d' t).join = some p)
    {l : List (Term × Term)} {env r : VarTypes} (h : derivedEnv T l env = .ok r) : derivedEnv T' l env = .ok r := by
  fun_induction derivedEnv T l env with
  | case1 => exact h
  | case2 => simp at h
  | case3 env v d l h1 h2 ih => rw [derivedEnv, if_pos h1, if_pos h2]; exact ih h
  | case4 env v d l h1 h2 ih => rw [derivedEnv, if_pos h1, if_neg h2]; exact ih h
  | case5 env v d l h1 ih =>
    obtain ⟨u, h2, h⟩ := bind_ok_iff.1 h
    rw [derivedEnv, if_neg h1, checkSubtypes_le H h2, ok_bind]
    exact ih h

theorem actionDef_le {F : FloatOf} {σ τ σ' : PState} (H : σ.Le τ) {b : List Tree} {a : Action} (h : actionDef F σ b = .ok (a, σ')) :
    ∃ τ', actionDef F τ b = .ok (a, τ') ∧ σ'.Le τ' := by
  obtain ⟨n, ps, t, t', params, p, e, rfl, h1, rfl, h2, h3, h4⟩ := actionDef_ok h
  have H' := H.withParams params
  have h2' := (H'.env F).preGd h2
  have h3' := (H'.env F).effOpt h3
  refine ⟨{ τ with params := params }, ?_, H'⟩
  simp [actionDef, actionPre, actionEff, check, h1, h2', h3', h4]

theorem derivedDef_le {F : FloatOf} {σ τ : PState} (H : σ.Le τ) {b : List Tree} {d : Derived} (h : derivedDef F σ b = .ok d) :
    derivedDef F τ b = .ok d := by
  obtain ⟨t, c, head, cond, rfl, h1, h2, h3⟩ := derivedDef_ok h
  have h2' := (H.env F).gd h2
  simp only [derivedDef, h1, h2', ok_bind]
  unfold derivedPredicate at h3 ⊢
  cases hp : dictGet σ.preds head.name with
  | none => rw [hp] at h3; simp at h3
  | some p =>
    rw [hp] at h3
    rw [H.pred _ _ hp]
    simp only at h3 ⊢
    split at h3
    · simp at h3
    · rename_i hl
      rw [if_neg hl]
      obtain ⟨env, h4, h3⟩ := bind_ok_iff.1 h3
      rw [derivedEnv_le H.types h4, ok_bind]
      exact h3

theorem structures_le {F : FloatOf} {σ τ σ' : PState} (H : σ.Le τ) {ts : List Tree} {as : List Action} {ds : List Derived}
    (h : structures F σ ts = .ok (as, ds, σ')) : ∃ τ', structures F τ ts = .ok (as, ds, τ') ∧ σ'.Le τ' := by
  induction ts generalizing σ τ as ds with
  | nil =>
    simp only [structures, pure_ok, Except.ok.injEq, Prod.mk.injEq] at h
    obtain ⟨rfl, rfl, rfl⟩ := h
    exact ⟨τ, rfl, H⟩
  | cons t ts ih =>
    unfold structures at h
    split at h
    · simp at *
    · rename_i k body l' heq
      injection heq with h1 h2
      subst h1 h2
      rw [structures]
      split at h
      · rename_i hk
        obtain ⟨⟨a, σ1⟩, ha, h⟩ := bind_ok_iff.1 h
        obtain ⟨⟨as', ds', σ2⟩, hs, h⟩ := bind_ok_iff.1 h
        simp only [pure_ok, Except.ok.injEq, Prod.mk.injEq] at h
        obtain ⟨rfl, rfl, rfl⟩ := h
        obtain ⟨τ1, ha', H1⟩ := actionDef_le H ha
        obtain ⟨τ', hs', H2⟩ := ih H1 hs
        refine ⟨τ', ?_, H2⟩
        rw [if_pos hk, ha', ok_bind]
        simp only [hs', ok_bind, pure_ok]
      · rename_i hk
        rw [if_neg hk]
        split at h
        · rename_i hk'
          obtain ⟨y, hy, h⟩ := bind_ok_iff.1 h
          obtain ⟨⟨as', ds', σ2⟩, hs, h⟩ := bind_ok_iff.1 h
          simp only [pure_ok, Except.ok.injEq, Prod.mk.injEq] at h
          obtain ⟨rfl, rfl, rfl⟩ := h
          obtain ⟨τ', hs', H2⟩ := ih H hs
          refine ⟨τ', ?_, H2⟩
          rw [if_pos hk', derivedDef_le H hy, ok_bind]
          simp only [hs', ok_bind, pure_ok]
        · simp at h
    · simp at h

theorem structures_append {F : FloatOf} {σ σ1 σ2 : PState} {ts us : List Tree} {as as' : List Action} {ds ds' : List Derived}
    (h : structures F σ ts = .ok (as, ds, σ1)) (h' : structures F σ1 us = .ok (as', ds', σ2)) :
    structures F σ (ts ++ us) = .ok (as ++ as', ds ++ ds', σ2) := by
  induction ts generalizing σ as ds with
  | nil =>
    simp only [structures, pure_ok, Except.ok.injEq, Prod.mk.injEq] at h
    obtain ⟨rfl, rfl, rfl⟩ := h
    exact h'
  | cons t ts ih =>
    unfold structures at h
    split at h
    · simp at *
    · rename_i k body l' heq
      injection heq with h1 h2
      subst h1 h2
      rw [List.cons_append, structures]
      split at h
      · rename_i hk
        obtain ⟨⟨a, σ3⟩, ha, h⟩ := bind_ok_iff.1 h
        obtain ⟨⟨as1, ds1, σ4⟩, hs, h⟩ := bind_ok_iff.1 h
        simp only [pure_ok, Except.ok.injEq, Prod.mk.injEq] at h
        obtain ⟨rfl, rfl, rfl⟩ := h
        rw [if_pos hk, ha, ok_bind]
        simp only [ih hs, ok_bind, pure_ok, List.cons_append]
      · rename_i hk
        rw [if_neg hk]
        split at h
        · rename_i hk'
          obtain ⟨y, hy, h⟩ := bind_ok_iff.1 h
          obtain ⟨⟨as1, ds1, σ4⟩, hs, h⟩ := bind_ok_iff.1 h
          simp only [pure_ok, Except.ok.injEq, Prod.mk.injEq] at h
          obtain ⟨rfl, rfl, rfl⟩ := h
          rw [if_pos hk', hy, ok_bind]
          simp only [ih hs, ok_bind, pure_ok, List.cons_append]
        · simp at h
    · simp at h

end Pddl
