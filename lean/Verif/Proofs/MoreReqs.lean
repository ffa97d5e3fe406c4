/-
Parsing with more requirements.
-/
import Verif.Proofs.DomainReread
import Verif.Proofs.GrammarSound

namespace Pddl
open Spec Spec.Grammar

variable {F : FloatOf}

/-- The environment with other requirements. -/
def GEnv.withExt (E : GEnv) (x : List Req) : GEnv := { E with ext := x }

variable {E : GEnv} {x : List Req}

theorem hasAny_mono (h : ∀ r ∈ E.ext, r ∈ x) {rs : List Req} (ha : E.hasAny rs = true) : (E.withExt x).hasAny rs = true := by
  unfold GEnv.hasAny at *
  simp only [List.any_eq_true, decide_eq_true_eq] at *
  obtain ⟨r, h1, h2⟩ := ha
  exact ⟨r, h1, h r h2⟩

theorem terms_ext (args : List Tree) : (E.withExt x).terms args = E.terms args := by
  fun_induction GEnv.terms E args with
  | case1 => rfl
  | case2 n ts ih =>
    rw [GEnv.terms, ih]; rfl
  | case3 n ts ih =>
    rw [GEnv.terms, ih]; rfl
  | case4 l h1 h2 h3 =>
    rw [GEnv.terms]
    all_goals assumption

theorem FRel.ext {t : Tree} {e : Expr} (h : FRel E t e) : FRel (E.withExt x) t e := by
  induction h with
  | num h => exact .num h
  | plus h1 h2 _ ih => exact .plus h1 h2 ih
  | times h1 h2 _ ih => exact .times h1 h2 ih
  | divide _ _ ih1 ih2 => exact .divide ih1 ih2
  | minus _ ih => exact .minus ih
  | fn0 h => exact .fn0 h
  | fn h1 h2 => exact .fn (by rw [terms_ext]; exact h1) h2

theorem fExp_ext {t : Tree} {e : Expr} (h : E.fExp t = .ok e) : (E.withExt x).fExp t = .ok e :=
  fExp_iff.2 (fExp_iff.1 h).ext

variable (hx : ∀ r ∈ E.ext, r ∈ x)
include hx

theorem GRel.more {t : Tree} {e : Expr} (h : GRel E t e) : GRel (E.withExt x) t e := by
  induction h with
  | and h _ ih => exact .and h ih
  | or h _ h2 ih => exact .or h ih (hasAny_mono hx h2)
  | not _ ih => exact .not ih
  | imply _ _ h ih1 ih2 => exact .imply ih1 ih2 (hasAny_mono hx h)
  | quant h1 h2 _ h4 h5 ih => exact .quant h1 h2 ih (hasAny_mono hx h4) h5
  | atom h1 h2 h3 => exact .atom h1 (by rw [terms_ext]; exact h2) h3
  | eq h1 h2 h3 h4 => exact .eq h1 (by rw [terms_ext]; exact h2) (hasAny_mono hx h3) h4
  | comp h1 h2 h3 h4 => exact .comp h1 h2 (fExp_ext h3) (fExp_ext h4)

theorem atomic_more {l : List Tree} {e : Expr} (h : E.atomic l = .ok e) : (E.withExt x).atomic l = .ok e := by
  unfold GEnv.atomic at h
  split at h
  · rename_i args
    obtain ⟨l, r, h1, h2, h3⟩ := atomic_eq_ok.1 (show E.atomic (.atom .eq :: args) = .ok e from h)
    exact atomic_eq_ok.2 ⟨l, r, by rw [terms_ext]; exact h1, hasAny_mono hx h2, h3⟩
  · rename_i n args
    obtain ⟨ts, p, h1, h2, h3⟩ := atomic_name_ok.1 (show E.atomic (.atom (.name n) :: args) = .ok e from h)
    exact atomic_name_ok.2 ⟨ts, p, by rw [terms_ext]; exact h1, h2, h3⟩
  · simp at h

omit hx in
theorem fHead_ext {t : Tree} {f : NFun} (h : E.fHead t = .ok f) : (E.withExt x).fHead t = .ok f := by
  unfold GEnv.fHead at *
  split at h
  · exact h
  · rw [terms_ext]; exact h
  · simp at h

theorem PRel.more {t : Tree} {e : Expr} (h : PRel E t e) : PRel (E.withExt x) t e := by
  cases h with
  | not h => exact .not (atomic_more hx h)
  | assign h1 h2 h3 => exact .assign h1 (fHead_ext h2) (fExp_ext h3)
  | atom h1 h2 h3 => exact .atom h1 h2 (atomic_more hx h3)
  | eq h => exact .eq (atomic_more hx h)

theorem CRel.more {t : Tree} {e : Expr} (h : CRel E t e) : CRel (E.withExt x) t e := by
  cases h with
  | and h => exact .and (h.imp (fun p _ hp => PRel.more hx hp))
  | one h1 h2 => exact .one h1 (PRel.more hx h2)

theorem ERel.more {top : Bool} {t : Tree} {e : Expr} (h : ERel E top t e) : ERel (E.withExt x) top t e := by
  induction h with
  | and h _ ih => exact .and h ih
  | fall h1 h2 _ h4 ih => exact .fall h1 h2 ih h4
  | when h1 h2 => exact .when (gd_iff.2 ((gd_iff.1 h1).more hx)) (condEffect_iff.2 ((condEffect_iff.1 h2).more hx))
  | oneof h1 h2 _ h4 ih => exact .oneof h1 h2 ih (hasAny_mono hx h4)
  | lit h1 h2 => exact .lit h1 (pEffect_iff.2 ((pEffect_iff.1 h2).more hx))

theorem preGd_more {t : Tree} {e : Expr} (h : E.preGd t = .ok e) : (E.withExt x).preGd t = .ok e := by
  unfold GEnv.preGd at *
  split at h
  · exact h
  · exact gd_iff.2 ((gd_iff.1 h).more hx)

theorem effOpt_more {t : Tree} {e : Expr} (h : E.effOpt t = .ok e) : (E.withExt x).effOpt t = .ok e := by
  unfold GEnv.effOpt at *
  split at h
  · exact h
  · exact effect_iff.2 ((effect_iff.1 h).more hx)

omit hx

/-- The same state with more requirements in force. -/
def PState.withExt (σ : PState) (x : List Req) : PState := { σ with ext := x }

theorem actionDef_more {σ σ' : PState} (hx : ∀ r ∈ σ.ext, r ∈ x) {body : List Tree} {a : Action}
    (h : actionDef F σ body = .ok (a, σ')) : actionDef F (σ.withExt x) body = .ok (a, σ'.withExt x) := by
  obtain ⟨n, ps, t, t', params, p, e, rfl, h1, rfl, h2, h3, h4⟩ := actionDef_ok h
  have h2' := preGd_more (E := ({ σ with params := params } : PState).env F) (x := x) hx h2
  have h3' := effOpt_more (E := ({ σ with params := params } : PState).env F) (x := x) hx h3
  have he : (({ σ with params := params } : PState).env F).withExt x = ({ (σ.withExt x) with params := params } : PState).env F := rfl
  rw [he] at h2' h3'
  simp [actionDef, actionPre, actionEff, check, h1, h2', h3', h4]
  rfl

theorem derivedDef_more {σ : PState} (hx : ∀ r ∈ σ.ext, r ∈ x) {body : List Tree} {d : Derived}
    (h : derivedDef F σ body = .ok d) : derivedDef F (σ.withExt x) body = .ok d := by
  obtain ⟨t, c, head, cond, rfl, h1, h2, h3⟩ := derivedDef_ok h
  have h2' : ((σ.withExt x).env F).gd c = .ok cond := gd_iff.2 ((gd_iff.1 h2).more (E := σ.env F) (x := x) hx)
  simp only [derivedDef, h1, h2', ok_bind]
  exact h3

theorem structures_more {σ σ' : PState} (hx : ∀ r ∈ σ.ext, r ∈ x) {ts : List Tree} {as : List Action} {ds : List Derived}
    (h : structures F σ ts = .ok (as, ds, σ')) : structures F (σ.withExt x) ts = .ok (as, ds, σ'.withExt x) := by
  induction ts generalizing σ as ds with
  | nil =>
    simp only [structures, pure_ok, Except.ok.injEq, Prod.mk.injEq] at h ⊢
    obtain ⟨rfl, rfl, rfl⟩ := h
    exact ⟨rfl, rfl, rfl⟩
  | cons t ts ih =>
    unfold structures at h
    split at h
    · simp at *
    · rename_i k body l' heq
      injection heq with h1 h2
      subst h1 h2
      rw [structures]
      split at h
      · rename_i hk
        obtain ⟨⟨a, σ1⟩, ha, h⟩ := bind_ok_iff.1 h
        obtain ⟨⟨as', ds', σ2⟩, hs, h⟩ := bind_ok_iff.1 h
        simp only [pure_ok, Except.ok.injEq, Prod.mk.injEq] at h
        obtain ⟨rfl, rfl, rfl⟩ := h
        have hx1 : ∀ r ∈ σ1.ext, r ∈ x := by
          obtain ⟨_, _, _, _, _, _, _, _, _, rfl, _⟩ := actionDef_ok ha
          exact hx
        rw [if_pos hk, actionDef_more hx ha, ok_bind]
        simp only [ih hx1 hs, ok_bind, pure_ok]
      · rename_i hk
        rw [if_neg hk]
        split at h
        · rename_i hk'
          obtain ⟨y, hy, h⟩ := bind_ok_iff.1 h
          obtain ⟨⟨as', ds', σ2⟩, hs, h⟩ := bind_ok_iff.1 h
          simp only [pure_ok, Except.ok.injEq, Prod.mk.injEq] at h
          obtain ⟨rfl, rfl, rfl⟩ := h
          rw [if_pos hk', derivedDef_more hx hy, ok_bind]
          simp only [ih hx hs, ok_bind, pure_ok]
        · simp at h
    · simp at h

theorem sectionTypes_more {σ σ' : PState} (hx : ∀ r ∈ σ.ext, r ∈ x) {b : List Tree} {d : TypeDict}
    (h : sectionTypes σ b = .ok (d, σ')) : sectionTypes (σ.withExt x) b = .ok (d, σ'.withExt x) := by
  unfold sectionTypes at *
  obtain ⟨l, h1, h⟩ := bind_ok_iff.1 h
  obtain ⟨_, h2, h⟩ := bind_ok_iff.1 h
  obtain ⟨_, h3, h⟩ := bind_ok_iff.1 h
  simp only [pure_ok, Except.ok.injEq, Prod.mk.injEq] at h
  obtain ⟨rfl, rfl⟩ := h
  rw [check_ok] at h2
  have h2' : (!(l.any (fun p => p.2.isSome) && !decide (Req.typing ∈ (σ.withExt x).ext))) = true := by
    by_cases hl : l.any (fun p => p.2.isSome) = true
    · simp only [hl, Bool.true_and, Bool.not_not, decide_eq_true_eq] at h2 ⊢
      exact hx _ h2
    · simp [hl]
  have h3' : check (σ.withExt x).types.isNone .assertion = .ok () := h3
  have h2'' : check (!(l.any (fun p => p.2.isSome) && !decide (Req.typing ∈ (σ.withExt x).ext))) .missingReq = .ok () :=
    check_ok.2 h2'
  simp only [h1, ok_bind, h2'', h3', pure_ok]
  rfl

theorem sectionConstants_more {σ σ' : PState} {b : List Tree} {d : List Term}
    (h : sectionConstants σ b = .ok (d, σ')) : sectionConstants (σ.withExt x) b = .ok (d, σ'.withExt x) := by
  unfold sectionConstants at *
  obtain ⟨l, h1, h⟩ := bind_ok_iff.1 h
  obtain ⟨cs, h2, h⟩ := bind_ok_iff.1 h
  simp only [pure_ok, Except.ok.injEq, Prod.mk.injEq] at h
  obtain ⟨rfl, rfl⟩ := h
  simp [h1, h2]
  rfl

theorem sectionPredicates_more {σ σ' : PState} {b : List Tree} {d : List Pred}
    (h : sectionPredicates σ b = .ok (d, σ')) : sectionPredicates (σ.withExt x) b = .ok (d, σ'.withExt x) := by
  unfold sectionPredicates at *
  obtain ⟨l, h1, h⟩ := bind_ok_iff.1 h
  obtain ⟨_, h2, h⟩ := bind_ok_iff.1 h
  simp only [pure_ok, Except.ok.injEq, Prod.mk.injEq] at h
  obtain ⟨rfl, rfl⟩ := h
  simp only [h1, h2, ok_bind, pure_ok]
  rfl

/-! ### The constructor -/

theorem wellTypedTerm_more {D : Str → Prop} {rs rs' : List Req} (h : ∀ r ∈ rs, r ∈ rs') {t : Term}
    (ht : WellTypedTerm D rs t) : WellTypedTerm D rs' t :=
  ⟨ht.1, fun hn => (ht.2 hn).imp (h _) (h _)⟩

theorem mkDomain_more {a : DomainArgs} {d : Domain} (ht : IsDict a.types) {rs : List Req} (h : ∀ r ∈ a.reqs, r ∈ rs)
    (hd : mkDomain a = .ok d) : mkDomain { a with reqs := rs } = .ok { d with reqs := reqSet rs } := by
  obtain ⟨h1, h2, h3, ⟨h4, h4'⟩, h5, h6, h7, h8, rfl⟩ := (mkDomain_ok ht).1 hd
  refine (mkDomain_ok (a := { a with reqs := rs }) ht).2 ⟨h1, h2, ⟨fun hp => h _ (h3.typing hp), h3.object, h3.acyclic⟩,
    ⟨fun hp => h _ (h4 hp), fun hp => (h4' hp).imp (h _) (h _)⟩, ?_, ?_, ?_, h8, rfl⟩
  · exact fun t ht => wellTypedTerm_more h (h5 t ht)
  · exact fun p hp t ht => wellTypedTerm_more h (h6 p hp t ht)
  · exact fun y hy => ⟨(h7 y hy).1, (h7 y hy).2.1, fun t ht => wellTypedTerm_more h ((h7 y hy).2.2 t ht)⟩

theorem requireKey_of {t : Tree} (h : Requirements [t]) : ∃ r, requireKey t = some r := by
  obtain ⟨k, hk, rfl⟩ := h.2 t (by simp)
  have : (requireKey (.atom (.kw k))).isSome = true := by
    clear h
    revert k
    decide +kernel
  exact Option.isSome_iff_exists.1 this

theorem parseRequirements_of {b : List Tree} (h : Requirements b) : ∃ rs, parseRequirements b = .ok rs := by
  have hm : ∀ l : List Tree, (∀ t ∈ l, Requirements [t]) → ∃ rs, l.mapM requireKey = some rs := by
    intro l hl
    induction l with
    | nil => exact ⟨[], rfl⟩
    | cons t l ih =>
      obtain ⟨r, hr⟩ := requireKey_of (hl t (by simp))
      obtain ⟨rs, hrs⟩ := ih (fun t ht => hl t (by simp [ht]))
      exact ⟨r :: rs, by simp [hr, hrs]⟩
  obtain ⟨rs, hrs⟩ := hm b (fun t ht => ⟨by simp, by simpa using h.2 t ht⟩)
  refine ⟨reqSet rs, ?_⟩
  cases b with
  | nil => exact absurd rfl h.1
  | cons t l => simp only [parseRequirements, hrs]; rfl

theorem parseRequirements_set {b : List Tree} {rs : List Req} (h : parseRequirements b = .ok rs) : reqSet rs = rs := by
  unfold parseRequirements at h
  split at h
  · simp at h
  · split at h
    · simp only [pure_ok, Except.ok.injEq] at h
      subst h
      exact dedupBy_eq_self (dedupBy_pairwise _)
    · simp at h

theorem extend_mono {rs rs' : List Req} (h : ∀ r ∈ rs, r ∈ rs') : ∀ r ∈ extendReqs rs, r ∈ extendReqs rs' := by
  intro r
  rw [mem_extendReqs, mem_extendReqs]
  unfold InForce
  rintro (h1 | ⟨h1, h2⟩ | ⟨h1, h2⟩ | ⟨h1, h2⟩)
  · exact .inl (h _ h1)
  · exact .inr (.inl ⟨h _ h1, h2⟩)
  · exact .inr (.inr (.inl ⟨h _ h1, h2⟩))
  · exact .inr (.inr (.inr ⟨h _ h1, h2⟩))

/-- A domain parsed with more requirements. -/
theorem DomainParse.more {σ : PState} {ts ts' : List Tree} {d : Domain} {σ' : PState} (P : DomainParse F σ ts d σ')
    (hw : ∀ w, Inside (.atom (.name w)) (.node ts) → nameRegex w = true)
    {b : List Tree} {rs : List Req} (hb : parseRequirements b = .ok rs) (hsub : ∀ r ∈ P.rs, r ∈ rs)
    (hσ : P.r1 = none → σ.ext = [])
    (hts : header s%"domain" ts' = .ok (P.n, section_ s%"requirements" b :: P.ts1)) :
    ∃ σ'', domainDef F σ ts' = .ok ({ d with reqs := rs }, σ'') := by
  obtain ⟨hT, _⟩ := Props.DomainParse.types_ok P hw
  have hset : reqSet rs = rs := parseRequirements_set hb
  have hext : ∀ r ∈ P.σ1.ext, r ∈ extendReqs rs := by
    rcases P.hreqs with ⟨h1, h2, h3⟩ | ⟨_, _, _, h3⟩
    · rw [h3, hσ h1]; simp
    · rw [h3]; exact extend_mono hsub
  have e1 : P.σ1.withExt (extendReqs rs) = { σ with ext := extendReqs rs } := by
    rcases P.hreqs with ⟨_, _, h3⟩ | ⟨_, _, _, h3⟩ <;> rw [h3] <;> rfl
  have h2 : P.σ2.ext = P.σ1.ext := by
    rcases P.htypes with ⟨_, _, h⟩ | ⟨_, _, h⟩
    · rw [h]
    · rw [sectionTypes_state h]
  have h3 : P.σ3.ext = P.σ2.ext := by
    rcases P.hconsts with ⟨_, _, h⟩ | ⟨_, _, h⟩
    · rw [h]
    · obtain ⟨_, h⟩ := sectionConstants_state h
      rw [h]
  have h4 : P.σ4.ext = P.σ3.ext := by
    rcases P.hpreds with ⟨_, _, h⟩ | ⟨_, _, h⟩
    · rw [h]
    · obtain ⟨_, h⟩ := sectionPredicates_state h
      rw [h]
  have hd := mkDomain_more (a := ⟨P.n, P.rs, P.types, P.consts, P.preds, P.funs, P.ds, P.as⟩) hT hsub P.hdomain
  rw [hset] at hd
  let Q : DomainParse F σ ts' { d with reqs := rs } { P.σ5.withExt (extendReqs rs) with types := none } :=
    { n := P.n, ts0 := section_ s%"requirements" b :: P.ts1, hheader := hts, r1 := some b, ts1 := P.ts1
      h1 := by simp [takeSection, section_]
      rs := rs, σ1 := P.σ1.withExt (extendReqs rs), hreqs := .inr ⟨b, rfl, hb, e1⟩
      r2 := P.r2, ts2 := P.ts2, h2 := P.h2, types := P.types, σ2 := P.σ2.withExt (extendReqs rs)
      htypes := by
        rcases P.htypes with ⟨h, h', h''⟩ | ⟨c, h, h'⟩
        · exact .inl ⟨h, h', by rw [h'']⟩
        · exact .inr ⟨c, h, sectionTypes_more hext h'⟩
      r3 := P.r3, ts3 := P.ts3, h3 := P.h3, consts := P.consts, σ3 := P.σ3.withExt (extendReqs rs)
      hconsts := by
        rcases P.hconsts with ⟨h, h', h''⟩ | ⟨c, h, h'⟩
        · exact .inl ⟨h, h', by rw [h'']⟩
        · exact .inr ⟨c, h, sectionConstants_more h'⟩
      r4 := P.r4, ts4 := P.ts4, h4 := P.h4, preds := P.preds, σ4 := P.σ4.withExt (extendReqs rs)
      hpreds := by
        rcases P.hpreds with ⟨h, h', h''⟩ | ⟨c, h, h'⟩
        · exact .inl ⟨h, h', by rw [h'']⟩
        · exact .inr ⟨c, h, sectionPredicates_more h'⟩
      r5 := P.r5, ts5 := P.ts5, h5 := P.h5, funs := P.funs, hfuns := P.hfuns
      as := P.as, ds := P.ds, σ5 := P.σ5.withExt (extendReqs rs)
      hstruct := structures_more (by rw [h4, h3, h2]; exact hext) P.hstruct
      hdomain := hd, hσ' := rfl }
  exact ⟨_, Q.run⟩

end Pddl
