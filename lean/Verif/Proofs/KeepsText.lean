/-
Whether the operands of a text are different does not depend on the types of parameters and constants.
-/
import Verif.Spec.Replace
import Verif.Proofs.Erase
import Verif.Proofs.TextSem

namespace Pddl
open Spec

/-! ### Without the types of constants -/

def untypedConst : Term → Term
  | .var v => .var v
  | .const n _ => .const n none

mutual
def constless : Expr → Expr
  | .nfun f => .nfun ⟨f.name, f.terms.map untypedConst⟩
  | .bfun o as => .bfun o (constlesss as)
  | e => e
def constlesss : List Expr → List Expr
  | [] => []
  | a :: as => constless a :: constlesss as
end

theorem constlesss_eq_map (as : List Expr) : constlesss as = as.map constless := by
  induction as with
  | nil => rfl
  | cons a as ih => simp [constlesss, ih]

theorem untypedConst_norm (t : Term) : (untypedConst t).norm = t.norm := by cases t <;> rfl

theorem constless_norm (e : Expr) : (constless e).norm = e.norm := by
  induction e using Expr.ind with
  | hnfun f =>
    simp only [constless, Expr.norm, List.map_map]
    congr 2
    exact funext untypedConst_norm
  | hbfun o as ih =>
    simp only [constless, Expr.norm, constlesss_eq_map, Expr.norms_eq_map, List.map_map]
    congr 1
    exact List.map_congr_left ih
  | _ => simp [constless]

theorem constless_construct {o : FOp} (args : List Expr) :
    construct (.fop o) (args.map constless) = constless (construct (.fop o) args) := by
  refine construct_map (U := fun _ => True) ?_ ?_ (fun _ _ _ _ _ _ => trivial) ?_ (fun _ _ => trivial)
  · intro e
    cases e <;> simp [constless, Expr.operandsIf, constlesss_eq_map]
  · intro as
    simp [Expr.ofCls, constless, constlesss_eq_map]
  · intro a b _ _
    rw [Bool.eq_iff_iff, Expr.pyEq_iff, Expr.pyEq_iff, constless_norm, constless_norm]

/-- The expression without types. -/
def bareNum (e : Expr) : Expr := constless (erase e)

theorem bareNum_construct {τ : Str → List Str} {o : FOp} {args : List Expr} (h : ∀ a ∈ args, Uniform τ a) :
    construct (.fop o) (args.map bareNum) = bareNum (construct (.fop o) args) := by
  have : args.map bareNum = (args.map erase).map constless := by rw [List.map_map]; rfl
  rw [this, constless_construct, erase_construct h]; rfl

theorem terms_text {E : GEnv} (hE : E.Plain) {F : FloatOf} {args : List Tree} {ts : List Term} (h : E.terms args = .ok ts) :
    (textEnv F).terms args = .ok ((ts.map eraseTerm).map untypedConst) := by
  induction args using GEnv.terms.induct generalizing ts with
  | case1 => simp [GEnv.terms] at h; subst h; simp [GEnv.terms]
  | case2 n args ih =>
    simp only [GEnv.terms, bind_ok_iff, pure_ok, Except.ok.injEq] at h
    obtain ⟨t, ht, r, hr, rfl⟩ := h
    obtain ⟨x, rfl⟩ := hE.constant _ _ ht
    have : (textEnv F).constant n = .ok (.const n none) := rfl
    simp [GEnv.terms, this, ih hr, eraseTerm, untypedConst]
  | case3 n args ih =>
    simp only [GEnv.terms, bind_ok_iff, pure_ok, Except.ok.injEq] at h
    obtain ⟨t, ht, r, hr, rfl⟩ := h
    obtain ⟨rfl, hv⟩ := variable_plain hE ht
    have : (textEnv F).variable n = .ok (.var ⟨n, []⟩) := variable_bare (E := textEnv F) hv
    simp [GEnv.terms, this, ih hr, eraseTerm, untypedConst]
  | case4 => simp [GEnv.terms] at h

theorem pairs_bare {R : Tree → Expr → Prop} {args : List Tree} {es : List Expr} (hl : args.length = es.length)
    (h : ∀ p ∈ args.zip es, R p.1 (bareNum p.2)) : args.length = (es.map bareNum).length ∧ ∀ p ∈ args.zip (es.map bareNum), R p.1 p.2 := by
  refine ⟨by simpa using hl, ?_⟩
  intro p hp
  rw [List.zip_map_right] at hp
  obtain ⟨q, hq, rfl⟩ := List.mem_map.1 hp
  exact h q hq

theorem FRel.text {E : GEnv} (hE : E.Plain) {t : Tree} {e : Expr} (h : FRel E t e) : FRel (textEnv E.float) t (bareNum e) := by
  induction h with
  | num h => exact .num h
  | @plus args es h2 hl hr ih =>
    rw [← bareNum_construct (τ := E.tagsOf) (AllFrom.pairs hl (fun p hp => (hr p hp).from) · · |>.uniform hE)]
    obtain ⟨h1, h3⟩ := pairs_bare hl ih
    exact .plus h2 h1 h3
  | @times args es h2 hl hr ih =>
    rw [← bareNum_construct (τ := E.tagsOf) (AllFrom.pairs hl (fun p hp => (hr p hp).from) · · |>.uniform hE)]
    obtain ⟨h1, h3⟩ := pairs_bare hl ih
    exact .times h2 h1 h3
  | divide r1 r2 h1 h2 =>
    rw [← bareNum_construct (τ := E.tagsOf) (by
      intro a ha; simp only [List.mem_cons, List.not_mem_nil, or_false] at ha
      rcases ha with rfl | rfl; exact r1.from.uniform hE; exact r2.from.uniform hE)]
    exact .divide h1 h2
  | minus r1 h1 =>
    rw [← bareNum_construct (τ := E.tagsOf) (by
      intro a ha; simp only [List.mem_cons, List.not_mem_nil, or_false] at ha
      rcases ha with rfl; exact r1.from.uniform hE)]
    exact .minus h1
  | fn0 h => obtain ⟨h1, rfl⟩ := mkNFun_ok.1 h; exact .fn0 (mkNFun_ok.2 ⟨h1, rfl⟩)
  | fn h h' =>
    obtain ⟨h1, rfl⟩ := mkNFun_ok.1 h'
    exact .fn (terms_text hE h) (mkNFun_ok.2 ⟨h1, rfl⟩)

/-! ### Operands -/

theorem leaves_bare {o : FOp} (e : Expr) : leaves (.fop o) (bareNum e) = (leaves (.fop o) e).map bareNum := by
  have hl : ∀ as : List Expr, (∀ a ∈ as, leaves (.fop o) (bareNum a) = (leaves (.fop o) a).map bareNum) →
      leavesAll (.fop o) (as.map bareNum) = (leavesAll (.fop o) as).map bareNum := by
    intro as h
    induction as with
    | nil => rfl
    | cons a as ih =>
      simp only [List.map_cons, leavesAll, List.map_append]
      rw [h a (by simp), ih (fun a ha => h a (by simp [ha]))]
  induction e using Expr.ind with
  | hbfun o' as ih =>
    have e1 : bareNum (.bfun o' as) = .bfun o' (as.map bareNum) := by
      simp only [bareNum, erase, constless, constlesss_eq_map, erases_eq_map, List.map_map]; rfl
    rw [e1, leaves, leaves]
    split
    · exact hl as ih
    · simp [e1]
  | hbin o' as ih => simp [bareNum, erase, constless, leaves]
  | _ => simp [bareNum, erase, constless, leaves]

theorem leavesAll_bare {o : FOp} (as : List Expr) : leavesAll (.fop o) (as.map bareNum) = (leavesAll (.fop o) as).map bareNum := by
  induction as with
  | nil => rfl
  | cons a as ih => simp only [List.map_cons, leavesAll, List.map_append, leaves_bare, ih]

theorem leaves_from {E : GEnv} {c : Cls} {as : List Expr} (h : ∀ a ∈ as, AllFrom E a) : ∀ a ∈ leavesAll c as, AllFrom E a := by
  intro a ha x hx
  have : x ∈ atomsAll (leavesAll c as) := mem_atomsAll.2 ⟨a, ha, hx⟩
  rw [leaves_eq, atomsAll_flatten] at this
  obtain ⟨b, hb, hx⟩ := mem_atomsAll.1 this
  exact h b hb x hx

theorem distinct_bare {E : GEnv} (hE : E.Plain) {as : List Expr} (h : ∀ a ∈ as, AllFrom E a) (hd : Distinct (as.map bareNum)) :
    Distinct as := by
  unfold Distinct at *
  rw [List.pairwise_map] at hd
  refine hd.imp_of_mem ?_
  intro a b ha hb hab
  rw [← Bool.not_eq_true, Expr.pyEq_iff] at hab ⊢
  intro he
  refine hab ?_
  rw [bareNum, bareNum, constless_norm, constless_norm]
  exact (erase_iff ((h a ha).uniform hE) ((h b hb).uniform hE)).2 he

theorem fExps_text {E : GEnv} (hE : E.Plain) {args : List Tree} {es : List Expr} (h : E.fExps args = .ok es) :
    (textEnv E.float).fExps args = .ok (es.map bareNum) ∧ ∀ e ∈ es, AllFrom E e := by
  obtain ⟨hl, h⟩ := fExps_ok.1 h
  refine ⟨fExps_ok.2 (pairs_bare (R := fun t e => (textEnv E.float).fExp t = .ok e) hl (fun p hp => fExp_iff.2 ((fExp_rel (h p hp)).text hE))), ?_⟩
  exact AllFrom.pairs hl (fun p hp => (fExp_rel (h p hp)).from)

/-- When the operands of the text are different without types, they are different as the parser reads them. -/
theorem Spec.KeepsOperands.inEnv {E : GEnv} (hE : E.Plain) {t : Tree} (h : KeepsOperands (textEnv E.float) t) : KeepsOperands E t where
  plus args es hi he := by
    obtain ⟨h1, h2⟩ := fExps_text hE he
    have := h.plus args _ hi h1
    rw [leavesAll_bare] at this
    exact distinct_bare hE (leaves_from h2) this
  times args es hi he := by
    obtain ⟨h1, h2⟩ := fExps_text hE he
    have := h.times args _ hi h1
    rw [leavesAll_bare] at this
    exact distinct_bare hE (leaves_from h2) this
  divide args es hi he := by
    obtain ⟨h1, h2⟩ := fExps_text hE he
    obtain ⟨h3, h4⟩ := h.divide args _ hi h1
    refine ⟨distinct_bare hE h2 h3, ?_⟩
    rintro e he as rfl
    exact h4 _ (List.mem_map.2 ⟨_, he, rfl⟩) (as.map bareNum) (by
      simp only [bareNum, erase, constless, constlesss_eq_map, erases_eq_map, List.map_map]; rfl)
  eq args es hi ht he := by
    obtain ⟨h1, h2⟩ := fExps_text hE he
    exact distinct_bare hE h2 (h.eq args _ hi ht h1)

/-- The parameters the parser remembers are variables. -/
def ParamsOk (σ : PState) : Prop := ∀ p ∈ σ.params, ∃ v : Var, p = (v.name, .var v) ∧ ValidName v.name

theorem params_env {σ : PState} (hc : ConstsOk σ) (hp : ParamsOk σ) (F : FloatOf) : ParserEnv (σ.env F) :=
  env_ok hc (fun p h => by obtain ⟨v, hv, _⟩ := hp p h; exact ⟨v, hv⟩) F

theorem env_plain {σ : PState} (hc : ConstsOk σ) (hp : ParamsOk σ) (F : FloatOf) :
    (σ.env F).Plain where
  constant n t h := constant_const hc n t h
  params n t h := by
    obtain ⟨v, hv, hn⟩ := hp _ (mem_of_dictGet h)
    injection hv with h1 h2
    subst h1
    exact ⟨v.tags, h2, hn⟩

theorem mkVars_valid {l : List (Str × List Str)} : ∀ {vs : List Var}, mkVars l = .ok vs → ∀ v ∈ vs, ValidName v.name := by
  induction l with
  | nil => intro vs h; simp only [mkVars, pure_ok, Except.ok.injEq] at h; subst h; simp
  | cons p l ih =>
    intro vs h
    simp only [mkVars] at h
    obtain ⟨v, hv, h⟩ := bind_ok_iff.1 h
    obtain ⟨vs', hvs, h⟩ := bind_ok_iff.1 h
    simp only [pure_ok, Except.ok.injEq] at h
    subst h
    obtain ⟨h1, _, rfl⟩ := mkVar_set_ok.1 hv
    intro v hv
    rcases List.mem_cons.1 hv with rfl | hv
    · exact h1
    · exact ih hvs v hv

theorem actionParameters_vars {ps : List Tree} {params : List (Str × Term)} (h : actionParameters ps = .ok params) :
    ∀ p ∈ params, ∃ v : Var, p = (v.name, .var v) ∧ ValidName v.name := by
  obtain ⟨vs, hvs, h⟩ := bind_ok_iff.1 h
  simp only [pure_ok, Except.ok.injEq] at h
  intro p hp
  rw [← h] at hp
  have := dictOf_mem hp
  simp only [List.mem_map] at this
  obtain ⟨v, hv, rfl⟩ := this
  refine ⟨v, rfl, ?_⟩
  unfold parseTypedVars at hvs
  split at hvs
  · obtain ⟨l, _, hvs⟩ := bind_ok_iff.1 hvs
    exact mkVars_valid hvs v hv
  · cases hvs

end Pddl
