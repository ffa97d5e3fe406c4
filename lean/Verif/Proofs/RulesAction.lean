/-
Actions obey the rules.
-/
import Verif.Proofs.RulesForm
import Verif.Proofs.RearrangedDomain

namespace Pddl.Rules
open Spec Spec.Rules Spec.Grammar

/-! ### Well-typed terms -/

theorem wellTyped_iff {D : Decls} {t : Term} : WellTypedTerm (Declared D.types) D.reqs t ↔ ∀ x ∈ t.tags, D.typeOk x := by
  constructor
  · rintro ⟨h1, h2⟩ x hx
    exact ⟨h1 x hx, h2 (List.ne_nil_of_mem hx)⟩
  · intro h
    refine ⟨fun x hx => (h x hx).1, fun hne => ?_⟩
    obtain ⟨x, hx⟩ := List.exists_mem_of_ne_nil _ hne
    exact (h x hx).2

/-! ### The state -/

/-- The terms of a declared predicate. -/
def PredIn (p : Pred) (dl : List (Str × List Str)) : Prop :=
  List.Forall₂ (fun t d => ∃ v : Var, t = .var v ∧ v.name = d.1 ∧ SameTypes v.tags d.2 ∧ TagsOk v.tags) p.terms dl

/-- The state of the parser after the declarations, in or after an action with these parameters. -/
structure StateIn (D : Decls) (ps : List (Str × List Str)) (σ : PState) : Prop where
  ext : ∀ r, r ∈ σ.ext ↔ InForce D.reqs r
  const : ∀ n t, dictGet σ.consts n = some t ↔ ∃ tag, t = .const n tag ∧ (n, tag) ∈ D.consts
  pred : ∀ n, Option.Rel PredIn (dictGet σ.preds n) (D.preds.reverse.lookup n)
  types : (σ.types = none ∧ D.types = []) ∨ σ.types = some D.types
  dict : IsDict D.types
  param : ∀ n t, dictGet σ.params n = some t → ∃ v types, t = .var v ∧ v.name = n ∧ ValidName n ∧ TagsOk v.tags ∧
    (n, types) ∈ ps ∧ SameTypes v.tags types
  noParam : ∀ n, dictGet σ.params n = none → ∀ p ∈ ps, p.1 ≠ n
  paramFn : ∀ p ∈ ps, ∀ q ∈ ps, p.1 = q.1 → SameTypes p.2 q.2
  constOk : ∀ p ∈ D.consts, ∀ t, p.2 = some t → D.typeOk t
  predOk : ∀ p ∈ D.preds, ∀ q ∈ p.2, ∀ t ∈ q.2, D.typeOk t

theorem StateIn.env {D : Decls} {ps : List (Str × List Str)} {σ : PState} (h : StateIn D ps σ) (F : FloatOf) (ok : Str → Prop) :
    EnvIn ⟨F, D.reqs, D.consts, ps, ok⟩ (σ.env F) where
  float := rfl
  ext := h.ext
  const := by
    intro n t
    show σ.constant n = .ok t ↔ _
    unfold PState.constant
    rw [← h.const n t]
    cases dictGet σ.consts n <;> simp
  typed := rfl
  param := h.param
  noParam := h.noParam
  paramFn := h.paramFn

/-- The parameters of an action as the parser keeps them. -/
theorem params_built {tl : TypedList} (hok : tl.Ok) (hc : Compatible tl.itemsOf) :
    (∀ n t, dictGet (dictOf ((builtVars tl).map (fun v => (v.name, Term.var v)))) n = some t →
      ∃ v types, t = .var v ∧ v.name = n ∧ ValidName n ∧ TagsOk v.tags ∧ (n, types) ∈ tl.vars ∧ SameTypes v.tags types) ∧
    ∀ n, dictGet (dictOf ((builtVars tl).map (fun v => (v.name, Term.var v)))) n = none → ∀ p ∈ tl.vars, p.1 ≠ n := by
  constructor
  · intro n t h
    obtain ⟨v, hv, e⟩ := List.mem_map.1 (dictOf_mem (mem_of_dictGet h))
    simp only [Prod.mk.injEq] at e
    obtain ⟨rfl, rfl⟩ := e
    have h1 := (built_ok hok hc).1 v hv
    obtain ⟨p, hp, rfl⟩ := List.mem_map.1 hv
    exact ⟨_, p.2, rfl, rfl, h1.1, h1.2, hp, fun x => dd_mem⟩
  · intro n h p hp e
    obtain ⟨v, hv⟩ := dictGet_of_key (d := dictOf ((builtVars tl).map (fun v => (v.name, Term.var v)))) (k := n)
      ((dictOf_keys _).2.2 n (by
        rw [List.map_map]
        exact List.mem_map.2 ⟨⟨p.1, dd p.2⟩, List.mem_map.2 ⟨p, hp, rfl⟩, e⟩))
    rw [h] at hv
    cases hv

theorem StateIn.withParams {D : Decls} {ps : List (Str × List Str)} {σ : PState} (h : StateIn D ps σ) {tl : TypedList}
    (hok : tl.Ok) (hc : Compatible tl.itemsOf) :
    StateIn D tl.vars { σ with params := dictOf ((builtVars tl).map (fun v => (v.name, Term.var v))) } :=
  ⟨h.ext, h.const, h.pred, h.types, h.dict, (params_built hok hc).1, (params_built hok hc).2,
    fun p hp q hq e => compatible_vars hc hp hq e, h.constOk, h.predOk⟩

/-! ### Actions -/

/-- The action has declared types. -/
structure ATyped (D : Decls) (a : Action) : Prop where
  pre : ∃ e, a.pre = some e ∧ BindersOk D.typeOk e
  eff : ∃ e, a.eff = some e ∧ BindersOk D.typeOk e
  params : ∀ t ∈ a.params, ∀ x ∈ t.tags, D.typeOk x

/-- The terms of its atoms are from the declarations and the parameters. -/
def AFrom (D : Decls) (a : Action) : Prop :=
  (∀ t ∈ a.params, ∃ v, t = .var v) ∧
  ∀ e, (a.pre = some e ∨ a.eff = some e) → ∀ x ∈ atoms e, ∀ t ∈ x.2,
    (∃ n tag, t = .const n tag ∧ (n, tag) ∈ D.consts) ∨ t.tags = [] ∨ t ∈ a.params

theorem binder_term {e : Expr} {v : Var} (h : v ∈ binders e) : Term.var v ∈ terms e := by
  induction e using Expr.ind with
  | hbfun o as ih =>
    obtain ⟨a, ha, h⟩ := mem_bindersAll.1 h
    exact mem_termsAll.2 ⟨a, ha, ih a ha h⟩
  | hbin o as ih =>
    obtain ⟨a, ha, h⟩ := mem_bindersAll.1 h
    exact mem_termsAll.2 ⟨a, ha, ih a ha h⟩
  | hnot a ih => exact ih h
  | hquant q vs c ih =>
    simp only [binders, List.mem_append] at h
    simp only [terms, List.mem_append, List.mem_map]
    exact h.imp (fun h => ⟨v, h, rfl⟩) ih
  | hwhen c e ih1 ih2 =>
    simp only [binders, List.mem_append] at h
    simp only [terms, List.mem_append]
    exact h.imp ih1 ih2
  | hfall vs c ih =>
    simp only [binders, List.mem_append] at h
    simp only [terms, List.mem_append, List.mem_map]
    exact h.imp (fun h => ⟨v, h, rfl⟩) ih
  | _ => simp [binders] at h

theorem typed_iff {D : Decls} {a : Action} (hc : ∀ p ∈ D.consts, ∀ t, p.2 = some t → D.typeOk t) (h : AFrom D a) :
    (a.pre ≠ none ∧ a.eff ≠ none ∧ WellTypedAction (Declared D.types) D.reqs a) ↔ ATyped D a := by
  constructor
  · rintro ⟨h1, h2, h3⟩
    obtain ⟨p, hp⟩ := Option.ne_none_iff_exists'.1 h1
    obtain ⟨e, he⟩ := Option.ne_none_iff_exists'.1 h2
    have hb : ∀ x, (a.pre = some x ∨ a.eff = some x) → BindersOk D.typeOk x := by
      intro x hx v hv
      have : Term.var v ∈ terms x := binder_term hv
      refine wellTyped_iff.1 (h3 (.var v) ?_)
      rcases hx with hx | hx
      · simp [hx, termsOpt, this]
      · simp [hx, termsOpt, this]
    exact ⟨⟨p, hp, hb p (.inl hp)⟩, ⟨e, he, hb e (.inr he)⟩, fun t ht => wellTyped_iff.1 (h3 t (by simp [ht]))⟩
  · rintro ⟨⟨p, hp, hpb⟩, ⟨e, he, heb⟩, h3⟩
    refine ⟨by rw [hp]; simp, by rw [he]; simp, ?_⟩
    have hb : ∀ x, (a.pre = some x ∨ a.eff = some x) → BindersOk D.typeOk x → ∀ t ∈ terms x,
        WellTypedTerm (Declared D.types) D.reqs t := by
      intro x hx hb t ht
      rw [wellTyped_iff]
      rcases terms_split ht with ⟨y, hy, ht⟩ | ⟨v, hv, rfl⟩
      · rcases h.2 x hx y hy t ht with ⟨n, tag, rfl, hm⟩ | h' | h'
        · intro z hz
          cases tag with
          | none => simp [Term.tags] at hz
          | some s =>
            simp only [Term.tags, List.mem_singleton] at hz
            subst hz
            exact hc _ hm _ rfl
        · rw [h']; simp
        · exact h3 t h'
      · exact hb v hv
    intro t ht
    simp only [List.mem_append] at ht
    rcases ht with (ht | ht) | ht
    · exact wellTyped_iff.2 (h3 t ht)
    · rw [hp] at ht; exact hb p (.inl hp) hpb t ht
    · rw [he] at ht; exact hb e (.inr he) heb t ht

theorem norm_vars {ts us : List Term} (h : ts.map Term.norm = us.map Term.norm) (ht : ∀ t ∈ ts, ∃ v, t = .var v) {ok : Str → Prop}
    (hk : ∀ t ∈ ts, ∀ x ∈ t.tags, ok x) : ∀ t ∈ us, ∀ x ∈ t.tags, ok x := by
  intro u hu x hx
  have : u.norm ∈ ts.map Term.norm := by rw [h]; exact List.mem_map_of_mem hu
  obtain ⟨t, htm, e⟩ := List.mem_map.1 this
  obtain ⟨v, rfl⟩ := ht t htm
  cases u with
  | const n tag => simp [Term.norm] at e
  | var w =>
    simp only [Term.norm, NTerm.var.injEq] at e
    exact hk _ htm x (((norm_tags e).2 x).2 hx)

theorem ATyped.congr {D : Decls} {a b : Action} (h : ATyped D a) (ha : AFrom D a) (e : a.norm = b.norm) : ATyped D b := by
  simp only [Action.norm, Prod.mk.injEq] at e
  obtain ⟨_, e1, e2, e3⟩ := e
  have key : ∀ {x y : Option Expr}, x.map Expr.norm = y.map Expr.norm → (∃ e, x = some e ∧ BindersOk D.typeOk e) →
      ∃ e, y = some e ∧ BindersOk D.typeOk e := by
    rintro x y hxy ⟨p, rfl, hp⟩
    cases y with
    | none => simp at hxy
    | some q =>
      simp only [Option.map_some, Option.some.injEq] at hxy
      exact ⟨q, rfl, bindersOk_norm hxy hp⟩
  exact ⟨key e2 h.pre, key e3 h.eff, norm_vars e1 ha.1 h.params⟩

theorem forall_firstOcc {α : Type} {eq : α → α → Bool} (he : Equivalence (fun a b => eq a b = true)) {P : α → Prop} {l : List α}
    (hP : ∀ a ∈ l, ∀ b ∈ l, eq a b = true → P a → P b) : (∀ x ∈ firstOcc eq l, P x) ↔ ∀ x ∈ l, P x := by
  constructor
  · intro h x hx
    obtain ⟨y, hy, e⟩ := memBy_iff.1 (dedupBy_cover (eq := eq) (fun a => he.refl a) hx)
    have hyl := dedupBy_subset hy
    rw [dedup_firstOcc he] at hy
    exact hP y hyl x hx (he.symm e) (h y hy)
  · intro h x hx
    exact h x (firstOcc_subset he hx)

theorem actions_iff {D : Decls} {as : List Action} (hc : ∀ p ∈ D.consts, ∀ t, p.2 = some t → D.typeOk t)
    (h : ∀ a ∈ as, AFrom D a) :
    (∀ x ∈ firstOcc Action.pyEq as, x.pre ≠ none ∧ x.eff ≠ none ∧ WellTypedAction (Declared D.types) D.reqs x) ↔
      ∀ x ∈ as, ATyped D x := by
  rw [forall_firstOcc eqv_action]
  · exact forall₂_congr fun a ha => typed_iff hc (h a ha)
  · intro a ha b hb e hx
    rw [typed_iff hc (h a ha)] at hx
    rw [typed_iff hc (h b hb)]
    exact hx.congr (h a ha) (Action.pyEq_iff.1 e)

theorem StateIn.from {D : Decls} {ps : List (Str × List Str)} {σ : PState} (h : StateIn D ps σ) {F : FloatOf} {e : Expr}
    (hf : AllFrom (σ.env F) e) : ∀ x ∈ atoms e, ∀ t ∈ x.2,
      (∃ n tag, t = .const n tag ∧ (n, tag) ∈ D.consts) ∨ t.tags = [] ∨ t ∈ σ.params.map Prod.snd := by
  intro x hx t ht
  rcases hf x hx t ht with ⟨n, hn⟩ | ⟨n, hn⟩
  · obtain ⟨tag, rfl, hm⟩ := ((h.env F (fun _ => True)).const n t).1 hn
    exact .inl ⟨n, tag, rfl, hm⟩
  · right
    unfold GEnv.variable at hn
    cases hd : dictGet (σ.env F).params n with
    | some u =>
      rw [hd] at hn
      simp only [pure_ok, Except.ok.injEq] at hn
      subst hn
      exact .inr (List.mem_map.2 ⟨_, mem_of_dictGet hd, rfl⟩)
    | none =>
      obtain ⟨v, rfl, _, _, _, h4⟩ := (h.env F (fun _ => True)).variable_ok (n := n) (t := t) (by unfold GEnv.variable; exact hn)
      rcases h4 with ⟨types, h5, _⟩ | ⟨_, h5⟩
      · exact absurd rfl (h.noParam n hd _ h5)
      · exact .inl h5

theorem mkAction_ok {n : Str} {ps : List Term} {p e : Option Expr} {a : Action} :
    mkAction n ps p e = .ok a ↔ ValidName n ∧ a = ⟨n, ps, p, e⟩ := by
  unfold mkAction
  constructor
  · intro h
    obtain ⟨n', h1, h2⟩ := bind_ok_iff.1 h
    obtain ⟨rfl, hv⟩ := parseName_ok.1 h1
    simp only [pure_ok, Except.ok.injEq] at h2
    exact ⟨hv, h2.symm⟩
  · rintro ⟨h, rfl⟩
    rw [parseName_iff.2 h]
    rfl

theorem params_tags {tl : TypedList} (hc : Compatible tl.itemsOf) {ok : Str → Prop} :
    (∀ t ∈ (dictOf ((builtVars tl).map (fun v => (v.name, Term.var v)))).map Prod.snd, ∀ x ∈ t.tags, ok x) ↔
      ∀ v ∈ builtVars tl, ∀ x ∈ v.tags, ok x := by
  constructor
  · intro h v hv x hx
    obtain ⟨u, hu⟩ := dictGet_of_key (d := dictOf ((builtVars tl).map (fun v => (v.name, Term.var v)))) (k := v.name)
      ((dictOf_keys _).2.2 _ (by rw [List.map_map]; exact List.mem_map.2 ⟨v, hv, rfl⟩))
    have hm := mem_of_dictGet hu
    obtain ⟨w, hw, e⟩ := List.mem_map.1 (dictOf_mem hm)
    simp only [Prod.mk.injEq] at e
    obtain ⟨e1, rfl⟩ := e
    refine h _ (List.mem_map.2 ⟨_, hm, rfl⟩) x ?_
    obtain ⟨p, hp, rfl⟩ := List.mem_map.1 hv
    obtain ⟨q, hq, rfl⟩ := List.mem_map.1 hw
    have := compatible_vars hc hp hq e1.symm x
    simp only [Term.tags, dd_mem] at hx ⊢
    exact this.1 hx
  · intro h t ht x hx
    obtain ⟨q, hq, rfl⟩ := List.mem_map.1 ht
    obtain ⟨v, hv, rfl⟩ := List.mem_map.1 (dictOf_mem hq)
    exact h v hv x hx

theorem StateIn.action_in {D : Decls} {ps : List (Str × List Str)} {σ σ' : PState} (h : StateIn D ps σ) {F : FloatOf} {b : List Tree}
    {a : Action} (hw : WordsOk (section_ s%"action" b)) (ha : actionDef F σ b = .ok (a, σ')) :
    AFrom D a ∧ ∃ l n vs pre eff, section_ s%"action" b = actionText n vs pre eff ∧ StateIn D l σ' ∧
      (ATyped D a → ActionIn F D l n vs pre eff) := by
  obtain ⟨n, vs, t, t', params, p, e, rfl, h1, rfl, h2, h3, h4⟩ := actionDef_ok ha
  unfold actionParameters at h1
  obtain ⟨vars, hv, h1⟩ := bind_ok_iff.1 h1
  simp only [pure_ok, Except.ok.injEq] at h1
  subst h1
  obtain ⟨tl, hl, hok, hc, rfl⟩ := parseTypedVars_ok (fun w h' => hw w (.node (t := .node vs) (by simp) (.node h' .refl))) hv
  obtain ⟨hn, rfl⟩ := mkAction_ok.1 h4
  have hs := h.withParams hok hc
  refine ⟨⟨?_, ?_⟩, tl.vars, n, vs, t, t', rfl, hs, ?_⟩
  · intro u hu
    obtain ⟨q, hq, rfl⟩ := List.mem_map.1 hu
    obtain ⟨v, _, rfl⟩ := List.mem_map.1 (dictOf_mem hq)
    exact ⟨v, rfl⟩
  · intro x hx
    simp only [Option.some.injEq] at hx
    rcases hx with rfl | rfl
    · exact hs.from (preGd_from h2)
    · exact hs.from (effOpt_from h3)
  · rintro ⟨⟨p', e1, hp⟩, ⟨e', e2, he⟩, hpar⟩
    simp only [Option.some.injEq] at e1 e2
    subst e1 e2
    have hE := hs.env F D.typeOk
    exact ⟨hn, in_vars hl hok hc ((params_tags hc).1 hpar), (hE.preGd_iff (hw.sub (by simp))).1 ⟨_, h2, hp⟩,
      (hE.effOpt_iff (hw.sub (by simp))).1 ⟨_, h3, he⟩⟩

theorem StateIn.in_action {D : Decls} {ps : List (Str × List Str)} {σ : PState} (h : StateIn D ps σ) {F : FloatOf}
    {l : List (Str × List Str)} {n : Str} {vs : List Tree} {pre eff : Tree}
    (hw : WordsOk (actionText n vs pre eff)) (ha : ActionIn F D l n vs pre eff) :
    ∃ b a σ', actionText n vs pre eff = section_ s%"action" b ∧ actionDef F σ b = .ok (a, σ') ∧ ATyped D a ∧ StateIn D l σ' := by
  obtain ⟨hn, hv, hp, he⟩ := ha
  obtain ⟨tl, h1, rfl, hok, hc⟩ := vars_in hv
  have hs := h.withParams hok hc
  have hE := hs.env F D.typeOk
  obtain ⟨p, h2, h3⟩ := (hE.preGd_iff (t := pre) (hw.sub (by simp))).2 hp
  obtain ⟨e, h4, h5⟩ := (hE.effOpt_iff (t := eff) (hw.sub (by simp))).2 he
  refine ⟨_, ⟨n, _, some p, some e⟩, _, rfl, ?_, ⟨⟨p, rfl, h3⟩, ⟨e, rfl, h5⟩, (params_tags hc).2 ?_⟩, hs⟩
  · have hpar : actionParameters vs = .ok (dictOf ((builtVars tl).map (fun v => (v.name, Term.var v)))) := by
      unfold actionParameters
      rw [parseTypedVars_eq h1 hok hc]
      rfl
    simp only [actionDef, check, hpar, ok_bind, actionPre, h2, actionEff, h4, decide_true, if_true, pure_ok]
    rw [mkAction_ok.2 ⟨hn, rfl⟩]
    rfl
  · intro v hv' x hx
    obtain ⟨q, hq, rfl⟩ := List.mem_map.1 hv'
    exact ((hv.2.1 q hq).2 x (dd_mem.1 hx)).2

end Pddl.Rules
