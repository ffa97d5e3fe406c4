/-
Domains whose declarations are in another order.
-/
import Verif.Proofs.Rearranged

namespace Pddl
open Spec Spec.Grammar

/-! ### States with the same look-ups -/

structure StateRel (σ τ : PState) : Prop where
  ext : σ.ext = τ.ext
  params : σ.params = τ.params
  consts : ∀ k, dictGet σ.consts k = dictGet τ.consts k
  types : SameOpt (fun d d' : TypeDict => ∀ k, dictGet d k = dictGet d' k) σ.types τ.types

theorem StateRel.env {σ τ : PState} (h : StateRel σ τ) (F : FloatOf) : σ.env F = τ.env F := by
  unfold PState.env
  have hc : σ.constant = τ.constant := by
    funext n
    unfold PState.constant
    rw [h.consts n]
  rw [h.ext, h.params, hc]

theorem StateRel.withParams {σ τ : PState} (h : StateRel σ τ) (p q : List (Str × Term)) (hpq : p = q) :
    StateRel { σ with params := p } { τ with params := q } := ⟨h.ext, hpq, h.consts, h.types⟩

theorem checkSubtypes_congr {T T' : Option TypeDict}
    (h : SameOpt (fun d d' : TypeDict => ∀ k, dictGet d k = dictGet d' k) T T') (ls rs : List Str) :
    checkSubtypes T ls rs = checkSubtypes T' ls rs := by
  induction ls with
  | nil => rfl
  | cons t ls ih =>
    unfold checkSubtypes
    rw [ih]
    cases T <;> cases T'
    · rfl
    · exact absurd h (by simp [SameOpt])
    · exact absurd h (by simp [SameOpt])
    · have h' : ∀ k, dictGet _ k = dictGet _ k := h
      simp only [h']

theorem derivedEnv_congr {T T' : Option TypeDict}
    (h : SameOpt (fun d d' : TypeDict => ∀ k, dictGet d k = dictGet d' k) T T') (l : List (Term × Term)) (env : VarTypes) :
    derivedEnv T l env = derivedEnv T' l env := by
  induction l generalizing env with
  | nil => rfl
  | cons p l ih =>
    obtain ⟨t, u⟩ := p
    cases t with
    | const => rfl
    | var v =>
      unfold derivedEnv
      simp only [ih, checkSubtypes_congr h]

theorem derivedDef_congr {F : FloatOf} {σ τ : PState} (h : StateRel σ τ) (hp : ∀ k, dictGet σ.preds k = dictGet τ.preds k)
    (b : List Tree) : derivedDef F σ b = derivedDef F τ b := by
  unfold derivedDef
  rw [h.env F]
  split
  · unfold derivedPredicate
    simp only [hp, derivedEnv_congr h.types]
  · rfl

theorem actionDef_congr {F : FloatOf} {σ τ σ' : PState} {b : List Tree} {a : Action} (he : σ.ext = τ.ext)
    (hc : ∀ k, dictGet σ.consts k = dictGet τ.consts k) (h : actionDef F σ b = .ok (a, σ')) :
    ∃ q, actionDef F τ b = .ok (a, { τ with params := q }) ∧ σ' = { σ with params := q } := by
  have hcc : σ.constant = τ.constant := by
    funext n
    unfold PState.constant
    rw [hc n]
  unfold actionDef at h ⊢
  split at h
  · obtain ⟨_, h1, h⟩ := bind_ok_iff.1 h
    obtain ⟨q, h2, h⟩ := bind_ok_iff.1 h
    have henv : ({ σ with params := q } : PState).env F = ({ τ with params := q } : PState).env F := by
      unfold PState.env PState.constant
      simp only [he, hc]
    simp only [henv] at h
    obtain ⟨⟨p, rest⟩, h3, h⟩ := bind_ok_iff.1 h
    obtain ⟨e, h4, h⟩ := bind_ok_iff.1 h
    simp only at h4 h
    simp only [h1, h2, h3, h4, ok_bind]
    cases p with
    | none => simp at h
    | some p => cases e with
      | none => simp at h
      | some e =>
        simp only at h ⊢
        obtain ⟨x, h5, h⟩ := bind_ok_iff.1 h
        simp only [pure_ok, Except.ok.injEq, Prod.mk.injEq] at h
        obtain ⟨rfl, rfl⟩ := h
        exact ⟨q, by simp only [h5, ok_bind, pure_ok], rfl⟩
  · cases h

/-! ### Derived predicates first, then actions -/

/-- What the section of an action gives. -/
def ActionRead (F : FloatOf) (σ : PState) (t : Tree) (a : Action) : Prop :=
  ∃ b σ', t = section_ s%"action" b ∧ actionDef F σ b = .ok (a, σ')

/-- What the section of a derived predicate gives. -/
def DerivedRead (F : FloatOf) (σ : PState) (t : Tree) (x : Derived) : Prop :=
  ∃ b, t = section_ s%"derived" b ∧ derivedDef F σ b = .ok x

theorem structures_consAction (F : FloatOf) (σ : PState) (b ts : List Tree) :
    structures F σ (section_ s%"action" b :: ts) = (do
      let (a, σ') ← actionDef F σ b
      let (as, ds, σ'') ← structures F σ' ts
      pure (a :: as, ds, σ'')) := by
  unfold section_
  rw [structures, if_pos rfl]

theorem structures_consDerived (F : FloatOf) (σ : PState) (b ts : List Tree) :
    structures F σ (section_ s%"derived" b :: ts) = (do
      let d ← derivedDef F σ b
      let (as, ds, σ'') ← structures F σ ts
      pure (as, d :: ds, σ'')) := by
  unfold section_
  rw [structures, if_neg (by decide), if_pos rfl]

theorem structures_allActions {F : FloatOf} {ts : List Tree} (hts : ∀ t ∈ ts, ∃ b, t = section_ s%"action" b) :
    ∀ {σ σ' : PState} {A D}, structures F σ ts = .ok (A, D, σ') → D = [] ∧ List.Forall₂ (ActionRead F σ) ts A := by
  induction ts with
  | nil =>
    intro σ σ' A D h
    simp only [structures, pure_ok, Except.ok.injEq, Prod.mk.injEq] at h
    obtain ⟨rfl, rfl, _⟩ := h
    exact ⟨rfl, .nil⟩
  | cons t ts ih =>
    intro σ σ' A D h
    obtain ⟨b, rfl⟩ := hts t (by simp)
    rw [structures_consAction] at h
    obtain ⟨⟨a, σ1⟩, h1, h⟩ := bind_ok_iff.1 h
    obtain ⟨⟨as, ds, σ2⟩, h2, h⟩ := bind_ok_iff.1 h
    simp only [pure_ok, Except.ok.injEq, Prod.mk.injEq] at h
    obtain ⟨rfl, rfl, rfl⟩ := h
    obtain ⟨rfl, h3⟩ := ih (fun t ht => hts t (by simp [ht])) h2
    refine ⟨rfl, .cons ⟨b, σ1, rfl, h1⟩ ?_⟩
    obtain ⟨q, _, rfl⟩ := actionDef_congr (τ := σ) rfl (fun _ => rfl) h1
    refine h3.imp ?_
    rintro t a ⟨b, σ', rfl, h⟩
    obtain ⟨q', h', _⟩ := actionDef_congr (τ := σ) rfl (fun _ => rfl) h
    exact ⟨b, _, rfl, h'⟩

theorem structures_allActions_of {F : FloatOf} {ts : List Tree} {A : List Action} {σ : PState} (h : List.Forall₂ (ActionRead F σ) ts A) :
    ∀ τ : PState, τ.ext = σ.ext → (∀ k, dictGet σ.consts k = dictGet τ.consts k) → ∃ σ', structures F τ ts = .ok (A, [], σ') := by
  induction h with
  | nil => intro τ _ _; exact ⟨τ, rfl⟩
  | @cons t a ts A h _ ih =>
    intro τ he hc
    obtain ⟨b, σ', rfl, h⟩ := h
    obtain ⟨q, h1, _⟩ := actionDef_congr (τ := τ) he.symm hc h
    obtain ⟨σ2, h2⟩ := ih { τ with params := q } he hc
    refine ⟨σ2, ?_⟩
    rw [structures_consAction]
    simp only [h1, h2, ok_bind, pure_ok]

theorem structures_splitOff {F : FloatOf} {ds as : List Tree} (hds : ∀ t ∈ ds, ∃ b, t = section_ s%"derived" b)
    (has : ∀ t ∈ as, ∃ b, t = section_ s%"action" b) {σ : PState} :
    ∀ {σ' : PState} {A D}, structures F σ (ds ++ as) = .ok (A, D, σ') →
      List.Forall₂ (DerivedRead F σ) ds D ∧ List.Forall₂ (ActionRead F σ) as A := by
  induction ds with
  | nil =>
    intro σ' A D h
    obtain ⟨rfl, h1⟩ := structures_allActions has h
    exact ⟨.nil, h1⟩
  | cons t ds ih =>
    intro σ' A D h
    obtain ⟨b, rfl⟩ := hds t (by simp)
    rw [List.cons_append, structures_consDerived] at h
    obtain ⟨x, h1, h⟩ := bind_ok_iff.1 h
    obtain ⟨⟨as', ds', σ2⟩, h2, h⟩ := bind_ok_iff.1 h
    simp only [pure_ok, Except.ok.injEq, Prod.mk.injEq] at h
    obtain ⟨rfl, rfl, rfl⟩ := h
    obtain ⟨h3, h4⟩ := ih (fun t ht => hds t (by simp [ht])) h2
    exact ⟨.cons ⟨b, rfl, h1⟩ h3, h4⟩

theorem structures_joined {F : FloatOf} {ds as : List Tree} {σ : PState} {A D} (hd : List.Forall₂ (DerivedRead F σ) ds D)
    (ha : List.Forall₂ (ActionRead F σ) as A) : ∃ σ', structures F σ (ds ++ as) = .ok (A, D, σ') := by
  induction hd with
  | nil => exact structures_allActions_of ha σ rfl (fun _ => rfl)
  | @cons t x ds D h _ ih =>
    obtain ⟨b, rfl, h⟩ := h
    obtain ⟨σ', ih⟩ := ih
    refine ⟨σ', ?_⟩
    rw [List.cons_append, structures_consDerived]
    simp only [h, ih, ok_bind, pure_ok]

theorem structures_rearranged {F : FloatOf} {σ τ σ5 : PState} {ts ts' : List Tree} {A : List Action} {D : List Derived}
    (hs : SameStructures ts ts') (hr : StateRel σ τ)
    (hp : (∃ b, section_ s%"derived" b ∈ ts) → ∀ k, dictGet σ.preds k = dictGet τ.preds k)
    (h : structures F σ ts = .ok (A, D, σ5)) :
    ∃ A' D' σ5', structures F τ ts' = .ok (A', D', σ5') ∧ A.Perm A' ∧ D.Perm D' := by
  obtain ⟨ds, as, ds', as', rfl, rfl, pd, pa, hd, ha⟩ := hs
  obtain ⟨h1, h2⟩ := structures_splitOff hd ha h
  obtain ⟨D', h3, q1⟩ := forall₂_perm pd h1
  obtain ⟨A', h4, q2⟩ := forall₂_perm pa h2
  have h3' : List.Forall₂ (DerivedRead F τ) ds' D' := by
    have hmem : ∀ t ∈ ds', ∃ b, section_ s%"derived" b ∈ ds ++ as := by
      intro t ht
      obtain ⟨b, rfl⟩ := hd t (pd.mem_iff.2 ht)
      exact ⟨b, List.mem_append_left _ (pd.mem_iff.2 ht)⟩
    clear * - h3 hr hp hmem
    induction h3 with
    | nil => exact .nil
    | cons h _ ih =>
      obtain ⟨b, rfl, h⟩ := h
      refine .cons ⟨b, rfl, ?_⟩ (ih (fun t ht => hmem t (by simp [ht])))
      rw [← derivedDef_congr hr (hp (hmem _ List.mem_cons_self))]
      exact h
  have h4' : List.Forall₂ (ActionRead F τ) as' A' := by
    refine h4.imp ?_
    rintro t a ⟨b, σ', rfl, h⟩
    obtain ⟨q, h', _⟩ := actionDef_congr (τ := τ) hr.ext hr.consts h
    exact ⟨b, _, rfl, h'⟩
  obtain ⟨σ5', h5⟩ := structures_joined h3' h4'
  exact ⟨A', D', σ5', h5, q2, q1⟩

/-! ### Constants come from the declarations -/

/-- A constant is the declared one. -/
def Grounded (σ : PState) (t : Term) : Prop := ∀ n x, t = .const n x → dictGet σ.consts n = some t

theorem grounded_var (σ : PState) (v : Var) : Grounded σ (.var v) := fun _ _ h => by cases h

theorem terms_inAtoms (e : Expr) : ∀ t ∈ terms e, (∃ v, t = .var v) ∨ ∃ a ∈ atoms e, t ∈ a.2 := by
  have list : ∀ as : List Expr, (∀ a ∈ as, ∀ t ∈ terms a, (∃ v, t = .var v) ∨ ∃ x ∈ atoms a, t ∈ x.2) →
      ∀ t ∈ termsAll as, (∃ v, t = .var v) ∨ ∃ x ∈ atomsAll as, t ∈ x.2 := by
    intro as ih t ht
    rw [Props.termsAll_flatMap] at ht
    obtain ⟨a, ha, ht⟩ := List.mem_flatMap.1 ht
    rcases ih a ha t ht with h | ⟨x, hx, h⟩
    · exact .inl h
    · exact .inr ⟨x, mem_atomsAll.2 ⟨a, ha, hx⟩, h⟩
  induction e using Expr.ind with
  | hpred p => intro t ht; exact .inr ⟨_, List.mem_singleton.2 rfl, ht⟩
  | heq l r => intro t ht; exact .inr ⟨_, List.mem_singleton.2 rfl, ht⟩
  | hnfun f => intro t ht; exact .inr ⟨_, List.mem_singleton.2 rfl, ht⟩
  | hnum n => intro t ht; simp [terms] at ht
  | hbfun o as ih => exact list as ih
  | hbin o as ih => exact list as ih
  | hnot a ih => exact ih
  | hquant q vs c ih =>
    intro t ht
    simp only [terms, List.mem_append, List.mem_map] at ht
    rcases ht with ⟨v, _, rfl⟩ | ht
    · exact .inl ⟨v, rfl⟩
    · exact ih t ht
  | hwhen c e ih1 ih2 =>
    intro t ht
    simp only [terms, List.mem_append] at ht
    simp only [atoms, List.mem_append]
    rcases ht with ht | ht
    · rcases ih1 t ht with h | ⟨x, hx, h⟩
      · exact .inl h
      · exact .inr ⟨x, .inl hx, h⟩
    · rcases ih2 t ht with h | ⟨x, hx, h⟩
      · exact .inl h
      · exact .inr ⟨x, .inr hx, h⟩
  | hfall vs e ih =>
    intro t ht
    simp only [terms, List.mem_append, List.mem_map] at ht
    rcases ht with ⟨v, _, rfl⟩ | ht
    · exact .inl ⟨v, rfl⟩
    · exact ih t ht

theorem actionParameters_onlyVars {ps : List Tree} {q : List (Str × Term)} (h : actionParameters ps = .ok q) :
    ∀ p ∈ q, ∃ v, p.2 = .var v := by
  unfold actionParameters at h
  obtain ⟨vs, _, h⟩ := bind_ok_iff.1 h
  simp only [pure_ok, Except.ok.injEq] at h
  subst h
  intro p hp
  obtain ⟨v, _, rfl⟩ := List.mem_map.1 (dictOf_mem hp)
  exact ⟨v, rfl⟩

theorem grounded_env {F : FloatOf} {σ : PState} (hc : ConstsOk σ) (hp : ∀ p ∈ σ.params, ∃ v, p.2 = .var v) {e : Expr}
    (h : AllFrom (σ.env F) e) : ∀ t ∈ terms e, Grounded σ t := by
  intro t ht
  rcases terms_inAtoms e t ht with ⟨v, rfl⟩ | ⟨a, ha, hta⟩
  · exact grounded_var _ v
  rcases h a ha t hta with ⟨n, hn⟩ | ⟨n, hn⟩
  · have hn : σ.constant n = .ok t := hn
    unfold PState.constant at hn
    split at hn
    · rename_i u hu
      simp only [pure_ok, Except.ok.injEq] at hn
      subst hn
      obtain ⟨x, hx⟩ := hc _ (dictGet_mem hu)
      simp only at hx
      intro m y e
      rw [hx, Term.const.injEq] at e
      rw [← e.1]
      exact hu
    · cases hn
  · unfold GEnv.variable at hn
    split at hn
    · rename_i u hu
      simp only [pure_ok, Except.ok.injEq] at hn
      subst hn
      obtain ⟨v, hv⟩ := hp _ (dictGet_mem hu)
      simp only at hv
      rw [hv]
      exact grounded_var _ v
    · obtain ⟨v, _, hn⟩ := bind_ok_iff.1 hn
      simp only [pure_ok, Except.ok.injEq] at hn
      subst hn
      exact grounded_var _ v

theorem retag_vars {env : VarTypes} {ts us : List Term} (h : ts.mapM (Term.retag env) = .ok us) (hv : ∀ t ∈ ts, ∃ v, t = .var v) :
    ∀ u ∈ us, ∃ v, u = .var v := by
  intro u hu
  obtain ⟨t, ht, h⟩ := forall₂_right (mapM_forall₂.1 h) u hu
  obtain ⟨v, rfl⟩ := hv t ht
  simp only [Term.retag] at h
  split at h
  · obtain ⟨w, _, h⟩ := bind_ok_iff.1 h
    simp only [pure_ok, Except.ok.injEq] at h
    exact ⟨w, h.symm⟩
  · simp only [pure_ok, Except.ok.injEq] at h
    exact ⟨v, h.symm⟩

theorem skeleton_vars {t : Tree} {p : Pred} (h : formulaSkeleton t = .ok p) : ∀ u ∈ p.terms, ∃ v, u = .var v := by
  unfold formulaSkeleton at h
  split at h
  · obtain ⟨vs, _, h⟩ := bind_ok_iff.1 h
    obtain ⟨_, _, rfl⟩ := mkPred_ok.1 h
    intro u hu
    obtain ⟨v, _, rfl⟩ := List.mem_map.1 hu
    exact ⟨v, rfl⟩
  · cases h

theorem grounded_structures {F : FloatOf} {σ σ' : PState} {ts : List Tree} {A : List Action} {D : List Derived}
    (hc : ConstsOk σ) (h : structures F σ ts = .ok (A, D, σ')) :
    (∀ a ∈ A, ∀ t ∈ a.params ++ termsOpt a.pre ++ termsOpt a.eff, Grounded σ t) ∧
    ∀ x ∈ D, ∀ t ∈ x.pred.terms, Grounded σ t := by
  obtain ⟨_, h1, h2⟩ := structures_from h
  constructor
  · intro a ha t ht
    obtain ⟨b, σ1, σ2, _, hs, h⟩ := h1 a ha
    obtain ⟨n, ps, t1, t2, q, p, e, _, hq, rfl, hp, he, hm⟩ := actionDef_ok h
    have hc' : ConstsOk { σ1 with params := q } := by
      unfold ConstsOk at *
      show ∀ p ∈ σ1.consts, _
      rw [hs.2.1]; exact hc
    have hq' := actionParameters_onlyVars hq
    have hg : ∀ u, Grounded ({ σ1 with params := q } : PState) u → Grounded σ u := by
      intro u hu n x e
      have := hu n x e
      rw [← hs.2.1]; exact this
    have ham : a = ⟨n, q.map Prod.snd, some p, some e⟩ := by
      unfold mkAction at hm
      obtain ⟨n', hn, hm'⟩ := bind_ok_iff.1 hm
      obtain ⟨rfl, _⟩ := parseName_ok.1 hn
      simp only [pure_ok, Except.ok.injEq] at hm'
      exact hm'.symm
    subst ham
    simp only [List.mem_append, termsOpt] at ht
    rcases ht with (ht | ht) | ht
    · obtain ⟨p, hp, rfl⟩ := List.mem_map.1 ht
      obtain ⟨v, hv⟩ := hq' p hp
      rw [hv]; exact grounded_var _ v
    · exact hg _ (grounded_env hc' hq' (preGd_from hp) t ht)
    · exact hg _ (grounded_env hc' hq' (effOpt_from he) t ht)
  · intro x hx t ht
    obtain ⟨b, σ1, _, hs, h⟩ := h2 x hx
    obtain ⟨t1, c, head, cond, rfl, hh, _, hd⟩ := derivedDef_ok h
    obtain ⟨_, p, env, us, _, _, _, hm, _, he⟩ := derivedPredicate_ok hd
    rw [he] at ht
    obtain ⟨v, rfl⟩ := retag_vars hm (skeleton_vars hh) t ht
    exact grounded_var _ v

theorem agree_of_grounded {σ τ : PState} (hc : ∀ k, dictGet σ.consts k = dictGet τ.consts k) {l m : List Term}
    (hl : ∀ t ∈ l, Grounded σ t) (hm : ∀ t ∈ m, Grounded τ t) : AgreeTypes l m := by
  intro s hs t ht he x
  rw [Term.pyEq_iff] at he
  cases s with
  | var v =>
    cases t with
    | var w =>
      simp only [Term.norm, NTerm.var.injEq, Var.norm, Prod.mk.injEq] at he
      have := he.2
      show x ∈ v.tags ↔ x ∈ w.tags
      rw [← List.mem_toFinset, this, List.mem_toFinset]
    | const n y => simp [Term.norm] at he
  | const n y =>
    cases t with
    | var w => simp [Term.norm] at he
    | const n' y' =>
      simp only [Term.norm, NTerm.const.injEq] at he
      subst he
      have h1 := hl _ hs n y rfl
      have h2 := hm _ ht n y' rfl
      rw [hc n, h2] at h1
      cases h1
      rfl

/-! ### Sections -/

theorem header_of {k : Str} {h : Tree} {n : Str} {rest : List Tree} (hh : NamedHeader k h n) :
    header k (word s%"define" :: h :: rest) = .ok (n, rest) := by
  obtain ⟨l, rfl, hk⟩ := hh
  unfold header
  have h1 : dropKeyword s%"define" (word s%"define" :: .node l :: rest) = some (.node l :: rest) := dropKeyword_grammar.2 (.word _)
  rw [h1]
  simp only
  rw [dropKeyword_grammar.2 hk]
  rfl

theorem notin_optText {k k' : Str} {o : Option (List Tree)} (h : k ≠ k') : ∀ b, section_ k b ∉ optText k' o := by
  intro b hb
  cases o with
  | none => simp [optText] at hb
  | some c =>
    simp only [optText, List.mem_singleton, section_, Tree.node.injEq, List.cons.injEq, Tree.atom.injEq, Tok.kw.injEq] at hb
    exact h hb.1

/-- The structures of a text are actions and derived predicates. -/
def OnlyStructures (s : DomainSections) : Prop :=
  ∀ t ∈ s.structures, (∃ b, t = section_ s%"derived" b) ∨ ∃ b, t = section_ s%"action" b

theorem notin_structures {s : DomainSections} (h : OnlyStructures s) {k : Str} (h1 : k ≠ s%"derived") (h2 : k ≠ s%"action") :
    ∀ b, section_ k b ∉ s.structures := by
  intro b hb
  rcases h _ hb with ⟨c, e⟩ | ⟨c, e⟩ <;>
    simp only [section_, Tree.node.injEq, List.cons.injEq, Tree.atom.injEq, Tok.kw.injEq] at e
  · exact h1 e.1
  · exact h2 e.1

theorem funDictEq_perm {d d' : FunDict} (h : d.Perm d') (hd : IsFunDict d) : funDictEq d d' = true := by
  have hd' : IsFunDict d' := by
    unfold IsFunDict at *
    refine h.pairwise hd (fun {a b} hab => ?_)
    exact funs_symm hab
  simp only [funDictEq, Bool.and_eq_true, List.all_eq_true, decide_eq_true_eq]
  exact ⟨fun p hp => funDictGet_self hd' (h.mem_iff.1 hp), fun p hp => funDictGet_self hd (h.mem_iff.2 hp)⟩

theorem sameSet_perm {α} {eq : α → α → Bool} (he : Equivalence (fun a b => eq a b = true)) {a b : List α} (h : a.Perm b) :
    SameSet eq a b := ⟨fun x hx => ⟨x, h.mem_iff.1 hx, he.refl x⟩, fun x hx => ⟨x, h.mem_iff.2 hx, he.refl x⟩⟩

/-- The same domain, if only the order of declarations is different. -/
theorem DomainParse.rearranged {F : FloatOf} {σ : PState} {ts ts' : List Tree} {d : Domain} {σ' : PState}
    (P : DomainParse F σ ts d σ') (hσ : ConstsOk σ)
    (hw : ∀ w, Inside (.atom (.name w)) (.node ts) → nameRegex w = true)
    (hw' : ∀ w, Inside (.atom (.name w)) (.node ts') → nameRegex w = true)
    {s' : DomainSections} (hs' : s'.Of (.node ts')) (hr : Rearranged P.sections s') (hreq : P.r1 = s'.reqs)
    (hdist : DistinctHeads P.sections) :
    ∃ d' σ'', domainDef F σ ts' = .ok (d', σ'') ∧ d.pyEq d' = true := by
  obtain ⟨hT, _⟩ := Props.DomainParse.types_ok P hw
  obtain ⟨h, hh, e'⟩ := hs'
  obtain ⟨h0, hh0, e0⟩ := P.sections_of
  simp only [Tree.node.injEq] at e' e0
  have hos : OnlyStructures s' := by
    obtain ⟨ds, as, ds', as', _, e, pd, pa, hd, ha⟩ := hr.structures
    intro t ht
    rw [e] at ht
    rcases List.mem_append.1 ht with ht | ht
    · exact .inl (hd t (pd.mem_iff.2 ht))
    · exact .inr (ha t (pa.mem_iff.2 ht))
  have wsec : ∀ k b, section_ k b ∈ ts → ∀ w, .atom (.name w) ∈ b → nameRegex w = true := fun k b hm w hwb =>
    hw w (.node hm (.node (List.mem_cons_of_mem _ hwb) .refl))
  have wsec' : ∀ k b, section_ k b ∈ ts' → ∀ w, .atom (.name w) ∈ b → nameRegex w = true := fun k b hm w hwb =>
    hw' w (.node hm (.node (List.mem_cons_of_mem _ hwb) .refl))
  -- the sections
  have hdr : header s%"domain" ts' = .ok (P.n, optText s%"requirements" s'.reqs ++ (optText s%"types" s'.types ++
      (optText s%"constants" s'.constants ++ (optText s%"predicates" s'.predicates ++
      (optText s%"functions" s'.functions ++ s'.structures))))) := by
    rw [e', header_of hh, ← hr.name]
    simp only [List.append_assoc]
    rfl
  have k1 : takeSection s%"requirements" _ = (_, _) := Props.takeSection_rest (o := s'.reqs)
    (rest := optText s%"types" s'.types ++ (optText s%"constants" s'.constants ++ (optText s%"predicates" s'.predicates ++
      (optText s%"functions" s'.functions ++ s'.structures)))) (by
      intro b hb
      simp only [List.mem_append] at hb
      rcases hb with hb | hb | hb | hb | hb
      · exact notin_optText (by decide) b hb
      · exact notin_optText (by decide) b hb
      · exact notin_optText (by decide) b hb
      · exact notin_optText (by decide) b hb
      · exact notin_structures hos (by decide) (by decide) b hb)
  have k2 : takeSection s%"types" _ = (_, _) := Props.takeSection_rest (o := s'.types)
    (rest := optText s%"constants" s'.constants ++ (optText s%"predicates" s'.predicates ++
      (optText s%"functions" s'.functions ++ s'.structures))) (by
      intro b hb
      simp only [List.mem_append] at hb
      rcases hb with hb | hb | hb | hb
      · exact notin_optText (by decide) b hb
      · exact notin_optText (by decide) b hb
      · exact notin_optText (by decide) b hb
      · exact notin_structures hos (by decide) (by decide) b hb)
  have k3 : takeSection s%"constants" _ = (_, _) := Props.takeSection_rest (o := s'.constants)
    (rest := optText s%"predicates" s'.predicates ++ (optText s%"functions" s'.functions ++ s'.structures)) (by
      intro b hb
      simp only [List.mem_append] at hb
      rcases hb with hb | hb | hb
      · exact notin_optText (by decide) b hb
      · exact notin_optText (by decide) b hb
      · exact notin_structures hos (by decide) (by decide) b hb)
  have k4 : takeSection s%"predicates" _ = (_, _) := Props.takeSection_rest (o := s'.predicates)
    (rest := optText s%"functions" s'.functions ++ s'.structures) (by
      intro b hb
      simp only [List.mem_append] at hb
      rcases hb with hb | hb
      · exact notin_optText (by decide) b hb
      · exact notin_structures hos (by decide) (by decide) b hb)
  have k5 : takeSection s%"functions" _ = (_, _) := Props.takeSection_rest (o := s'.functions) (rest := s'.structures)
    (notin_structures hos (by decide) (by decide))
  have hR1 : (s'.reqs = none ∧ P.rs = [] ∧ P.σ1 = σ) ∨
      ∃ b, s'.reqs = some b ∧ parseRequirements b = .ok P.rs ∧ P.σ1 = { σ with ext := extendReqs P.rs } := by
    rw [← hreq]; exact P.hreqs
  have htyping : TypingIn P.r1 → Req.typing ∈ P.σ1.ext := by
    intro ht
    rcases P.hreqs with ⟨h1, _, _⟩ | ⟨b, h1, h2, h3⟩
    · rw [h1] at ht; rcases ht with ht | ht <;> simp at ht
    · rw [h1] at ht; rw [h3]; exact Props.typing_ext h2 ht
  -- types
  obtain ⟨T', τ2, hR2, hT', s2, p2, c2⟩ : ∃ T' τ2, ((s'.types = none ∧ T' = [] ∧ τ2 = P.σ1) ∨
      ∃ b, s'.types = some b ∧ sectionTypes P.σ1 b = .ok (T', τ2)) ∧ P.types.Perm T' ∧ StateRel P.σ2 τ2 ∧
      P.σ2.preds = τ2.preds ∧ P.σ2.consts = τ2.consts := by
    have hso := hr.types
    rcases P.htypes with ⟨h1, h2, h3⟩ | ⟨b, h1, h2⟩
    · have : s'.types = none := by
        cases ht : s'.types with
        | none => rfl
        | some b => rw [ht, show P.sections.types = none from h1] at hso; exact absurd hso (by simp [SameOpt])
      refine ⟨[], P.σ1, .inl ⟨this, rfl, rfl⟩, by rw [h2], ?_, by rw [h3], by rw [h3]⟩
      rw [h3]
      exact ⟨rfl, rfl, fun _ => rfl, by cases P.σ1.types <;> simp [SameOpt]⟩
    · cases ht : s'.types with
      | none => rw [ht, show P.sections.types = some b from h1] at hso; exact absurd hso (by simp [SameOpt])
      | some b' =>
        rw [ht, show P.sections.types = some b from h1] at hso
        obtain ⟨T', h3, h4, h5, h6⟩ := sectionTypes_rearranged
          (wsec s%"types" b (by rw [e0]; simp [DomainParse.sections, h1, optText]))
          (wsec' s%"types" b' (by rw [e']; simp [ht, optText])) htyping hso h2
        refine ⟨T', _, .inr ⟨b', rfl, h3⟩, h5, ?_, by rw [h4], by rw [h4]⟩
        rw [h4]
        exact ⟨rfl, rfl, fun _ => rfl, fun k => dictGet_perm h5 h6 k⟩
  -- constants
  obtain ⟨cs', τ3, hR3, hC', s3, p3, hnd3⟩ : ∃ cs' τ3, ((s'.constants = none ∧ cs' = [] ∧ τ3 = τ2) ∨
      ∃ b, s'.constants = some b ∧ sectionConstants τ2 b = .ok (cs', τ3)) ∧ P.consts.Perm cs' ∧ StateRel P.σ3 τ3 ∧
      P.σ3.preds = τ3.preds ∧ (P.consts = [] ∨ P.consts = P.σ3.consts.map Prod.snd ∧ (P.σ3.consts.map Prod.fst).Nodup) := by
    have hso := hr.constants
    rcases P.hconsts with ⟨h1, h2, h3⟩ | ⟨b, h1, h2⟩
    · have : s'.constants = none := by
        cases ht : s'.constants with
        | none => rfl
        | some b => rw [ht, show P.sections.constants = none from h1] at hso; exact absurd hso (by simp [SameOpt])
      exact ⟨[], τ2, .inl ⟨this, rfl, rfl⟩, by rw [h2], by rw [h3]; exact s2, by rw [h3]; exact p2, .inl h2⟩
    · cases ht : s'.constants with
      | none => rw [ht, show P.sections.constants = some b from h1] at hso; exact absurd hso (by simp [SameOpt])
      | some b' =>
        rw [ht, show P.sections.constants = some b from h1] at hso
        obtain ⟨D, D', h3, h4, h5, h6, h7⟩ := sectionConstants_rearranged (τ := τ2)
          (wsec s%"constants" b (by rw [e0]; simp [DomainParse.sections, h1, optText]))
          (wsec' s%"constants" b' (by rw [e']; simp [ht, optText])) hso h2
        refine ⟨_, _, .inr ⟨b', rfl, h7⟩, by rw [h4]; exact h5.map _, ?_, by rw [h3]; exact p2, .inr ⟨by rw [h4, h3], by rw [h3]; exact h6⟩⟩
        rw [h3]
        exact ⟨s2.ext, s2.params, fun k => dictGet_perm h5 h6 k, s2.types⟩
  -- predicates
  obtain ⟨ps', τ4, hR4, hP', s4, p4, hv4, c4⟩ : ∃ ps' τ4, ((s'.predicates = none ∧ ps' = [] ∧ τ4 = τ3) ∨
      ∃ b, s'.predicates = some b ∧ sectionPredicates τ3 b = .ok (ps', τ4)) ∧ P.preds.Perm ps' ∧ StateRel P.σ4 τ4 ∧
      ((∃ b, section_ s%"derived" b ∈ P.ts5) → ∀ k, dictGet P.σ4.preds k = dictGet τ4.preds k) ∧
      (∀ p ∈ P.preds, ∃ t, formulaSkeleton t = .ok p) ∧ P.σ4.consts = P.σ3.consts := by
    have hso := hr.predicates
    rcases P.hpreds with ⟨h1, h2, h3⟩ | ⟨b, h1, h2⟩
    · have : s'.predicates = none := by
        cases ht : s'.predicates with
        | none => rfl
        | some b => rw [ht, show P.sections.predicates = none from h1] at hso; exact absurd hso (by simp [SameOpt])
      exact ⟨[], τ3, .inl ⟨this, rfl, rfl⟩, by rw [h2], by rw [h3]; exact s3, by rw [h3, p3]; exact fun _ _ => rfl,
        by rw [h2]; simp, by rw [h3]⟩
    · cases ht : s'.predicates with
      | none => rw [ht, show P.sections.predicates = some b from h1] at hso; exact absurd hso (by simp [SameOpt])
      | some b' =>
        rw [ht, show P.sections.predicates = some b from h1] at hso
        obtain ⟨ps', D, D', h3, h4, h5, h6, h7⟩ := sectionPredicates_rearranged (τ := τ3) hso h2
        refine ⟨_, _, .inr ⟨b', rfl, h5⟩, h4, ?_, ?_, h7, by rw [h3]⟩
        · rw [h3]; exact ⟨s3.ext, s3.params, s3.consts, s3.types⟩
        · rw [h3]
          intro hex k
          have := hdist hex
          simp only [DomainParse.sections, h1, Option.getD_some] at this
          exact h6 this k
  -- functions
  obtain ⟨fs', hR5, hF'⟩ : ∃ fs', ((s'.functions = none ∧ fs' = []) ∨
      ∃ b, s'.functions = some b ∧ sectionFunctions b = .ok fs') ∧ funDictEq P.funs fs' = true := by
    have hso := hr.functions
    rcases P.hfuns with ⟨h1, h2⟩ | ⟨b, h1, h2⟩
    · have : s'.functions = none := by
        cases ht : s'.functions with
        | none => rfl
        | some b => rw [ht, show P.sections.functions = none from h1] at hso; exact absurd hso (by simp [SameOpt])
      exact ⟨[], .inl ⟨this, rfl⟩, by rw [h2]; rfl⟩
    · cases ht : s'.functions with
      | none => rw [ht, show P.sections.functions = some b from h1] at hso; exact absurd hso (by simp [SameOpt])
      | some b' =>
        rw [ht, show P.sections.functions = some b from h1] at hso
        obtain ⟨fs', h3, h4, h5⟩ := sectionFunctions_rearranged hso h2
        exact ⟨fs', .inr ⟨b', rfl, h3⟩, funDictEq_perm h4 h5⟩
  -- actions and derived predicates
  obtain ⟨A', D', τ5, hR6, hA', hD'⟩ := structures_rearranged (F := F) hr.structures s4 p4 P.hstruct
  -- the constructor
  have hsame : SameDomainArgs
      (⟨P.n, P.rs, P.types, P.consts, P.preds, P.funs, P.ds, P.as⟩ : DomainArgs)
      (⟨P.n, P.rs, T', cs', ps', fs', D', A'⟩ : DomainArgs) :=
    ⟨rfl, fun _ => Iff.rfl, fun k => dictGet_perm hT' hT k, sameSet_perm eqv_term hC', sameSet_perm eqv_pred hP',
      sameSet_perm eqv_derived hD', hF', sameSet_perm eqv_action hA'⟩
  have hTd' : IsDict T' := by unfold IsDict at *; exact (hT'.map _).nodup_iff.1 hT
  have hc4 : ConstsOk P.σ4 := constsOk_domain P hσ
  have hg : ∀ t ∈ domainTerms (⟨P.n, P.rs, P.types, P.consts, P.preds, P.funs, P.ds, P.as⟩ : DomainArgs), Grounded P.σ4 t := by
    obtain ⟨g1, g2⟩ := grounded_structures hc4 P.hstruct
    intro t ht
    simp only [domainTerms, List.mem_append, List.mem_flatMap] at ht
    rcases ht with ((ht | ⟨p, hp, ht⟩) | ⟨x, hx, ht⟩) | ⟨a, ha, ht⟩
    · rcases hnd3 with h | ⟨h, hn⟩
      · rw [h] at ht; simp at ht
      · rw [h] at ht
        obtain ⟨p, hp, rfl⟩ := List.mem_map.1 ht
        intro n x e
        rw [c4]
        have := dictGet_of_mem (d := P.σ3.consts) (k := p.1) (v := p.2) hn hp
        obtain ⟨y, hy⟩ := hc4 p (by rw [c4]; exact hp)
        rw [hy, Term.const.injEq] at e
        rw [← e.1]
        exact this
    · obtain ⟨u, hu⟩ := hv4 p hp
      obtain ⟨v, rfl⟩ := skeleton_vars hu t ht
      exact grounded_var _ v
    · exact g2 x hx t ht
    · exact g1 a ha t (by simp only [List.mem_append]; exact ht)
  have hg' : ∀ t ∈ domainTerms (⟨P.n, P.rs, T', cs', ps', fs', D', A'⟩ : DomainArgs), Grounded P.σ4 t := by
    intro t ht
    refine hg t ?_
    simp only [domainTerms, List.mem_append, List.mem_flatMap] at ht ⊢
    rcases ht with ((ht | ⟨p, hp, ht⟩) | ⟨x, hx, ht⟩) | ⟨a, ha, ht⟩
    · exact .inl (.inl (.inl (hC'.mem_iff.2 ht)))
    · exact .inl (.inl (.inr ⟨p, hP'.mem_iff.2 hp, ht⟩))
    · exact .inl (.inr ⟨x, hD'.mem_iff.2 hx, ht⟩)
    · exact .inr ⟨a, hA'.mem_iff.2 ha, ht⟩
  obtain ⟨d', hd'⟩ := (Props.C70_domain_partial _ _ hT hTd' hsame (agree_of_grounded (fun _ => rfl) hg hg')).1 ⟨d, P.hdomain⟩
  refine ⟨d', { τ5 with types := none }, ?_, Props.C70_domain_result _ _ hT hTd' hsame d d' P.hdomain hd'⟩
  exact (DomainParse.mk P.n _ hdr _ _ k1 P.rs P.σ1 hR1 _ _ k2 T' τ2 hR2 _ _ k3 cs' τ3 hR3 _ _ k4 ps' τ4 hR4 _ _ k5 fs' hR5
    A' D' τ5 hR6 hd' rfl).run

end Pddl
