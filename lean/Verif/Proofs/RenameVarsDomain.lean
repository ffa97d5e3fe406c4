/-
Renaming variables: actions, domains and plans.
-/
import Verif.Proofs.RenameVarsText
import Verif.Proofs.RenameVarsSem
import Verif.Props.DerivedOrder
import Verif.Props.Undeclared
import Verif.Proofs.RulesAction

namespace Pddl
open Spec Props

section
variable {ρ : Str → Str} {K : Str → Prop}

/-! ### Actions -/

theorem params_plain {ps : List Tree} {params : List (Str × Term)} (hw : ∀ w, .atom (.name w) ∈ ps → nameRegex w = true)
    (h : actionParameters ps = .ok params) {n : Str} {t : Term} (hn : dictGet params n = some t) :
    ∃ tags, t = .var ⟨n, tags⟩ ∧ ValidName n := (actionParameters_get hw h hn).1

theorem actionDef_renVar (R : VarRenaming ρ K) {F : FloatOf} {σ σ' : PState} {b : List Tree} {a : Action}
    (hw : ∀ w, Inside (.atom (.name w)) (.node b) → nameRegex w = true)
    (hc : ∀ n t, σ.constant n = .ok t → K n ∧ ∃ x, t = .const n x)
    (h : actionDef F σ b = .ok (a, σ')) (x : List (Str × Term)) :
    ∃ y, actionDef F { σ with params := x } (Tree.renVars ρ b) = .ok (a.renVar ρ, { σ with params := y }) := by
  obtain ⟨n, ps, t, t', params, p, e, rfl, h1, rfl, h2, h3, h4⟩ := actionDef_ok h
  have hwp : ∀ w, .atom (.name w) ∈ ps → nameRegex w = true := fun w hm =>
    hw w (.node (t := .node ps) (by simp) (.node hm .refl))
  have hwt : ∀ w, Inside (.atom (.name w)) t → nameRegex w = true := fun w hm => hw w (.node (t := t) (by simp) hm)
  have hwt' : ∀ w, Inside (.atom (.name w)) t' → nameRegex w = true := fun w hm => hw w (.node (t := t') (by simp) hm)
  have hE : (PState.env { σ with params := params } F).Plain := ⟨fun n t hn => params_plain hwp h1 hn, fun n t hn => (hc n t hn).2⟩
  have hK : ∀ n t, (PState.env { σ with params := params } F).constant n = .ok t → K n := fun n t hn => (hc n t hn).1
  have g1 := R.actionParameters hwp h1
  have g2 := R.preGd hE hK rfl hwt h2
  have g3 := R.effOpt hE hK rfl hwt' h3
  have ht : t ≠ .atom .qmark := by rintro rfl; simp [GEnv.preGd, GEnv.gd] at h2
  have ht' : t' ≠ .atom .qmark := by rintro rfl; simp [GEnv.effOpt, GEnv.effect, GEnv.pEffect] at h3
  refine ⟨params.map (fun p => (ρ p.1, p.2.renVar ρ)), ?_⟩
  rw [renVars_cons (by simp), renVars_cons (by simp), renVars_cons (by simp), renVars_cons (by simp), renVars_cons ht,
    renVars_cons (by simp), renVars_cons ht']
  have g4 := mkAction_renVar (ρ := ρ) n (params.map Prod.snd) (some p) (some e)
  rw [h4] at g4
  simp only [Tree.renVar, Tree.renVars, actionDef, check, decide_true, if_true, ok_bind, g1, actionPre, actionEff, pure_ok]
  have e1 : (PState.env { σ with params := params.map (fun p => (ρ p.1, p.2.renVar ρ)) } F) =
      GEnv.renVar ρ (PState.env { σ with params := params } F) := rfl
  simp only [e1, g2, g3, ok_bind, pure_ok]
  simp only [Option.map_some, List.map_map, Function.comp_def] at g4
  simp only [List.map_map, Function.comp_def, decide_true, if_true, ok_bind]
  rw [g4]
  rfl

theorem structures_renVar {F : FloatOf} {σ σ' : PState} {S S' : List Tree} {as : List Action} {ds : List Derived}
    (hw : ∀ w, ∀ t ∈ S, Inside (.atom (.name w)) t → nameRegex w = true)
    (hc : ∀ n t, σ.constant n = .ok t → K n ∧ ∃ x, t = .const n x)
    (hS : ∀ t ∈ S, ∃ b, t = .node (.atom (.kw s%"action") :: b))
    (hR : List.Forall₂ (RenamedText K) S S') (h : structures F σ S = .ok (as, ds, σ')) (x : List (Str × Term)) :
    ∃ as' y, structures F { σ with params := x } S' = .ok (as', [], y) ∧ ds = [] ∧
      List.Forall₂ (RenamedVars K) as as' ∧ as.map Action.name = S.map actionNameOf := by
  induction hR generalizing σ as ds σ' x with
  | nil =>
    simp only [structures, pure_ok, Except.ok.injEq, Prod.mk.injEq] at h
    obtain ⟨rfl, rfl, rfl⟩ := h
    exact ⟨[], _, rfl, rfl, .nil, rfl⟩
  | @cons t t' S S' hr hR ih =>
    obtain ⟨b, rfl⟩ := hS t (by simp)
    obtain ⟨ρ, R, rfl⟩ := hr
    simp only [structures, if_true] at h
    obtain ⟨⟨a, σ1⟩, h1, h⟩ := bind_ok_iff.1 h
    obtain ⟨⟨as1, ds1, σ2⟩, h2, h⟩ := bind_ok_iff.1 h
    simp only [pure_ok, Except.ok.injEq, Prod.mk.injEq] at h
    obtain ⟨rfl, rfl, rfl⟩ := h
    have hname : a.name = actionNameOf (.node (.atom (.kw s%"action") :: b)) := by
      obtain ⟨n, ps, t, t', params, p, e, rfl, _, _, _, _, h4⟩ := actionDef_ok h1
      rw [(Rules.mkAction_ok.1 h4).2]; rfl
    obtain ⟨y, hy⟩ := actionDef_renVar R (fun w hi => hw w (.node (.atom (.kw s%"action") :: b)) (by simp) (by
      cases hi with
      | node hm hi => exact .node (List.mem_cons_of_mem _ hm) hi)) hc h1 x
    obtain ⟨n, ps, t, t', params, p, e, rfl, _, rfl, _, _, _⟩ := actionDef_ok h1
    obtain ⟨as', z, g1, g2, g3, g4⟩ := ih (σ := { σ with params := params }) (fun w t ht => hw w t (List.mem_cons_of_mem _ ht)) hc
      (fun t ht => hS t (List.mem_cons_of_mem _ ht)) h2 y
    refine ⟨a.renVar ρ :: as', z, ?_, g2, .cons ⟨ρ, R, rfl⟩ g3, by rw [List.map_cons, List.map_cons, hname, g4]⟩
    rw [Tree.renVar, renVars_cons (by simp), Tree.renVar]
    simp only [structures, if_true, hy, ok_bind]
    have : ({ σ with params := y } : PState) = { ({ σ with params := params } : PState) with params := y } := rfl
    rw [this, g1]
    rfl

theorem structures_derived_append {F : FloatOf} {σ σ' : PState} {S0 S : List Tree} {as : List Action} {ds : List Derived}
    (h0 : ∀ t ∈ S0, ∃ b, t = .node (.atom (.kw s%"derived") :: b)) (h : structures F σ (S0 ++ S) = .ok (as, ds, σ')) :
    ∃ d0 ds1, structures F σ S = .ok (as, ds1, σ') ∧ ds = d0 ++ ds1 ∧
      ∀ {S' as' ds' τ}, structures F σ S' = .ok (as', ds', τ) → structures F σ (S0 ++ S') = .ok (as', d0 ++ ds', τ) := by
  induction S0 generalizing ds with
  | nil => exact ⟨[], ds, h, rfl, fun h => h⟩
  | cons t S0 ih =>
    obtain ⟨b, rfl⟩ := h0 t (by simp)
    simp only [List.cons_append, structures] at h
    rw [if_neg (by decide), if_pos (by trivial)] at h
    obtain ⟨d, hd, h⟩ := bind_ok_iff.1 h
    obtain ⟨⟨as1, ds1, σ1⟩, h1, h⟩ := bind_ok_iff.1 h
    simp only [pure_ok, Except.ok.injEq, Prod.mk.injEq] at h
    obtain ⟨rfl, rfl, rfl⟩ := h
    obtain ⟨d0, ds2, g1, g2, g3⟩ := ih (fun t ht => h0 t (List.mem_cons_of_mem _ ht)) h1
    refine ⟨d :: d0, ds2, g1, by rw [g2]; rfl, ?_⟩
    intro S' as' ds' τ hs
    simp only [List.cons_append, structures]
    rw [if_neg (by decide), if_pos (by trivial)]
    simp only [hd, ok_bind, g3 hs]
    rfl

/-! ### Domains -/

theorem mem_termsAll' {as : List Expr} {t : Term} : t ∈ Spec.termsAll as ↔ ∃ a ∈ as, t ∈ Spec.terms a := by
  induction as with
  | nil => simp [Spec.termsAll]
  | cons a as ih => simp [Spec.termsAll, ih]

theorem terms_renVar (e : Expr) : ∀ t ∈ Spec.terms (e.renVar ρ), ∃ u ∈ Spec.terms e, t.tags = u.tags := by
  have hmap : ∀ ts : List Term, ∀ t ∈ ts.map (Term.renVar ρ), ∃ u ∈ ts, t.tags = u.tags := by
    intro ts t ht
    obtain ⟨u, hu, rfl⟩ := List.mem_map.1 ht
    exact ⟨u, hu, Term.renVar_tags u⟩
  have hvs : ∀ vs : List Var, ∀ t ∈ (vs.map (Var.renVar ρ)).map Term.var, ∃ u ∈ vs.map Term.var, t.tags = u.tags := by
    intro vs t ht
    simp only [List.map_map, List.mem_map, Function.comp_apply] at ht
    obtain ⟨v, hv, rfl⟩ := ht
    exact ⟨.var v, List.mem_map_of_mem hv, rfl⟩
  have hall : ∀ as : List Expr, (∀ a ∈ as, ∀ t ∈ Spec.terms (a.renVar ρ), ∃ u ∈ Spec.terms a, t.tags = u.tags) →
      ∀ t ∈ Spec.termsAll (Expr.renVars ρ as), ∃ u ∈ Spec.termsAll as, t.tags = u.tags := by
    intro as ih t ht
    rw [Expr.renVars_eq, mem_termsAll'] at ht
    obtain ⟨a', ha', ht⟩ := ht
    obtain ⟨a, ha, rfl⟩ := List.mem_map.1 ha'
    obtain ⟨u, hu, e⟩ := ih a ha t ht
    exact ⟨u, mem_termsAll'.2 ⟨a, ha, hu⟩, e⟩
  induction e using Expr.ind with
  | hpred p => exact hmap p.terms
  | heq l r => exact hmap [l, r]
  | hnfun f => exact hmap f.terms
  | hnum n => simp [Expr.renVar, Spec.terms]
  | hbfun o as ih => exact hall as ih
  | hbin o as ih => exact hall as ih
  | hnot a ih => exact ih
  | hquant q vs c ih =>
    intro t ht
    simp only [Expr.renVar, Spec.terms, List.mem_append] at ht ⊢
    rcases ht with ht | ht
    · obtain ⟨u, hu, e⟩ := hvs vs t ht; exact ⟨u, .inl hu, e⟩
    · obtain ⟨u, hu, e⟩ := ih t ht; exact ⟨u, .inr hu, e⟩
  | hwhen c e ihc ihe =>
    intro t ht
    simp only [Expr.renVar, Spec.terms, List.mem_append] at ht ⊢
    rcases ht with ht | ht
    · obtain ⟨u, hu, e⟩ := ihc t ht; exact ⟨u, .inl hu, e⟩
    · obtain ⟨u, hu, e⟩ := ihe t ht; exact ⟨u, .inr hu, e⟩
  | hfall vs e ih =>
    intro t ht
    simp only [Expr.renVar, Spec.terms, List.mem_append] at ht ⊢
    rcases ht with ht | ht
    · obtain ⟨u, hu, e⟩ := hvs vs t ht; exact ⟨u, .inl hu, e⟩
    · obtain ⟨u, hu, e⟩ := ih t ht; exact ⟨u, .inr hu, e⟩

theorem wellTyped_renVar {declared : Str → Prop} {rs : List Req} {a : Action} (h : WellTypedAction declared rs a) :
    WellTypedAction declared rs (a.renVar ρ) := by
  have key : ∀ t u : Term, t.tags = u.tags → WellTypedTerm declared rs u → WellTypedTerm declared rs t := by
    intro t u e hu; unfold WellTypedTerm; rw [e]; exact hu
  have hopt : ∀ o : Option Expr, ∀ t ∈ termsOpt (o.map (Expr.renVar ρ)), ∃ u ∈ termsOpt o, t.tags = u.tags := by
    intro o t ht
    cases o with
    | none => simp [termsOpt] at ht
    | some e => exact terms_renVar e t ht
  intro t ht
  simp only [Action.renVar, List.mem_append] at ht
  rcases ht with (ht | ht) | ht
  · obtain ⟨u, hu, rfl⟩ := List.mem_map.1 ht
    exact key _ u (Term.renVar_tags u) (h u (by simp [hu]))
  · obtain ⟨u, hu, e⟩ := hopt _ t ht
    exact key _ u e (h u (by simp [hu]))
  · obtain ⟨u, hu, e⟩ := hopt _ t ht
    exact key _ u e (h u (by simp [hu]))

theorem dedup_names {as : List Action} (h : (as.map Action.name).Nodup) : dedupBy Action.pyEq as = as := by
  apply dedupBy_eq_self
  rw [List.Nodup, List.pairwise_map] at h
  refine h.imp ?_
  intro a b hne
  simp only [Action.pyEq, Bool.and_eq_false_iff, decide_eq_false_iff_not]
  exact .inl (.inl (.inl (Ne.symm hne)))

theorem renamed_names {as as' : List Action} (h : List.Forall₂ (RenamedVars K) as as') :
    as'.map Action.name = as.map Action.name := by
  induction h with
  | nil => rfl
  | cons h _ ih => obtain ⟨ρ, _, rfl⟩ := h; simp [ih, Action.renVar]

theorem domain_renVar {F : FloatOf} {τ : PState} {pre S0 S S' : List Tree} {D : Domain}
    (hp : ∀ t ∈ pre, ¬ IsStructure t) (hS0 : ∀ t ∈ S0, ∃ b, t = .node (.atom (.kw s%"derived") :: b))
    (hS : ∀ t ∈ S, ∃ b, t = .node (.atom (.kw s%"action") :: b)) (hn : (S.map actionNameOf).Nodup)
    (hw : ∀ w, Inside (.atom (.name w)) (.node (pre ++ (S0 ++ S))) → nameRegex w = true)
    (P : DomainParse F .fresh (pre ++ (S0 ++ S)) D τ) (hK : ∀ n tag, .const n tag ∈ D.constants → K n)
    (hR : List.Forall₂ (RenamedText K) S S') :
    ∃ as' τ', domainDef F .fresh (pre ++ (S0 ++ S')) = .ok ({ D with actions := as' }, τ') ∧
      List.Forall₂ (RenamedVars K) D.actions as' := by
  have hst : ∀ t ∈ S0 ++ S, IsStructure t := by
    intro t ht
    rcases List.mem_append.1 ht with h | h
    · obtain ⟨b, rfl⟩ := hS0 t h; exact ⟨b, .inr rfl⟩
    · obtain ⟨b, rfl⟩ := hS t h; exact ⟨b, .inl rfl⟩
  have hst' : ∀ t ∈ S0 ++ S', IsStructure t := by
    intro t ht
    rcases List.mem_append.1 ht with h | h
    · obtain ⟨b, rfl⟩ := hS0 t h; exact ⟨b, .inr rfl⟩
    · obtain ⟨u, hu, ρ, _, rfl⟩ := forall2_mem hR t h
      obtain ⟨b, rfl⟩ := hS u hu
      exact ⟨Tree.renVars ρ b, .inl (by rw [Tree.renVar, renVars_cons (by simp), Tree.renVar])⟩
  have hts5 := (declarations_det hp hst hst P P).1
  have hconst : ∀ n t, P.σ4.constant n = .ok t → K n ∧ ∃ x, t = .const n x := by
    intro n t h
    have hg : dictGet P.σ4.consts n = some t := by
      unfold PState.constant at h
      split at h <;> simp_all
    obtain ⟨⟨x, rfl⟩, hm⟩ := consts_plain P hg
    obtain ⟨u, hu, he⟩ := memBy_iff.1 (dedupBy_cover (fun a => Term.pyEq_iff.2 rfl) hm)
    rw [← (domain_fields P hw).2] at hu
    refine ⟨?_, x, rfl⟩
    cases u with
    | var v => simp [Term.pyEq] at he
    | const m tag =>
      simp only [Term.pyEq, decide_eq_true_eq] at he
      subst he
      exact hK _ _ hu
  have htypes := (DomainParse.types_ok P hw).1
  obtain ⟨n, ts0, hheader, r1, ts1, h1, rq, σ1, hreqs, r2, ts2, h2, types, σ2, htypes', r3, ts3, h3, consts, σ3, hconsts, r4,
    ts4, h4, preds, σ4, hpreds, r5, ts5, h5, funs, hfuns, as, ds, σ5, hstruct, hdomain, hσ'⟩ := P
  obtain ⟨x, pre0, hpre, rfl⟩ := header_append hst hheader
  simp only at hts5 hconst htypes
  subst hts5
  rw [takeSection_append hst (by decide), Prod.mk.injEq] at h1
  obtain ⟨rfl, rfl⟩ := h1
  rw [takeSection_append hst (by decide), Prod.mk.injEq] at h2
  obtain ⟨rfl, rfl⟩ := h2
  rw [takeSection_append hst (by decide), Prod.mk.injEq] at h3
  obtain ⟨rfl, rfl⟩ := h3
  rw [takeSection_append hst (by decide), Prod.mk.injEq] at h4
  obtain ⟨rfl, rfl⟩ := h4
  rw [takeSection_append hst (by decide), Prod.mk.injEq] at h5
  obtain ⟨rfl, h5⟩ := h5
  obtain ⟨d0, ds1, g1, rfl, g3⟩ := structures_derived_append hS0 hstruct
  obtain ⟨as', y, k1, rfl, k3, k4⟩ := structures_renVar (fun w t ht hi => hw w (.node (t := t) (by simp [ht]) hi)) hconst hS hR g1 σ4.params
  have hnil := List.append_left_eq_self.1 h5
  have k5 := g3 k1
  obtain ⟨q1, q2, q3, q4, q5, q6, q7, q8, rfl⟩ := (mkDomain_ok htypes).1 hdomain
  have hnames : as'.map Action.name = as.map Action.name := by
    exact renamed_names k3
  have hd : dedupBy Action.pyEq as = as := dedup_names (by rw [k4]; exact hn)
  have hd' : dedupBy Action.pyEq as' = as' := dedup_names (by rw [hnames, k4]; exact hn)
  refine ⟨as', { y with types := none }, ?_, by simpa [domainOf, hd] using k3⟩
  have hmk : mkDomain ⟨n, rq, types, consts, preds, funs, d0 ++ [], as'⟩ =
      .ok { domainOf ⟨n, rq, types, consts, preds, funs, d0 ++ [], as⟩ with actions := as' } := by
    refine (mkDomain_ok htypes).2 ⟨q1, q2, q3, q4, q5, q6, ?_, q8, by simp only [domainOf, hd']⟩
    intro a' ha'
    simp only [← dedup_firstOcc eqv_action, hd'] at ha'
    simp only [← dedup_firstOcc eqv_action, hd] at q7
    obtain ⟨a, ha, ρ, _, rfl⟩ := forall2_mem k3 a' ha'
    obtain ⟨w1, w2, w3⟩ := q7 a ha
    exact ⟨by simpa [Action.renVar] using w1, by simpa [Action.renVar] using w2, wellTyped_renVar w3⟩
  have hhead : header s%"domain" (pre ++ (S0 ++ S')) = .ok (n, pre0 ++ (S0 ++ S')) := by
    rw [hpre] at hheader ⊢
    have hdrop : ∀ l : List Tree, dropKeyword s%"define" (.atom (.name s%"define") :: l) = some l := fun l => rfl
    simp only [List.cons_append, header, hdrop] at hheader ⊢
    split at hheader
    · simp only [pure_ok, Except.ok.injEq, Prod.mk.injEq] at hheader
      rw [hheader.1]
      rfl
    · cases hheader
  exact DomainParse.run ⟨n, _, hhead, _, _, takeSection_append hst' (by decide), rq, σ1, hreqs, _, _, takeSection_append hst' (by decide),
    types, σ2, htypes', _, _, takeSection_append hst' (by decide), consts, σ3, hconsts, _, _, takeSection_append hst' (by decide),
    preds, σ4, hpreds, _, _, takeSection_append hst' (by decide), funs, hfuns, as', d0 ++ [], y, by rw [hnil]; exact k5, hmk, rfl⟩

/-! ### Plans -/

theorem lastNamed_renVar {as as' : List Action} (h : List.Forall₂ (RenamedVars K) as as') (n : Str) :
    (lastNamed n as = none ∧ lastNamed n as' = none) ∨
      ∃ a a', lastNamed n as = some a ∧ lastNamed n as' = some a' ∧ RenamedVars K a a' := by
  unfold lastNamed
  have h' := List.rel_reverse h
  generalize as.reverse = l at h'
  generalize as'.reverse = l' at h'
  induction h' with
  | nil => exact .inl ⟨rfl, rfl⟩
  | @cons a a' l l' hr _ ih =>
    obtain ⟨ρ, R, rfl⟩ := hr
    have e : (a.renVar ρ).name = a.name := rfl
    by_cases hn : a.name = n
    · exact .inr ⟨a, a.renVar ρ, by simp [hn], by simp [e, hn], ρ, R, rfl⟩
    · simpa [List.find?_cons, e, hn] using ih

theorem planCheck_renVar {D : Domain} {as' : List Action} (h : List.Forall₂ (RenamedVars K) D.actions as') (plan : Plan) (pr : Problem) :
    plan.check { D with actions := as' } pr = plan.check D pr := by
  unfold Plan.check
  have hn : as'.map Action.name = D.actions.map Action.name := renamed_names h
  simp only [hn]
  induction plan.steps with
  | nil => rfl
  | cons s l ih =>
    obtain ⟨n, args⟩ := s
    simp only [checkSteps, ih, schemas_get]
    rcases lastNamed_renVar h n with ⟨h1, h2⟩ | ⟨a, a', h1, h2, ρ, _, rfl⟩
    · rw [h1, h2]
    · rw [h1, h2]
      simp [Action.renVar]

theorem planInst_renVar {D : Domain} {as' : List Action} (h : List.Forall₂ (RenamedVars K) D.actions as') {steps : List (Str × List Term)}
    (hc : ∀ s ∈ steps, ∀ t ∈ s.2, ∃ n tag, t = .const n tag) (hk : ∀ s ∈ steps, ConstsIn K s.2)
    (ha : ∀ a ∈ D.actions, ∀ e, PartOf a e → ∀ n tag, UsesConst n tag e → K n) :
    (∃ e, instSteps D.schemas steps = .error e ∧ instSteps ({ D with actions := as' } : Domain).schemas steps = .error e) ∨
    ∃ gs gs', instSteps D.schemas steps = .ok gs ∧ instSteps ({ D with actions := as' } : Domain).schemas steps = .ok gs' ∧
      List.Forall₂ (RenamedVars K) gs gs' := by
  induction steps with
  | nil => exact .inr ⟨[], [], rfl, rfl, .nil⟩
  | cons s l ih =>
    obtain ⟨n, args⟩ := s
    simp only [instSteps, schemas_get]
    rcases lastNamed_renVar h n with ⟨h1, h2⟩ | ⟨a, a', h1, h2, ρ, R, rfl⟩
    · simp only [h1, h2]
      exact .inl ⟨_, rfl, rfl⟩
    · have hi := R.actionInst (a := a) (hc _ List.mem_cons_self) (hk _ List.mem_cons_self) (ha a (lastNamed_mem h1).1)
      simp only [h1, h2, hi]
      cases hg : a.inst args with
      | error e => exact .inl ⟨e, rfl, rfl⟩
      | ok g =>
        have em : (Except.ok g : Except Exc Action).map (Action.renVar ρ) = .ok (g.renVar ρ) := rfl
        simp only [em, ok_bind]
        rcases ih (fun s hs => hc s (List.mem_cons_of_mem _ hs)) (fun s hs => hk s (List.mem_cons_of_mem _ hs)) with
          ⟨e, e1, e2⟩ | ⟨gs, gs', e1, e2, e3⟩
        · rw [e1, e2]; exact .inl ⟨e, rfl, rfl⟩
        · rw [e1, e2]; exact .inr ⟨_, _, rfl, rfl, .cons ⟨ρ, R, rfl⟩ e3⟩

theorem runs_renVar {E} {ν : Str → E} {gs gs' : List Action} {I J : Interp E} (h : List.Forall₂ (RenamedVars K) gs gs')
    (hc : ∀ g ∈ gs, ∀ e, PartOf g e → freeVars e = []) : Runs ν gs' I J ↔ Runs ν gs I J := by
  induction h generalizing I with
  | nil => constructor <;> (intro h; cases h; exact .nil)
  | @cons g g' gs gs' hr _ ih =>
    obtain ⟨ρ, R, rfl⟩ := hr
    have key : ∀ J, Acts ν (g.renVar ρ) I J ↔ Acts ν g I J := fun J => by
      rw [acts_renVar (fun a b => R.inj a b)]
      exact acts_closed (hc g List.mem_cons_self)
    constructor
    · intro h
      cases h with
      | cons h1 h2 => exact .cons ((key _).1 h1) ((ih (fun g hg => hc g (List.mem_cons_of_mem _ hg))).1 h2)
    · intro h
      cases h with
      | cons h1 h2 => exact .cons ((key _).2 h1) ((ih (fun g hg => hc g (List.mem_cons_of_mem _ hg))).2 h2)
end
end Pddl
