/-
C52: derived predicates and the actions before them.
-/
import Verif.Proofs.Dress
import Verif.Props.ObjectType
import Verif.Props.History

namespace Pddl.Props
open Pddl Spec

/-- The full statement: two domains with the same declarations and the same sections for derived predicates, but
different actions before, between and after these, have the same derived predicates. -/
def C52_full : Prop := ∀ (F : FloatOf) (text text' : Str) (pre S S' : List Tree) (D D' : Domain) (τ τ' : PState),
  DomainText text pre S → DomainText text' pre S' → sectionsOf s%"derived" S = sectionsOf s%"derived" S' →
  parseDomain F .fresh text = .ok (D, τ) → parseDomain F .fresh text' = .ok (D', τ') → D.derived = D'.derived

def staleText : Str := s%"(define (domain d) (:requirements :typing) (:types t) (:predicates (p ?x) (q)) (:action a :parameters (?x - t) :precondition (p ?x) :effect (q)) (:derived (q) (p ?x)))"
def cleanText : Str := s%"(define (domain d) (:requirements :typing) (:types t) (:predicates (p ?x) (q)) (:derived (q) (p ?x)) (:action a :parameters (?x - t) :precondition (p ?x) :effect (q)))"

def treesOf (text : Str) : List Tree := match readText text with
  | .ok [.node ts] => ts
  | _ => []

theorem isStructure_test {ts : List Tree} (h : ts.all (fun
    | .node (.atom (.kw k) :: _) => decide (k = s%"action" ∨ k = s%"derived")
    | _ => false) = true) : ∀ t ∈ ts, IsStructure t := by
  intro t ht
  have := List.all_eq_true.1 h t ht
  split at this
  · rename_i k b
    simp only [decide_eq_true_eq] at this
    rcases this with rfl | rfl
    · exact ⟨b, .inl rfl⟩
    · exact ⟨b, .inr rfl⟩
  · simp at this

theorem notStructure_test {ts : List Tree} (h : ts.all (fun
    | .node (.atom (.kw k) :: _) => decide (k ≠ s%"action" ∧ k ≠ s%"derived")
    | _ => true) = true) : ∀ t ∈ ts, ¬ IsStructure t := by
  rintro t ht ⟨b, rfl | rfl⟩ <;> simpa using List.all_eq_true.1 h _ ht

/-- It is false: a variable that is free in the condition gets the type of the parameter of an earlier action. -/
theorem C52_fails : ¬ C52_full := by
  intro h
  have a1 : ∃ r, parseDomain (fun _ => none) .fresh staleText = .ok r ∧
      r.1.derived = [⟨⟨s%"q", []⟩, .pred ⟨s%"p", [.var ⟨s%"x", [s%"t"]⟩]⟩⟩] := by
    have : ((parseDomain (fun _ => none) .fresh staleText).toOption.map (fun r => r.1.derived.map (fun x => (x.pred.name, x.pred.terms, x.cond)))) =
      some [(s%"q", [], .pred ⟨s%"p", [.var ⟨s%"x", [s%"t"]⟩]⟩)] := by decide +kernel
    cases hp : parseDomain (fun _ => none) .fresh staleText with
    | error e => rw [hp] at this; simp [Except.toOption] at this
    | ok r =>
      rw [hp] at this
      simp only [Except.toOption, Option.map_some, Option.some.injEq] at this
      refine ⟨r, rfl, ?_⟩
      match hd : r.1.derived, this with
      | [⟨⟨n, ts⟩, c⟩], this => simp at this; simp [this]
  have a2 : ∃ r, parseDomain (fun _ => none) .fresh cleanText = .ok r ∧
      r.1.derived = [⟨⟨s%"q", []⟩, .pred ⟨s%"p", [.var ⟨s%"x", []⟩]⟩⟩] := by
    have : ((parseDomain (fun _ => none) .fresh cleanText).toOption.map (fun r => r.1.derived.map (fun x => (x.pred.name, x.pred.terms, x.cond)))) =
      some [(s%"q", [], .pred ⟨s%"p", [.var ⟨s%"x", []⟩]⟩)] := by decide +kernel
    cases hp : parseDomain (fun _ => none) .fresh cleanText with
    | error e => rw [hp] at this; simp [Except.toOption] at this
    | ok r =>
      rw [hp] at this
      simp only [Except.toOption, Option.map_some, Option.some.injEq] at this
      refine ⟨r, rfl, ?_⟩
      match hd : r.1.derived, this with
      | [⟨⟨n, ts⟩, c⟩], this => simp at this; simp [this]
  obtain ⟨⟨D, τ⟩, h1, h2⟩ := a1
  obtain ⟨⟨D', τ'⟩, h3, h4⟩ := a2
  have := h (fun _ => none) staleText cleanText ((treesOf staleText).take 5) ((treesOf staleText).drop 5)
    ((treesOf cleanText).drop 5) D D' τ τ'
    ⟨by decide +kernel, notStructure_test (by decide +kernel), isStructure_test (by decide +kernel)⟩
    ⟨by decide +kernel, notStructure_test (by decide +kernel), isStructure_test (by decide +kernel)⟩
    (by decide +kernel) h1 h3
  simp only at h2 h4
  rw [h2, h4] at this
  simp at this

/-! ### One section -/

/-- The head or the declaration gives the variable a type. -/
def HeadTyped (σ : PState) (h : Tree) (n : Str) : Prop := ∀ head p env, formulaSkeleton h = .ok head →
  dictGet σ.preds head.name = some p → derivedEnv σ.types (head.terms.zip p.terms) [] = .ok env → (dictGet env n).isSome

theorem derivedDef_bare {F : FloatOf} {σ : PState} {h c : Tree} {d : Derived} (hE : (σ.env F).Plain)
    (hw : ∀ w, Inside (.atom (.name w)) c → nameRegex w = true) (hcl : NoClash (σ.env F) c)
    (hfree : ∀ n, FreeIn n c → HeadTyped σ h n ∨ dictGet σ.params n = none)
    (hd : derivedDef F σ [h, c] = .ok d) : derivedDef F { σ with params := [] } [h, c] = .ok d := by
  obtain ⟨t, c', head, cond, e, h1, h2, h3⟩ := derivedDef_ok hd
  simp only [List.cons.injEq, and_true] at e
  obtain ⟨rfl, rfl⟩ := e
  have hg := gd_iff.1 h2
  have hg' : ((σ.env F).bare).gd c = .ok (erase cond) := gd_iff.2 (hg.erase hE hcl)
  have hg'' : (PState.env { σ with params := [] } F).gd c = .ok (erase cond) := hg'
  simp only [derivedDef, h1, hg'', ok_bind]
  unfold derivedPredicate at h3 ⊢
  split at h3
  · simp at h3
  · rename_i p hp
    split at h3
    · simp at h3
    · rename_i hlen
      rw [if_neg hlen]
      obtain ⟨env, henv, h3⟩ := bind_ok_iff.1 h3
      rw [henv, ok_bind]
      have hu : (erase cond).updateTags env = cond.updateTags env := by
        refine updateTags_erase (hg.from.exact hE) (hg.cov hE rfl hw fun n hn => ?_)
        rcases hfree n hn with hh | hh
        · exact .inl (hh head p env h1 hp henv)
        · right
          unfold GEnv.tagsOf
          rw [show dictGet (σ.env F).params n = none from hh]
      rw [hu]
      exact h3

/-- The other way round: what is accepted without parameters is accepted with them. -/
theorem derivedDef_dressed {F : FloatOf} {σ : PState} {h c : Tree} {d : Derived} (hE : (σ.env F).Plain)
    (hw : ∀ w, Inside (.atom (.name w)) c → nameRegex w = true) (hcl : NoClash (σ.env F) c)
    (hfree : ∀ n, FreeIn n c → HeadTyped σ h n ∨ dictGet σ.params n = none)
    (hd : derivedDef F { σ with params := [] } [h, c] = .ok d) : derivedDef F σ [h, c] = .ok d := by
  obtain ⟨t, c', head, cond, e, h1, h2, h3⟩ := derivedDef_ok hd
  simp only [List.cons.injEq, and_true] at e
  obtain ⟨rfl, rfl⟩ := e
  obtain ⟨cond', hg, rfl⟩ := gd_dress hE (show (σ.env F).bare.gd c = .ok cond from h2) hcl
  simp only [derivedDef, h1, hg, ok_bind]
  unfold derivedPredicate at h3 ⊢
  split at h3
  · simp at h3
  · rename_i p hp
    simp only [hp]
    split at h3
    · simp at h3
    · rename_i hlen
      rw [if_neg hlen]
      obtain ⟨env, henv, h3⟩ := bind_ok_iff.1 h3
      have henv : derivedEnv σ.types (head.terms.zip p.terms) [] = .ok env := henv
      rw [henv, ok_bind]
      have hg := gd_iff.1 hg
      have hu : (erase cond').updateTags env = cond'.updateTags env := by
        refine updateTags_erase (hg.from.exact hE) (hg.cov hE rfl hw fun n hn => ?_)
        rcases hfree n hn with hh | hh
        · exact .inl (hh head p env h1 hp henv)
        · right
          unfold GEnv.tagsOf
          rw [show dictGet (σ.env F).params n = none from hh]
      rw [← hu]
      exact h3

theorem derivedEnv_keeps {types : Option TypeDict} {l : List (Term × Term)} {env0 env : VarTypes}
    (h : derivedEnv types l env0 = .ok env) {n : Str} (hn : (dictGet env0 n).isSome) : (dictGet env n).isSome := by
  induction l generalizing env0 with
  | nil => simp only [derivedEnv, pure_ok, Except.ok.injEq] at h; subst h; exact hn
  | cons p l ih =>
    have hset : ∀ k (v : List Str), (dictGet (dictSet env0 k v) n).isSome := by
      intro k v; rw [dictGet_dictSet]; split
      · simp
      · exact hn
    obtain ⟨t, d⟩ := p
    cases t with
    | const => simp [derivedEnv] at h
    | var v =>
      simp only [derivedEnv] at h
      split at h
      · split at h
        · exact ih h (hset _ _)
        · exact ih h hn
      · obtain ⟨_, _, h⟩ := bind_ok_iff.1 h
        exact ih h (hset _ _)

theorem derivedEnv_has {types : Option TypeDict} {l : List (Term × Term)} {env0 env : VarTypes}
    (h : derivedEnv types l env0 = .ok env) {v : Var} {d : Term} (hm0 : (.var v, d) ∈ l) (ht : v.tags ≠ []) :
    (dictGet env v.name).isSome := by
  induction l generalizing env0 with
  | nil => simp at hm0
  | cons p l ih =>
    obtain ⟨t, d'⟩ := p
    rcases List.mem_cons.1 hm0 with e | hm
    · simp only [Prod.mk.injEq] at e
      obtain ⟨rfl, rfl⟩ := e
      simp only [derivedEnv] at h
      rw [if_neg (by simpa using ht)] at h
      obtain ⟨_, _, h⟩ := bind_ok_iff.1 h
      refine derivedEnv_keeps h ?_
      rw [dictGet_dictSet]; simp
    · clear hm0
      cases t with
      | const => simp [derivedEnv] at h
      | var w =>
        simp only [derivedEnv] at h
        split at h
        · split at h
          · exact ih h hm
          · exact ih h hm
        · obtain ⟨_, _, h⟩ := bind_ok_iff.1 h
          exact ih h hm

/-- A variable that has a type in the head of the result was given one by the head or the declaration. -/
theorem headTyped {F : FloatOf} {σ : PState} {h c : Tree} {d : Derived} (hd : derivedDef F σ [h, c] = .ok d) {v : Var}
    (hv : .var v ∈ d.pred.terms) (ht : v.tags ≠ []) : HeadTyped σ h v.name := by
  obtain ⟨t, c', head', cond, e, h1, h2, h3⟩ := derivedDef_ok hd
  simp only [List.cons.injEq, and_true] at e
  obtain ⟨rfl, rfl⟩ := e
  intro head p env hh hp he
  have heq : head' = head := by rw [hh] at h1; exact (Except.ok.inj h1).symm
  rw [heq] at h3
  clear h1 heq
  unfold derivedPredicate at h3
  rw [hp] at h3
  simp only at h3
  split at h3
  · simp at h3
  · rename_i hlen
    rw [he, ok_bind] at h3
    obtain ⟨ts, hts, h3⟩ := bind_ok_iff.1 h3
    obtain ⟨hd', hhd, h3⟩ := bind_ok_iff.1 h3
    obtain ⟨c', _, h3⟩ := bind_ok_iff.1 h3
    simp only [pure_ok, Except.ok.injEq] at h3
    subst h3
    obtain ⟨_, _, rfl⟩ := mkPred_ok.1 hhd
    simp only at hv
    obtain ⟨hl, hr⟩ := List.forall₂_iff_get.1 (mapM_ok_iff.1 hts)
    obtain ⟨i, hi, hi'⟩ := List.getElem_of_mem hv
    have hil : i < head.terms.length := by omega
    have hip : i < p.terms.length := by omega
    have hz' : (head.terms[i], p.terms[i]) ∈ head.terms.zip p.terms := by
      rw [List.mem_iff_getElem]
      exact ⟨i, by simp; omega, by simp⟩
    have hrt := hr i hil hi
    simp only [List.get_eq_getElem, hi'] at hrt
    cases hti : head.terms[i] with
    | const a b => rw [hti] at hrt; simp [Term.retag] at hrt
    | var w =>
      rw [hti] at hrt hz'
      simp only [Term.retag] at hrt
      split at hrt
      · rename_i tags htags
        obtain ⟨v', hv', hrt⟩ := bind_ok_iff.1 hrt
        simp only [pure_ok, Except.ok.injEq, Term.var.injEq] at hrt
        subst hrt
        obtain ⟨_, _, rfl⟩ := mkVar_set_ok.1 hv'
        simp [htags]
      · simp only [pure_ok, Except.ok.injEq, Term.var.injEq] at hrt
        subst hrt
        exact derivedEnv_has he hz' ht

/-! ### The sections of a domain -/

theorem actionParameters_get {ps : List Tree} {params : List (Str × Term)}
    (hw : ∀ w, .atom (.name w) ∈ ps → nameRegex w = true) (h : actionParameters ps = .ok params) {n : Str} {t : Term}
    (hn : dictGet params n = some t) : (∃ tags, t = .var ⟨n, tags⟩ ∧ ValidName n) ∧ Writes n ps := by
  obtain ⟨vs, hvs, h⟩ := bind_ok_iff.1 h
  simp only [pure_ok, Except.ok.injEq] at h
  subst h
  obtain ⟨l, hl, ok, hc, rfl⟩ := parseTypedVars_ok hw hvs
  have := dictOf_mem (dictGet_mem hn)
  simp only [builtVars, List.map_map, List.mem_map, Function.comp_apply, Prod.mk.injEq] at this
  obtain ⟨p, hp, rfl, rfl⟩ := this
  exact ⟨⟨_, rfl, (vars_valid ok p hp).1⟩, (hl.writes_iff _).2 ⟨p, hp, rfl⟩⟩

theorem structures_derived {F : FloatOf} {σ σ' : PState} {S : List Tree} {as : List Action} {ds : List Derived}
    {R : List (Str × Term) → Prop} (h : structures F σ S = .ok (as, ds, σ')) (h0 : R σ.params)
    (ha : ∀ a ps rest params, .node (.atom (.kw s%"action") :: .atom (.name a) :: .atom (.kw s%"parameters") :: .node ps :: rest) ∈ S →
      actionParameters ps = .ok params → R params)
    (H : ∀ b ∈ sectionsOf s%"derived" S, ∀ params d, R params →
      derivedDef F { σ with params := params } b = .ok d → derivedDef F { σ with params := [] } b = .ok d) :
    (sectionsOf s%"derived" S).mapM (derivedDef F { σ with params := [] }) = .ok ds := by
  induction S generalizing σ σ' as ds with
  | nil =>
    simp only [structures, pure_ok, Except.ok.injEq, Prod.mk.injEq] at h
    obtain ⟨_, rfl, _⟩ := h
    rfl
  | cons t S ih =>
    unfold structures at h
    split at h
    · simp at *
    · rename_i k body ts' heq
      injection heq with e1 e2
      subst e2; subst e1
      split at h
      · rename_i hk
        subst hk
        obtain ⟨⟨a, σ1⟩, hact, h⟩ := bind_ok_iff.1 h
        obtain ⟨⟨as', ds', σ2⟩, hs, h⟩ := bind_ok_iff.1 h
        simp only [pure_ok, Except.ok.injEq, Prod.mk.injEq] at h
        obtain ⟨_, rfl, _⟩ := h
        obtain ⟨n, ps, t, t', params, p, e, rfl, hpar, rfl, _⟩ := actionDef_ok hact
        have e : sectionsOf s%"derived" (Tree.node (.atom (.kw s%"action") :: [.atom (.name n), .atom (.kw s%"parameters"),
            .node ps, .atom (.kw s%"precondition"), t, .atom (.kw s%"effect"), t']) :: S) = sectionsOf s%"derived" S := by
          unfold sectionsOf; rfl
        rw [e] at H ⊢
        have := ih hs (ha _ _ _ _ (List.mem_cons_self ..) hpar) (fun a ps rest params hm => ha a ps rest params (List.mem_cons_of_mem _ hm)) H
        exact this
      · split at h
        · rename_i hk
          subst hk
          obtain ⟨d, hd, h⟩ := bind_ok_iff.1 h
          obtain ⟨⟨as', ds', σ2⟩, hs, h⟩ := bind_ok_iff.1 h
          simp only [pure_ok, Except.ok.injEq, Prod.mk.injEq] at h
          obtain ⟨_, rfl, _⟩ := h
          have e : sectionsOf s%"derived" (Tree.node (.atom (.kw s%"derived") :: body) :: S) = body :: sectionsOf s%"derived" S := by
            unfold sectionsOf; rfl
          rw [e] at H ⊢
          rw [List.mapM_cons, H body (by simp) _ d h0 hd, ok_bind,
            ih hs h0 (fun a ps rest params hm => ha a ps rest params (List.mem_cons_of_mem _ hm))
              (fun b hb => H b (List.mem_cons_of_mem _ hb))]
          rfl
        · simp at h
    · simp at h

theorem sectionsOf_mem {k : Str} {ts : List Tree} {b : List Tree} : b ∈ sectionsOf k ts ↔ .node (.atom (.kw k) :: b) ∈ ts := by
  unfold sectionsOf
  rw [List.mem_filterMap]
  constructor
  · rintro ⟨t, ht, h⟩
    split at h
    · rename_i k' b'
      split at h
      · rename_i hk
        simp only [Option.some.injEq] at h
        subst h; subst hk; exact ht
      · simp at h
    · simp at h
  · intro h
    exact ⟨_, h, by simp⟩

theorem takeSection_append {k : Str} {pre S : List Tree} (hS : ∀ t ∈ S, IsStructure t) (hk : k ≠ s%"action" ∧ k ≠ s%"derived") :
    takeSection k (pre ++ S) = ((takeSection k pre).1, (takeSection k pre).2 ++ S) := by
  cases pre with
  | nil =>
    cases S with
    | nil => rfl
    | cons t S =>
      obtain ⟨b, rfl | rfl⟩ := hS t (by simp)
      · simp only [List.nil_append, takeSection_kw, if_neg (Ne.symm hk.1)]; rfl
      · simp only [List.nil_append, takeSection_kw, if_neg (Ne.symm hk.2)]; rfl
  | cons t pre =>
    simp only [List.cons_append]
    unfold takeSection
    split
    · rename_i k' body rest heq
      injection heq with e1 e2
      subst e1; subst e2
      simp only
      split <;> simp
    · rename_i hne
      split
      · rename_i heq
        injection heq with e1 e2
        exact absurd (by rw [e1]) (hne _ _ (pre ++ S))
      · simp

theorem header_append {k n : Str} {pre S rest : List Tree} (hS : ∀ t ∈ S, IsStructure t) (h : header k (pre ++ S) = .ok (n, rest)) :
    ∃ x pre0, pre = .atom (.name s%"define") :: .node x :: pre0 ∧ rest = pre0 ++ S := by
  obtain ⟨w, x, he, _, hx⟩ := header_ok h
  cases pre with
  | nil =>
    simp only [List.nil_append] at he
    obtain ⟨b, e | e⟩ := hS (.atom (.name s%"define")) (by rw [he]; simp) <;> simp at e
  | cons t pre =>
    simp only [List.cons_append, List.cons.injEq] at he
    obtain ⟨rfl, he⟩ := he
    cases pre with
    | nil =>
      simp only [List.nil_append] at he
      obtain ⟨b, e | e⟩ := hS (.node x) (by rw [he]; simp) <;> simp only [Tree.node.injEq] at e <;> subst e <;>
        rcases hx with ⟨hx, _⟩ | ⟨hx, _⟩ <;> simp at hx
    | cons t' pre =>
      simp only [List.cons_append, List.cons.injEq] at he
      obtain ⟨rfl, rfl⟩ := he
      exact ⟨x, pre, rfl, rfl⟩

theorem section_det {α : Type} {r : Option (List Tree)} {dflt x x' : α} {f : List Tree → Except Exc (α × PState)} {σ s s' : PState}
    (h : (r = none ∧ x = dflt ∧ s = σ) ∨ ∃ b, r = some b ∧ f b = .ok (x, s))
    (h' : (r = none ∧ x' = dflt ∧ s' = σ) ∨ ∃ b, r = some b ∧ f b = .ok (x', s')) : x = x' ∧ s = s' := by
  rcases h with ⟨hr, rfl, rfl⟩ | ⟨b, hr, h⟩ <;> rcases h' with ⟨hr', rfl, rfl⟩ | ⟨b', hr', h'⟩
  · exact ⟨rfl, rfl⟩
  · rw [hr] at hr'; cases hr'
  · rw [hr] at hr'; cases hr'
  · rw [hr] at hr'
    cases hr'
    rw [h] at h'
    simp only [Except.ok.injEq, Prod.mk.injEq] at h'
    exact h'

/-- The declarations of a domain give the state in which its actions and derived predicates are read. -/
theorem declarations_det {F : FloatOf} {σ τ τ' : PState} {pre S S' : List Tree} {D D' : Domain}
    (hp : ∀ t ∈ pre, ¬ IsStructure t) (hS : ∀ t ∈ S, IsStructure t) (hS' : ∀ t ∈ S', IsStructure t)
    (P : DomainParse F σ (pre ++ S) D τ) (P' : DomainParse F σ (pre ++ S') D' τ') :
    P.ts5 = S ∧ P'.ts5 = S' ∧ P.σ4 = P'.σ4 := by
  obtain ⟨n, ts0, hheader, r1, ts1, h1, rq, σ1, hreqs, r2, ts2, h2, types, σ2, htypes, r3, ts3, h3, consts, σ3, hconsts, r4,
    ts4, h4, preds, σ4, hpreds, r5, ts5, h5, funs, hfuns, as, ds, σ5, hstruct, hdomain, hσ'⟩ := P
  obtain ⟨n', ts0', hheader', r1', ts1', h1', rq', σ1', hreqs', r2', ts2', h2', types', σ2', htypes', r3', ts3', h3', consts', σ3', hconsts', r4',
    ts4', h4', preds', σ4', hpreds', r5', ts5', h5', funs', hfuns', as', ds', σ5', hstruct', hdomain', hσ''⟩ := P'
  obtain ⟨x, pre0, hpre, rfl⟩ := header_append hS hheader
  obtain ⟨x', pre0', hpre', rfl⟩ := header_append hS' hheader'
  have hpp : pre0 = pre0' := by rw [hpre] at hpre'; simp only [List.cons.injEq] at hpre'; exact hpre'.2.2
  subst hpp
  simp only
  rw [takeSection_append hS (by decide), Prod.mk.injEq] at h1
  rw [takeSection_append hS' (by decide), Prod.mk.injEq] at h1'
  obtain ⟨rfl, rfl⟩ := h1
  obtain ⟨rfl, rfl⟩ := h1'
  rw [takeSection_append hS (by decide), Prod.mk.injEq] at h2
  rw [takeSection_append hS' (by decide), Prod.mk.injEq] at h2'
  obtain ⟨rfl, rfl⟩ := h2
  obtain ⟨rfl, rfl⟩ := h2'
  rw [takeSection_append hS (by decide), Prod.mk.injEq] at h3
  rw [takeSection_append hS' (by decide), Prod.mk.injEq] at h3'
  obtain ⟨rfl, rfl⟩ := h3
  obtain ⟨rfl, rfl⟩ := h3'
  rw [takeSection_append hS (by decide), Prod.mk.injEq] at h4
  rw [takeSection_append hS' (by decide), Prod.mk.injEq] at h4'
  obtain ⟨rfl, rfl⟩ := h4
  obtain ⟨rfl, rfl⟩ := h4'
  rw [takeSection_append hS (by decide), Prod.mk.injEq] at h5
  rw [takeSection_append hS' (by decide), Prod.mk.injEq] at h5'
  obtain ⟨rfl, rfl⟩ := h5
  obtain ⟨rfl, rfl⟩ := h5'
  have hnil : (takeSection s%"functions" (takeSection s%"predicates" (takeSection s%"constants" (takeSection s%"types"
      (takeSection s%"requirements" pre0).2).2).2).2).2 = [] := by
    match hl : (takeSection s%"functions" (takeSection s%"predicates" (takeSection s%"constants" (takeSection s%"types"
      (takeSection s%"requirements" pre0).2).2).2).2).2 with
    | [] => rfl
    | t :: l =>
      exfalso
      have hm : t ∈ pre := by
        rw [hpre]
        refine List.mem_cons_of_mem _ (List.mem_cons_of_mem _ ?_)
        exact takeSection_sub (Prod.mk.eta.symm) (takeSection_sub (Prod.mk.eta.symm) (takeSection_sub (Prod.mk.eta.symm)
          (takeSection_sub (Prod.mk.eta.symm) (takeSection_sub (Prod.mk.eta.symm) (by rw [hl]; simp)))))
      rw [hl] at hstruct
      rcases structures_mem hstruct (t := t) (by simp) with ⟨b, _, _, _, e, _⟩ | ⟨b, _, _, e, _⟩
      · exact hp t hm ⟨b, .inl e⟩
      · exact hp t hm ⟨b, .inr e⟩
  rw [hnil]
  have e1 : rq = rq' ∧ σ1 = σ1' := section_det (f := fun b => (parseRequirements b).bind (fun r => .ok (r, { σ with ext := extendReqs r })))
    (hreqs.imp id fun ⟨b, h1, h2, h3⟩ => ⟨b, h1, by rw [h2, h3]; rfl⟩) (hreqs'.imp id fun ⟨b, h1, h2, h3⟩ => ⟨b, h1, by rw [h2, h3]; rfl⟩)
  obtain ⟨rfl, rfl⟩ := e1
  obtain ⟨rfl, rfl⟩ := section_det htypes htypes'
  obtain ⟨rfl, rfl⟩ := section_det hconsts hconsts'
  obtain ⟨rfl, rfl⟩ := section_det hpreds hpreds'
  exact ⟨rfl, rfl, rfl⟩

theorem domain_fields {F : FloatOf} {σ τ : PState} {ts : List Tree} {D : Domain} (P : DomainParse F σ ts D τ)
    (hw : ∀ w, Inside (.atom (.name w)) (.node ts) → nameRegex w = true) :
    D.derived = dedupBy Derived.pyEq P.ds ∧ D.constants = dedupBy Term.pyEq P.consts := by
  obtain ⟨_, _, _, _, _, _, _, _, h⟩ := (mkDomain_ok (DomainParse.types_ok P hw).1).1 P.hdomain
  exact ⟨congrArg Domain.derived h, congrArg Domain.constants h⟩

/-- The constants of the parser, for a new parser. -/
theorem consts_plain {F : FloatOf} {τ : PState} {ts : List Tree} {D : Domain} (P : DomainParse F .fresh ts D τ) {n : Str} {t : Term}
    (h : dictGet P.σ4.consts n = some t) : (∃ x, t = .const n x) ∧ t ∈ P.consts := by
  have e4 : P.σ4.consts = P.σ3.consts := by
    rcases P.hpreds with ⟨_, _, e⟩ | ⟨b, _, e⟩
    · rw [e]
    · obtain ⟨_, _, e⟩ := bind_ok_iff.1 e
      obtain ⟨_, _, e⟩ := bind_ok_iff.1 e
      simp only [pure_ok, Except.ok.injEq, Prod.mk.injEq] at e
      rw [← e.2]
  have e2 : P.σ2.consts = [] := by
    have e1 : P.σ1.consts = [] := by rcases P.hreqs with ⟨_, _, e⟩ | ⟨_, _, _, e⟩ <;> rw [e] <;> rfl
    rcases P.htypes with ⟨_, _, e⟩ | ⟨b, _, e⟩
    · rw [e, e1]
    · obtain ⟨_, _, e⟩ := bind_ok_iff.1 e
      obtain ⟨_, _, e⟩ := bind_ok_iff.1 e
      obtain ⟨_, _, e⟩ := bind_ok_iff.1 e
      simp only [pure_ok, Except.ok.injEq, Prod.mk.injEq] at e
      rw [← e.2]; exact e1
  rw [e4] at h
  rcases P.hconsts with ⟨_, _, e⟩ | ⟨b, _, e⟩
  · rw [e, e2] at h; simp [dictGet] at h
  · obtain ⟨d, _, e⟩ := bind_ok_iff.1 e
    obtain ⟨cs, hcs, e⟩ := bind_ok_iff.1 e
    simp only [pure_ok, Except.ok.injEq, Prod.mk.injEq] at e
    rw [← e.2] at h
    have hm := dictGet_mem h
    refine ⟨?_, ?_⟩
    · have := dictOf_mem hm
      rw [mkConsts_ok hcs] at this
      simp only [List.mem_map, Prod.mk.injEq] at this
      obtain ⟨p, _, rfl, rfl⟩ := this
      exact ⟨_, rfl⟩
    · rw [← e.1]
      exact List.mem_map.2 ⟨_, hm, rfl⟩

theorem params_fresh {F : FloatOf} {τ : PState} {ts : List Tree} {D : Domain} (P : DomainParse F .fresh ts D τ) : P.σ4.params = [] := by
  have e1 : P.σ1.params = [] := by rcases P.hreqs with ⟨_, _, e⟩ | ⟨_, _, _, e⟩ <;> rw [e] <;> rfl
  have e2 : P.σ2.params = [] := by
    rcases P.htypes with ⟨_, _, e⟩ | ⟨b, _, e⟩
    · rw [e, e1]
    · obtain ⟨_, _, e⟩ := bind_ok_iff.1 e
      obtain ⟨_, _, e⟩ := bind_ok_iff.1 e
      obtain ⟨_, _, e⟩ := bind_ok_iff.1 e
      simp only [pure_ok, Except.ok.injEq, Prod.mk.injEq] at e
      rw [← e.2]; exact e1
  have e3 : P.σ3.params = [] := by
    rcases P.hconsts with ⟨_, _, e⟩ | ⟨b, _, e⟩
    · rw [e, e2]
    · obtain ⟨d, _, e⟩ := bind_ok_iff.1 e
      obtain ⟨cs, hcs, e⟩ := bind_ok_iff.1 e
      simp only [pure_ok, Except.ok.injEq, Prod.mk.injEq] at e
      rw [← e.2]; exact e2
  rcases P.hpreds with ⟨_, _, e⟩ | ⟨b, _, e⟩
  · rw [e, e3]
  · obtain ⟨_, _, e⟩ := bind_ok_iff.1 e
    obtain ⟨_, _, e⟩ := bind_ok_iff.1 e
    simp only [pure_ok, Except.ok.injEq, Prod.mk.injEq] at e
    rw [← e.2]; exact e3

/-- Variables of the condition of a derived predicate do not have the names of constants. -/
def ClashFree (D : Domain) (S : List Tree) : Prop := ∀ h c, .node [.atom (.kw s%"derived"), h, c] ∈ S →
  ∀ n l, Inside (.node l) c → Writes n l → ∀ k ∈ D.constants, k.name ≠ n

/-- The variables that are free in the condition of a derived predicate are arguments of the head with types (written
there or in the declaration), or no action has a parameter of that name. -/
def HeadsType (D : Domain) (S S' : List Tree) : Prop := ∀ p args c,
  .node [.atom (.kw s%"derived"), .node (word p :: args), c] ∈ S → ∀ n, FreeIn n c →
    (∀ x ∈ D.derived, x.pred.name = p → ∃ v : Var, .var v ∈ x.pred.terms ∧ v.name = n ∧ v.tags ≠ []) ∨
    (NoParam n S ∧ NoParam n S')

theorem derivedDef_body {F : FloatOf} {σ : PState} {b : List Tree} {d : Derived} (h : derivedDef F σ b = .ok d) :
    ∃ p args c, b = [.node (word p :: args), c] ∧ d.pred.name = p := by
  obtain ⟨t, c, head, cond, rfl, h1, h2, h3⟩ := derivedDef_ok h
  unfold formulaSkeleton at h1
  split at h1
  · rename_i n body
    refine ⟨n, body, c, rfl, ?_⟩
    obtain ⟨vs, _, h1⟩ := bind_ok_iff.1 h1
    obtain ⟨_, _, rfl⟩ := mkPred_ok.1 h1
    unfold derivedPredicate at h3
    split at h3
    · simp at h3
    · split at h3
      · simp at h3
      · obtain ⟨_, _, h3⟩ := bind_ok_iff.1 h3
        obtain ⟨_, _, h3⟩ := bind_ok_iff.1 h3
        obtain ⟨hd, hh, h3⟩ := bind_ok_iff.1 h3
        obtain ⟨_, _, h3⟩ := bind_ok_iff.1 h3
        simp only [pure_ok, Except.ok.injEq] at h3
        subst h3
        obtain ⟨_, _, rfl⟩ := mkPred_ok.1 hh
        rfl
  · simp at h1

/-- Parameters that can be left over from an action, or none. -/
def LeftOver (S S' : List Tree) (params : List (Str × Term)) : Prop := params = [] ∨ ∃ S0, (S0 = S ∨ S0 = S') ∧ ∃ a ps rest,
  .node (.atom (.kw s%"action") :: .atom (.name a) :: .atom (.kw s%"parameters") :: .node ps :: rest) ∈ S0 ∧
  actionParameters ps = .ok params

/-- The parameters left over do not matter for a derived predicate as above. -/
theorem derived_params {F : FloatOf} {ts : List Tree} {D : Domain} {τ : PState} (P : DomainParse F .fresh ts D τ) {S S' : List Tree}
    (hw : ∀ w, Inside (.atom (.name w)) (.node ts) → nameRegex w = true)
    (hwS : ∀ t ∈ S, ∀ w, Inside (.atom (.name w)) t → nameRegex w = true)
    (hwS' : ∀ t ∈ S', ∀ w, Inside (.atom (.name w)) t → nameRegex w = true)
    (hs : structures F P.σ4 S = .ok (P.as, P.ds, P.σ5)) (hclash : ClashFree D S) (hfree : HeadsType D S S') :
    ∀ b ∈ sectionsOf s%"derived" S, ∀ params d, LeftOver S S' params →
      (derivedDef F { P.σ4 with params := params } b = .ok d ↔ derivedDef F { P.σ4 with params := [] } b = .ok d) := by
  obtain ⟨f1, f2⟩ := domain_fields P hw
  have hRget : ∀ params, LeftOver S S' params → ∀ n t, dictGet params n = some t →
      (∃ tags, t = .var ⟨n, tags⟩ ∧ ValidName n) ∧ ¬ (NoParam n S ∧ NoParam n S') := by
    intro params hR n t hn
    rcases hR with rfl | ⟨S0, hS0, a, ps, rest, hm, hp⟩
    · simp [dictGet] at hn
    · have hwp : ∀ w, .atom (.name w) ∈ ps → nameRegex w = true := by
        intro w hwm
        have hi : Inside (.atom (.name w))
            (.node (.atom (.kw s%"action") :: .atom (.name a) :: .atom (.kw s%"parameters") :: .node ps :: rest)) :=
          .node (t := .node ps) (by simp) (.node hwm .refl)
        rcases hS0 with rfl | rfl
        · exact hwS _ hm w hi
        · exact hwS' _ hm w hi
      obtain ⟨k1, k2⟩ := actionParameters_get hwp hp hn
      refine ⟨k1, ?_⟩
      rintro ⟨n1, n2⟩
      rcases hS0 with rfl | rfl
      · exact n1 _ _ _ hm k2
      · exact n2 _ _ _ hm k2
  have hplain : ∀ params, LeftOver S S' params → (PState.env { P.σ4 with params := params } F).Plain := by
    intro params hR
    refine ⟨fun n t hn => (hRget params hR n t hn).1, fun n t hn => ?_⟩
    simp only [PState.env, PState.constant] at hn
    split at hn
    · rename_i t' ht'
      simp only [pure_ok, Except.ok.injEq] at hn
      subst hn
      exact (consts_plain P ht').1
    · simp at hn
  have hno : ∀ params b, b ∈ sectionsOf s%"derived" S → ∀ h c, b = [h, c] →
      NoClash (PState.env { P.σ4 with params := params } F) c := by
    rintro params b hb h c rfl n l hi hwr x hx
    have hm := sectionsOf_mem.1 hb
    simp only [PState.env, PState.constant] at hx
    split at hx
    · rename_i t' ht'
      obtain ⟨⟨tag, rfl⟩, hk⟩ := consts_plain P ht'
      have := dedupBy_cover (eq := Term.pyEq) (fun a => Term.pyEq_iff.2 rfl) hk
      rw [← f2] at this
      obtain ⟨k, hk, e⟩ := memBy_iff.1 this
      cases k with
      | var v => simp [Term.pyEq] at e
      | const m tag' =>
        simp only [Term.pyEq, decide_eq_true_eq] at e
        refine hclash h c hm n l hi hwr _ hk ?_
        simp only [Term.name]
        first | exact e.symm | exact e
    · simp at hx
  intro b hb params d hR
  have hm := sectionsOf_mem.1 hb
  have hcond : ∀ p args c, b = [.node (word p :: args), c] → ∀ n, FreeIn n c →
      HeadTyped { P.σ4 with params := params } (.node (word p :: args)) n ∨ dictGet params n = none := by
    rintro p args c rfl n hn
    rcases hfree p args c hm n hn with hx | hx
    · left
      -- the object that the parser made for this section
      rcases structures_mem hs hm with ⟨_, _, _, _, e, _⟩ | ⟨body, σ1, d1, e, hsame1, hd1, hmem⟩
      · simp at e
      · simp only [Tree.node.injEq, List.cons.injEq, true_and] at e
        subst e
        obtain ⟨p', args', c', e, hpn'⟩ := derivedDef_body hd1
        simp only [List.cons.injEq, Tree.node.injEq, word, Tree.atom.injEq, Tok.name.injEq] at e
        have := dedupBy_cover (eq := Derived.pyEq) eqv_derived.refl hmem
        rw [← f1] at this
        obtain ⟨x, hx1, e'⟩ := memBy_iff.1 this
        have hpe : d1.pred.norm = x.pred.norm := by
          simp only [Derived.pyEq, Bool.and_eq_true] at e'
          first | exact Pred.pyEq_iff.1 e'.1 | exact (Pred.pyEq_iff.1 e'.1).symm
        simp only [Pred.norm, Prod.mk.injEq] at hpe
        obtain ⟨v, hv, rfl, hvt⟩ := hx x hx1 (by rw [← hpe.1, hpn']; exact e.1.1.symm)
        have : Term.norm (.var v) ∈ d1.pred.terms.map Term.norm := by
          rw [hpe.2]; exact List.mem_map_of_mem hv
        obtain ⟨u, hu, hun⟩ := List.mem_map.1 this
        have hpy := Term.pyEq_iff.2 hun
        cases u with
        | const a b => simp [Term.pyEq] at hpy
        | var u =>
          simp only [Term.pyEq, Var.pyEq, Bool.and_eq_true, decide_eq_true_eq] at hpy
          have hut : u.tags ≠ [] := by
            intro hnil
            apply hvt
            have := setEq_iff.1 hpy.2
            rw [hnil] at this
            match hvv : v.tags with
            | [] => rfl
            | y :: ys => rw [hvv] at this; exact absurd ((this y).2 (by simp)) (by simp)
          have hh := headTyped hd1 hu hut
          rw [hpy.1] at hh
          intro head q env a1 a2 a3
          exact hh head q env a1 (by rw [hsame1.2.2.1]; exact a2) (by rw [hsame1.2.2.2]; exact a3)
    · right
      cases hg : dictGet params n with
      | none => rfl
      | some t => exact absurd hx (hRget params hR n t hg).2
  have hwc : ∀ h c, b = [h, c] → ∀ w, Inside (.atom (.name w)) c → nameRegex w = true := by
    rintro h c rfl w hi
    exact hwS _ hm w (.node (t := c) (by simp) hi)
  constructor
  · intro hdb
    obtain ⟨p, args, c, rfl, hpn⟩ := derivedDef_body hdb
    exact derivedDef_bare (σ := { P.σ4 with params := params }) (hplain params hR) (hwc _ _ rfl) (hno params _ hb _ _ rfl)
      (hcond _ _ _ rfl) hdb
  · intro hdb
    obtain ⟨p, args, c, rfl, hpn⟩ := derivedDef_body hdb
    exact derivedDef_dressed (σ := { P.σ4 with params := params }) (hplain params hR) (hwc _ _ rfl) (hno params _ hb _ _ rfl)
      (hcond _ _ _ rfl) hdb

/-- C52, for conditions as above. Missing: conditions with other variables (see `C52_fails`), and conditions with a
variable and a constant of the same name. -/
theorem C52_partial (F : FloatOf) (text text' : Str) (pre S S' : List Tree) (D D' : Domain) (τ τ' : PState)
    (ht : DomainText text pre S) (ht' : DomainText text' pre S') (hsame : sectionsOf s%"derived" S = sectionsOf s%"derived" S')
    (hd : parseDomain F .fresh text = .ok (D, τ)) (hd' : parseDomain F .fresh text' = .ok (D', τ'))
    (hclash : ClashFree D S) (hfree : HeadsType D S S') : D.derived = D'.derived := by
  obtain ⟨ts, hr, hdd⟩ := parseDomain_ok hd
  obtain ⟨ts', hr', hdd'⟩ := parseDomain_ok hd'
  have e1 : ts = pre ++ S := by
    have := ht.read; rw [hr] at this
    simpa only [Except.ok.injEq, List.cons.injEq, Tree.node.injEq, and_true] using this
  have e2 : ts' = pre ++ S' := by
    have := ht'.read; rw [hr'] at this
    simpa only [Except.ok.injEq, List.cons.injEq, Tree.node.injEq, and_true] using this
  subst e1; subst e2
  have hw : ∀ w, Inside (.atom (.name w)) (.node (pre ++ S)) → nameRegex w = true := fun w hi =>
    readText_words hr (by simp) hi
  have hw' : ∀ w, Inside (.atom (.name w)) (.node (pre ++ S')) → nameRegex w = true := fun w hi =>
    readText_words hr' (by simp) hi
  obtain ⟨P⟩ := domainDef_ok hdd
  obtain ⟨P'⟩ := domainDef_ok hdd'
  obtain ⟨g1, g2, g3⟩ := declarations_det ht.declarations ht.structures ht'.structures P P'
  obtain ⟨f1, f2⟩ := domain_fields P hw
  obtain ⟨f1', f2'⟩ := domain_fields P' hw'
  have hs := P.hstruct
  have hs' := P'.hstruct
  rw [g1] at hs
  rw [g2, ← g3] at hs'
  have hwS : ∀ t ∈ S, ∀ w, Inside (.atom (.name w)) t → nameRegex w = true := fun t ht w hi =>
    hw w (.node (List.mem_append.2 (.inr ht)) hi)
  have hwS' : ∀ t ∈ S', ∀ w, Inside (.atom (.name w)) t → nameRegex w = true := fun t ht w hi =>
    hw' w (.node (List.mem_append.2 (.inr ht)) hi)
  have hbare : ∀ b ∈ sectionsOf s%"derived" S, ∀ params d, LeftOver S S' params →
      derivedDef F { P.σ4 with params := params } b = .ok d → derivedDef F { P.σ4 with params := [] } b = .ok d :=
    fun b hb params d hR => (derived_params P hw hwS hwS' hs hclash hfree b hb params d hR).1
  have hR0 : LeftOver S S' P.σ4.params := .inl (params_fresh P)
  have k1 := structures_derived (R := LeftOver S S') hs hR0
    (fun a ps rest params hm hp => .inr ⟨S, .inl rfl, a, ps, rest, hm, hp⟩) hbare
  have k2 := structures_derived (R := LeftOver S S') hs' hR0
    (fun a ps rest params hm hp => .inr ⟨S', .inr rfl, a, ps, rest, hm, hp⟩) (by rw [← hsame]; exact hbare)
  rw [hsame, k2] at k1
  rw [f1, f1', Except.ok.inj k1]

/-! An example: the head types the variable, and an earlier action has a parameter of that name and another type. -/

def typedText : Str := s%"(define (domain d) (:requirements :typing) (:types t u) (:predicates (p ?x) (q ?x - t)) (:action a :parameters (?x - u) :precondition (p ?x) :effect (p ?x)) (:derived (q ?x) (p ?x)))"
def typedText' : Str := s%"(define (domain d) (:requirements :typing) (:types t u) (:predicates (p ?x) (q ?x - t)) (:derived (q ?x) (p ?x)))"

theorem parse_some {F : FloatOf} {text : Str} (h : (parseDomain F .fresh text).toOption.isSome = true) :
    ∃ D τ, parseDomain F .fresh text = .ok (D, τ) := by
  cases hp : parseDomain F .fresh text with
  | error e => rw [hp] at h; simp [Except.toOption] at h
  | ok r => exact ⟨r.1, r.2, rfl⟩

theorem free_atom {n : Str} {k : Tok} : ¬ FreeIn n (.atom k) := by intro h; cases h

example : ∃ D D' τ τ' pre S S', DomainText typedText pre S ∧ DomainText typedText' pre S' ∧
    sectionsOf s%"derived" S = sectionsOf s%"derived" S' ∧
    parseDomain (fun _ => none) .fresh typedText = .ok (D, τ) ∧ parseDomain (fun _ => none) .fresh typedText' = .ok (D', τ') ∧
    ClashFree D S ∧ HeadsType D S S' ∧ D.derived ≠ [] := by
  obtain ⟨D, τ, h1⟩ := parse_some (F := fun _ => none) (text := typedText) (by decide +kernel)
  obtain ⟨D', τ', h2⟩ := parse_some (F := fun _ => none) (text := typedText') (by decide +kernel)
  have hp : D.derived.map (fun x => (x.pred.name, x.pred.terms, x.cond)) =
      [(s%"q", [.var ⟨s%"x", [s%"t"]⟩], .pred ⟨s%"p", [.var ⟨s%"x", [s%"t"]⟩]⟩)] := by
    have : ((parseDomain (fun _ => none) .fresh typedText).toOption.map (fun r => r.1.derived.map (fun x => (x.pred.name, x.pred.terms, x.cond)))) =
      some [(s%"q", [.var ⟨s%"x", [s%"t"]⟩], .pred ⟨s%"p", [.var ⟨s%"x", [s%"t"]⟩]⟩)] := by decide +kernel
    rw [h1] at this
    simpa [Except.toOption] using this
  have hc : D.constants = [] := by
    have : ((parseDomain (fun _ => none) .fresh typedText).toOption.map (fun r => r.1.constants.length)) = some 0 := by decide +kernel
    rw [h1] at this
    simpa [Except.toOption] using this
  refine ⟨D, D', τ, τ', (treesOf typedText).take 5, (treesOf typedText).drop 5, (treesOf typedText').drop 5,
    ⟨by decide +kernel, notStructure_test (by decide +kernel), isStructure_test (by decide +kernel)⟩,
    ⟨by decide +kernel, notStructure_test (by decide +kernel), isStructure_test (by decide +kernel)⟩,
    by decide +kernel, h1, h2, ?_, ?_, ?_⟩
  · intro h c _ n l _ _ k hk
    rw [hc] at hk; simp at hk
  · intro p args c hm n hn
    left
    have hm' := sectionsOf_mem.2 hm
    have e : sectionsOf s%"derived" ((treesOf typedText).drop 5) =
      [[.node [word s%"q", .atom .qmark, word s%"x"], .node [word s%"p", .atom .qmark, word s%"x"]]] := by decide +kernel
    rw [e] at hm'
    simp only [List.mem_singleton, List.cons.injEq, Tree.node.injEq, and_true] at hm'
    obtain ⟨⟨_, rfl⟩, rfl⟩ := hm'
    have hx : n = s%"x" := by
      cases hn with
      | here h =>
        obtain ⟨a, b, e⟩ := h
        match a, e with
        | [], e => simp [varTrees, word] at e
        | [_], e => simp [varTrees, word] at e; exact e.2.1.symm
        | [_, _], e => simp [varTrees, word] at e
        | _ :: _ :: _ :: _, e => simp [varTrees, word] at e
      | part hm _ h =>
        simp only [List.mem_cons, List.not_mem_nil, or_false, word] at hm
        rcases hm with rfl | rfl | rfl <;> exact absurd h free_atom
      | under hq _ _ =>
        obtain ⟨w, _, e⟩ := hq
        simp [word] at e
    subst hx
    intro x hx _
    have := List.mem_map_of_mem (f := fun x : Derived => (x.pred.name, x.pred.terms, x.cond)) hx
    rw [hp] at this
    simp only [List.mem_singleton, Prod.mk.injEq] at this
    exact ⟨⟨s%"x", [s%"t"]⟩, by rw [this.2.1]; simp, rfl, by simp⟩
  · intro hnil
    rw [hnil] at hp
    simp at hp

end Pddl.Props
