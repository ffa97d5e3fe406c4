/-
Domains that have been read can be written, up to known obstacles.
-/
import Verif.Proofs.EffectRead
import Verif.Proofs.DomainRead
import Verif.Proofs.Written
import Verif.Proofs.ProblemRead
import Verif.Props.ObjectType
import Verif.Spec.Written
import Verif.Spec.DomainObstacle

namespace Pddl
open Spec Spec.Grammar Props

variable {F : FloatOf}

/-! ### Variables that have been read -/

theorem varsText_vars {ts : List Tree} {l : TypedList} (h : VarsText ts l) :
    l.vars.Pairwise (fun a b => a.2 = [] → b.2 = []) := by
  induction h with
  | rest ns =>
    have : (⟨[], ns.map .str⟩ : TypedList).vars = ns.map (fun n => (n, [])) := by
      simp only [TypedList.vars, TypedList.assigned, List.flatMap_nil, List.nil_append, List.map_map]
      induction ns with
      | nil => rfl
      | cons n ns ih => simp only [List.map_cons, List.filterMap_cons, Function.comp_apply, ih]
    rw [this]
    exact List.pairwise_map.2 (List.pairwise_of_forall (fun _ _ _ => rfl))
  | @group n ns t types ts l ht _ ih =>
    have hne : types ≠ [] := by cases ht <;> simp
    have : (⟨((n :: ns).map .str, .list types) :: l.groups, l.rest⟩ : TypedList).vars =
        (n :: ns).map (fun n => (n, types)) ++ l.vars := by
      simp only [TypedList.vars, TypedList.assigned, List.flatMap_cons, List.append_assoc, List.filterMap_append]
      congr 1
      generalize n :: ns = ns
      induction ns with
      | nil => rfl
      | cons n ns ih => simp only [List.map_cons, List.filterMap_cons]; rw [ih]; rfl
    rw [this, List.pairwise_append]
    refine ⟨List.pairwise_map.2 (List.pairwise_of_forall (fun _ _ e => absurd e hne)), ih, ?_⟩
    intro a ha b _ e
    obtain ⟨m, _, rfl⟩ := List.mem_map.1 ha
    exact absurd e hne

theorem dd_empty {l : List Str} : dd l = [] ↔ l = [] := sameTypes_nil (fun _ => dd_mem)

theorem builtVars_decl {ts : List Tree} {l : TypedList} (h : VarsText ts l) (ok : l.Ok) (hc : Compatible l.itemsOf) :
    DeclVars (builtVars l) ∧ ∀ v ∈ builtVars l, v.tags.Nodup := by
  have hv := vars_valid ok
  refine ⟨⟨?_, ?_, ?_, ?_⟩, ?_⟩
  · intro v hm
    obtain ⟨p, hp, rfl⟩ := List.mem_map.1 hm
    exact (hv p hp).1
  · intro v hm
    obtain ⟨p, hp, rfl⟩ := List.mem_map.1 hm
    exact fun t ht => (hv p hp).2 t (dd_mem.1 ht)
  · unfold builtVars
    rw [List.pairwise_map]
    exact (varsText_vars h).imp (fun h e => dd_empty.2 (h (dd_empty.1 e)))
  · intro v hm w hm' e
    obtain ⟨p, hp, rfl⟩ := List.mem_map.1 hm
    obtain ⟨q, hq, rfl⟩ := List.mem_map.1 hm'
    intro x
    simp only [dd_mem]
    exact compatible_vars hc hp hq e x
  · intro v hm
    obtain ⟨p, hp, rfl⟩ := List.mem_map.1 hm
    exact dedup_nodup _

theorem typedVars_read {ts : List Tree} {vs : List Var} (hw : ∀ w, .atom (.name w) ∈ ts → nameRegex w = true)
    (h : parseTypedVars ts = .ok vs) : DeclVars vs ∧ ∀ v ∈ vs, v.tags.Nodup := by
  obtain ⟨l, hl, ok, hc, rfl⟩ := parseTypedVars_ok hw h
  exact builtVars_decl hl ok hc

/-- The parameters of an action. -/
theorem params_read {ps : List Tree} {params : List (Str × Term)} (hw : ∀ w, .atom (.name w) ∈ ps → nameRegex w = true)
    (h : actionParameters ps = .ok params) : ∃ vs : List Var, params = vs.map (fun v => (v.name, Term.var v)) ∧
      (∀ v ∈ vs, ValidName v.name ∧ v.tags.Nodup ∧ ∀ t ∈ v.tags, ValidType t) ∧ (vs.map Var.name).Nodup ∧
      vs.Pairwise (fun a b => a.tags = [] → b.tags = []) := by
  obtain ⟨vs0, h1, h2⟩ := bind_ok_iff.1 h
  simp only [pure_ok, Except.ok.injEq] at h2
  obtain ⟨hd, hn⟩ := typedVars_read hw h1
  have hmem : ∀ p ∈ params, ∃ v ∈ vs0, p = (v.name, .var v) := by
    intro p hp
    rw [← h2] at hp
    obtain ⟨v, hv, rfl⟩ := List.mem_map.1 (dictOf_mem hp)
    exact ⟨v, hv, rfl⟩
  obtain ⟨vs, hvs⟩ : ∃ vs : List Var, params = vs.map (fun v => (v.name, Term.var v)) := by
    clear * - hmem
    induction params with
    | nil => exact ⟨[], rfl⟩
    | cons p ps ih =>
      obtain ⟨vs, rfl⟩ := ih (fun p hp => hmem p (List.mem_cons_of_mem _ hp))
      obtain ⟨v, _, rfl⟩ := hmem p (by simp)
      exact ⟨v :: vs, rfl⟩
  have hin : ∀ v ∈ vs, v ∈ vs0 := by
    intro v hv
    obtain ⟨w, hw, e⟩ := hmem (v.name, .var v) (by rw [hvs]; exact List.mem_map.2 ⟨v, hv, rfl⟩)
    simp only [Prod.mk.injEq, Term.var.injEq] at e
    rw [e.2]; exact hw
  have hkeys := dictOf_keys (vs0.map (fun v => (v.name, Term.var v)))
  have hfst : (vs0.map (fun v => (v.name, Term.var v))).map Prod.fst = vs0.map Var.name := by
    simp [List.map_map, Function.comp_def]
  have hfst' : params.map Prod.fst = vs.map Var.name := by
    rw [hvs]; simp [List.map_map, Function.comp_def]
  rw [h2, hfst, hfst'] at hkeys
  refine ⟨vs, hvs, fun v hv => ⟨hd.names v (hin v hv), hn v (hin v hv), hd.types v (hin v hv)⟩, hkeys.1, ?_⟩
  have key : (vs0.map Var.name).Pairwise (fun a b => (∃ v ∈ vs0, v.name = a ∧ v.tags = []) → ∃ v ∈ vs0, v.name = b ∧ v.tags = []) := by
    rw [List.pairwise_map]
    refine List.Pairwise.imp_of_mem ?_ hd.order
    rintro a b ha hb h ⟨v, hv, e1, e2⟩
    exact ⟨b, hb, rfl, h ((sameTypes_nil (hd.same v hv a ha e1)).1 e2)⟩
  have key := key.sublist hkeys.2.1
  rw [List.pairwise_map] at key
  refine List.Pairwise.imp_of_mem ?_ key
  intro a b ha hb h e
  obtain ⟨v, hv, e1, e2⟩ := h ⟨a, hin a ha, rfl, e⟩
  exact (sameTypes_nil (hd.same v hv b (hin b hb) e1)).1 e2

theorem params_print {ps : List Tree} {params : List (Str × Term)} (hw : ∀ w, .atom (.name w) ∈ ps → nameRegex w = true)
    (h : actionParameters ps = .ok params) (hl : ∀ p ∈ params, p.2.tags.length ≤ 1) :
    ∃ vs : List Var, params = vs.map (fun v => (v.name, Term.var v)) ∧ PrintVars vs := by
  obtain ⟨vs, rfl, h1, h2, h3⟩ := params_read hw h
  refine ⟨vs, rfl, fun v hv => (h1 v hv).1, h2, ?_, h3⟩
  intro v hv
  have hl := hl (v.name, .var v) (List.mem_map.2 ⟨v, hv, rfl⟩)
  simp only [Term.tags] at hl
  match hvt : v.tags, hl with
  | [], _ => exact .inl rfl
  | [t], _ => exact .inr ⟨t, rfl, (h1 v hv).2.2 t (by rw [hvt]; simp)⟩

/-! ### The state behind the sections -/

/-- What the state of the parser says is in the domain. -/
structure Reflects (d : Domain) (σ : PState) : Prop where
  ext : ∀ r ∈ σ.ext, r ∈ extendReqs d.reqs
  consts : ∀ n t, dictGet σ.consts n = some t → ValidName n ∧ (∃ x, t = .const n x) ∧ constantNamed d.constants n = .ok t

theorem Reflects.same {d : Domain} {σ τ : PState} (h : Reflects d σ) (e : τ.Same σ) : Reflects d τ := by
  obtain ⟨h1, h2⟩ := h
  exact ⟨by rw [e.1]; exact h1, by rw [e.2.1]; exact h2⟩

theorem Reflects.constant {d : Domain} {σ : PState} (h : Reflects d σ) {n : Str} {t : Term} (hc : σ.constant n = .ok t) :
    ValidName n ∧ (∃ x, t = .const n x) ∧ constantNamed d.constants n = .ok t := by
  unfold PState.constant at hc
  split at hc
  · rename_i u hu
    simp only [pure_ok, Except.ok.injEq] at hc
    subst hc
    exact h.consts n _ hu
  · simp at hc

/-- The parameters are variables under their valid names. -/
def ParamsNamed (ps : List (Str × Term)) : Prop := ∀ p ∈ ps, ∃ v : Var, p = (v.name, .var v) ∧ ValidName v.name

theorem Reflects.scope {d : Domain} {σ : PState} (h : Reflects d σ) (hp : ParamsNamed σ.params) : DomainScope (σ.env F) where
  constants n t hc := ⟨(h.constant hc).1, (h.constant hc).2.1⟩
  params n t ht := by
    obtain ⟨v, e, hv⟩ := hp _ (mem_of_dictGet ht)
    simp only [Prod.mk.injEq] at e
    exact ⟨by rw [e.1]; exact hv, v, e.2, e.1.symm⟩
  typedLists := rfl

theorem Reflects.le {d : Domain} {σ : PState} (h : Reflects d σ) {params : List Term}
    (hp : σ.params = params.map (fun t => (t.name, t))) : ScopeLe (σ.env F) (domainScope F d params) where
  float := rfl
  ext := h.ext
  constant n t hc := (h.constant hc).2.2
  params n := by rw [domainScope, ← hp]; rfl
  typedVars := rfl

/-! ### Actions that have been read -/

theorem action_reread {d : Domain} {σ σ' : PState} {body : List Tree} {a : Action} (hσ : Reflects d σ)
    (hw : ∀ w, Inside (.atom (.name w)) (section_ s%"action" body) → nameRegex w = true)
    (h : actionDef F σ body = .ok (a, σ')) :
    BuiltAction a ∧ (∀ t ∈ a.params ++ termsOpt a.pre ++ termsOpt a.eff, t.tags.Nodup) ∧
    ((∀ t ∈ a.params, t.tags.length ≤ 1) →
      (∀ e, a.pre = some e → NoObstacle F e ∧ (e = .bin .or [] → Allows (domainScope F d []) [.disPrecondition, .adl])) →
      (∀ e, a.eff = some e → NoObstacle F e ∧ e ≠ .bin .or []) → PrintAction F d a) := by
  obtain ⟨n, ps, t, t', params, p, e, rfl, hpar, rfl, hpre, heff, hact⟩ := actionDef_ok h
  have hwp : ∀ w, .atom (.name w) ∈ ps → nameRegex w = true :=
    fun w h => hw w (.node (t := .node ps) (by simp) (.node h .refl))
  obtain ⟨vs, hvs, hv1, hv2, hv3⟩ := params_read hwp hpar
  unfold mkAction at hact
  obtain ⟨m, hm, hact'⟩ := bind_ok_iff.1 hact
  simp only [pure_ok, Except.ok.injEq] at hact'
  subst hact'
  have hnamed : ParamsNamed params := by
    rw [hvs]
    intro q hq
    obtain ⟨v, hv, rfl⟩ := List.mem_map.1 hq
    exact ⟨v, rfl, (hv1 v hv).1⟩
  have hσ1 : Reflects d { σ with params := params } := hσ.same ⟨rfl, rfl, rfl, rfl⟩
  have hE : DomainScope (({ σ with params := params } : PState).env F) := hσ1.scope hnamed
  have hnd : ∀ n t, dictGet (({ σ with params := params } : PState).env F).params n = some t → t.tags.Nodup := by
    intro n t ht
    have := mem_of_dictGet ht
    change (n, t) ∈ params at this
    rw [hvs] at this
    obtain ⟨v, hv, e⟩ := List.mem_map.1 this
    simp only [Prod.mk.injEq] at e
    rw [← e.2]; exact (hv1 v hv).2.1
  have hps : params.map Prod.snd = vs.map Term.var := by rw [hvs]; simp [List.map_map, Function.comp_def]
  have hpairs : params = (params.map Prod.snd).map (fun t => (t.name, t)) := by
    rw [hps, hvs]; simp [List.map_map, Function.comp_def, Term.name]
  have hle : ScopeLe (({ σ with params := params } : PState).env F) (domainScope F d (params.map Prod.snd)) := hσ1.le hpairs
  have hor : mkOr [] = .bin .or [] := rfl
  have hpg : p.Good ∧ BoundSets p ∧ ((NoObstacle F p ∧ (p = .bin .or [] → Allows (domainScope F d []) [.disPrecondition, .adl])) →
      PrintCond (domainScope F d (params.map Prod.snd)) p) := by
    unfold GEnv.preGd at hpre
    split at hpre
    · simp only [pure_ok, Except.ok.injEq] at hpre
      subst hpre
      exact ⟨good_construct (by simp), .none rfl, fun h => .or (as := []) (by simp) (h.2 rfl)⟩
    · have hr := gd_rel hpre
      exact ⟨hr.good, hr.bounds, fun h => hle.cond ((hr.read hE.toTermScope).print hE h.1)⟩
  have heg : e.Good ∧ BoundSets e ∧ ((NoObstacle F e ∧ e ≠ .bin .or []) →
      PrintEff (domainScope F d (params.map Prod.snd)) true e) := by
    unfold GEnv.effOpt at heff
    split at heff
    · simp only [pure_ok, Except.ok.injEq] at heff
      subst heff
      exact ⟨good_construct (by simp), .none rfl, fun h => absurd rfl h.2⟩
    · have hr := effect_iff.1 heff
      exact ⟨hr.good, hr.bounds, fun h => hle.eff ((hr.read hE.toTermScope).print hE h.1).1⟩
  refine ⟨⟨hpg.1.built, heg.1.built, n, hm⟩, ?_, ?_⟩
  · intro t ht
    simp only [List.mem_append] at ht
    rcases ht with (ht | ht) | ht
    · rw [hps] at ht
      obtain ⟨v, hv, rfl⟩ := List.mem_map.1 ht
      exact (hv1 v hv).2.1
    · exact tagSets_of hE.toTermScope hnd (preGd_from hpre) hpg.2.1 t ht
    · exact tagSets_of hE.toTermScope hnd (effOpt_from heff) heg.2.1 t ht
  · intro h1 h2 h3
    obtain ⟨vs', hvs', hpv⟩ := params_print hwp hpar (fun q hq => h1 _ (List.mem_map.2 ⟨q, hq, rfl⟩))
    refine ⟨⟨vs', ?_, hpv⟩, ?_, ?_⟩
    · rw [hvs']; simp [List.map_map, Function.comp_def]
    · intro x hx
      cases hx
      exact hpg.2.2 (h2 p rfl)
    · intro x hx
      cases hx
      exact heg.2.2 (h3 e rfl)

/-! ### Declarations that have been read -/

theorem skeleton_decl {t : Tree} {p : Pred} (hw : ∀ w, Inside (.atom (.name w)) t → nameRegex w = true)
    (h : formulaSkeleton t = .ok p) : (∃ n ts, mkPred n ts = .ok p) ∧
      ∃ vs : List Var, p.terms = vs.map Term.var ∧ DeclVars vs ∧ ∀ v ∈ vs, v.tags.Nodup := by
  unfold formulaSkeleton at h
  split at h
  · rename_i n b
    obtain ⟨vs, hv, h⟩ := bind_ok_iff.1 h
    obtain ⟨hd, hn⟩ := typedVars_read (fun w hi => hw w (.node (.tail _ hi) .refl)) hv
    refine ⟨⟨_, _, h⟩, vs, ?_, hd, hn⟩
    obtain ⟨_, _, rfl⟩ := mkPred_ok.1 h
    rfl
  · simp at h

theorem functionSkeleton_decl {t : Tree} {f : NFun} (hw : ∀ w, Inside (.atom (.name w)) t → nameRegex w = true)
    (h : functionSkeleton t = .ok f) : (∃ n ts, mkNFun n ts = .ok f) ∧
      (∃ vs : List Var, f.terms = vs.map Term.var ∧ DeclVars vs) ∧ (f.name = s%"total-cost" → f.terms = []) := by
  unfold functionSkeleton at h
  split at h
  · rename_i n b
    split at h
    · simp at h
    · rename_i toks ht
      obtain ⟨l, hl, h⟩ := bind_ok_iff.1 h
      split at h
      · refine ⟨⟨_, _, h⟩, ⟨[], ?_, ⟨by simp, by simp, .nil, by simp⟩⟩, fun _ => ?_⟩
        · obtain ⟨_, rfl⟩ := mkNFun_ok.1 h; rfl
        · obtain ⟨_, rfl⟩ := mkNFun_ok.1 h; rfl
      · rename_i hn
        obtain ⟨vs, hv, h⟩ := bind_ok_iff.1 h
        have hp : parseTypedVars b = .ok vs := by
          unfold parseTypedVars
          rw [ht]
          simp only [hl, ok_bind, hv]
        obtain ⟨hd, _⟩ := typedVars_read (fun w hi => hw w (.node (.tail _ hi) .refl)) hp
        refine ⟨⟨_, _, h⟩, ⟨vs, ?_, hd⟩, fun e => ?_⟩
        · obtain ⟨_, rfl⟩ := mkNFun_ok.1 h; rfl
        · obtain ⟨_, rfl⟩ := mkNFun_ok.1 h
          exact absurd e hn
  · simp at h

theorem functions_decl {b : List Tree} {d : FunDict} (h : sectionFunctions b = .ok d) :
    IsFunDict d ∧ ∀ f ∈ d, (f.2 = none ∨ f.2 = some s%"number") ∧ ∃ t ∈ b, functionSkeleton t = .ok f.1 := by
  unfold sectionFunctions at h
  obtain ⟨toks, h1, h2⟩ := bind_ok_iff.1 h
  obtain ⟨_, _, h3⟩ := bind_ok_iff.1 h2
  clear h h2
  rw [typedListError_ok] at h3
  obtain ⟨l, g, hl, rfl, hg, hf⟩ := functionToks_text _ rfl h1
  rw [parseTypedList_eq false _ (funList_ok hg), funList_items] at h3
  have hu : Unequal ([] ++ g.pairs.map (fun p => (Item.fn p.2, p.1.toList))) := by
    by_contra hc
    rw [(addAll_false List.Pairwise.nil).2 hc] at h3
    cases h3
  rw [(addAll_false List.Pairwise.nil).1 hu] at h3
  simp only [ok_bind, TIndex.names, namesOf_eq, List.nil_append] at h3
  rw [if_pos] at h3
  · simp only [ok_bind, pure_ok, List.map_map, Function.comp_def, Except.ok.injEq] at h3
    have h3 := h3.symm.trans (fns_filterMap g.pairs)
    have hm : ∀ p ∈ l, p.1 ∈ b := by
      clear * - hl
      induction hl with
      | rest ts => intro p hp; obtain ⟨t, ht, rfl⟩ := List.mem_map.1 hp; exact ht
      | group _ _ ih =>
        intro p hp
        rcases List.mem_append.1 hp with hp | hp
        · obtain ⟨t, ht, rfl⟩ := List.mem_map.1 hp; simp [ht]
        · simp [ih p hp]
    subst h3
    constructor
    · unfold IsFunDict
      rw [List.pairwise_map]
      rw [List.nil_append] at hu
      unfold Unequal at hu
      rw [List.pairwise_map] at hu
      exact hu.imp (fun h => funs_symm h)
    · intro f hf'
      obtain ⟨q, hq, rfl⟩ := List.mem_map.1 hf'
      constructor
      · simp only [Groups.pairs, List.mem_append, List.mem_flatMap, List.mem_map] at hq
        rcases hq with ⟨x, hx, y, _, rfl⟩ | ⟨y, _, rfl⟩
        · right
          simp only [Prod.swap, hg x hx]
        · exact .inl rfl
      · obtain ⟨p, hp, h⟩ := forall₂_right hf q hq
        exact ⟨p.1, hm p hp, h.1⟩
  · intro p hp
    obtain ⟨q, _, rfl⟩ := List.mem_map.1 hp
    cases q.1 <;> simp

/-! ### A domain read by a new parser -/

theorem sectionTypes_state {σ σ' : PState} {b : List Tree} {d : TypeDict} (h : sectionTypes σ b = .ok (d, σ')) :
    σ' = { σ with types := some d } := by
  unfold sectionTypes at h
  simp only [bind_ok_iff, pure_ok, Except.ok.injEq, Prod.mk.injEq] at h
  obtain ⟨_, _, _, _, _, _, rfl, rfl⟩ := h
  rfl

theorem sectionConstants_state {σ σ' : PState} {b : List Tree} {cs : List Term} (h : sectionConstants σ b = .ok (cs, σ')) :
    ∃ c, σ' = { σ with consts := c } := by
  unfold sectionConstants at h
  simp only [bind_ok_iff, pure_ok, Except.ok.injEq, Prod.mk.injEq] at h
  obtain ⟨_, _, _, _, _, rfl⟩ := h
  exact ⟨_, rfl⟩

theorem sectionPredicates_state {σ σ' : PState} {b : List Tree} {ps : List Pred} (h : sectionPredicates σ b = .ok (ps, σ')) :
    ∃ c, σ' = { σ with preds := c } := by
  unfold sectionPredicates at h
  simp only [bind_ok_iff, pure_ok, Except.ok.injEq, Prod.mk.injEq] at h
  obtain ⟨_, _, _, _, _, rfl⟩ := h
  exact ⟨_, rfl⟩

section
variable {ts : List Tree} {d : Domain} {σ' : PState} (P : DomainParse F PState.fresh ts d σ')

include P

theorem DomainParse.section_mem {k : Str} {b : List Tree}
    (h : section_ k b ∈ optText s%"requirements" P.r1 ++ optText s%"types" P.r2 ++
      optText s%"constants" P.r3 ++ optText s%"predicates" P.r4 ++ optText s%"functions" P.r5 ++ P.ts5) {t : Tree} (ht : t ∈ b) :
    Inside t (.node ts) := by
  have hts : Tree.node ts = .node (word s%"define" :: _ :: _) := P.sections_of.choose_spec.2
  simp only [Tree.node.injEq] at hts
  refine .node (t := section_ k b) ?_ (.node (.tail _ ht) .refl)
  rw [hts]
  exact .tail _ (.tail _ h)

theorem DomainParse.state1 : P.σ1 = PState.fresh ∨ P.σ1 = { PState.fresh with ext := extendReqs P.rs } := by
  rcases P.hreqs with ⟨_, _, h⟩ | ⟨b, _, _, h⟩
  · exact .inl h
  · exact .inr h

theorem DomainParse.state2 : (P.types = [] ∧ P.σ2 = P.σ1) ∨ P.σ2 = { P.σ1 with types := some P.types } := by
  rcases P.htypes with ⟨_, h, h'⟩ | ⟨b, _, h⟩
  · exact .inl ⟨h, h'⟩
  · exact .inr (sectionTypes_state h)

theorem DomainParse.state3 : ∃ c, P.σ3 = { P.σ2 with consts := c } := by
  rcases P.hconsts with ⟨_, _, h⟩ | ⟨b, _, h⟩
  · exact ⟨P.σ2.consts, h⟩
  · exact sectionConstants_state h

theorem DomainParse.state4 : ∃ c, P.σ4 = { P.σ3 with preds := c } := by
  rcases P.hpreds with ⟨_, _, h⟩ | ⟨b, _, h⟩
  · exact ⟨P.σ3.preds, h⟩
  · exact sectionPredicates_state h

theorem DomainParse.fresh_ext : P.σ4.ext = extendReqs P.rs ∨ P.σ4.ext = [] := by
  have h1 : P.σ1.ext = extendReqs P.rs ∨ P.σ1.ext = [] := by
    rcases P.state1 with h | h <;> rw [h]
    · exact .inr rfl
    · exact .inl rfl
  have h2 : P.σ2.ext = P.σ1.ext := by
    rcases P.state2 with ⟨_, h⟩ | h <;> rw [h]
  obtain ⟨_, h3⟩ := P.state3
  obtain ⟨_, h4⟩ := P.state4
  rw [h4, h3]
  simp only
  rw [h2]; exact h1

theorem DomainParse.fresh_consts : ∃ cs : List (Str × Term), P.σ4.consts = cs ∧ P.consts = cs.map Prod.snd ∧ IsDict cs ∧
    ∀ p ∈ cs, ValidName p.1 ∧ IsObject p.2 ∧ ∃ x, p.2 = .const p.1 x := by
  have h1 : P.σ1.consts = [] := by
    rcases P.state1 with h | h <;> rw [h] <;> rfl
  have h2 : P.σ2.consts = P.σ1.consts := by
    rcases P.state2 with ⟨_, h⟩ | h <;> rw [h]
  obtain ⟨_, h4⟩ := P.state4
  have h4 : P.σ4.consts = P.σ3.consts := by rw [h4]
  rw [h4]
  rcases P.hconsts with ⟨_, h, h'⟩ | ⟨b, _, h⟩
  · rw [h, h', h2, h1]
    exact ⟨[], rfl, rfl, List.Pairwise.nil, by simp⟩
  · unfold sectionConstants at h
    obtain ⟨l, _, h⟩ := bind_ok_iff.1 h
    obtain ⟨cs, hc, h⟩ := bind_ok_iff.1 h
    simp only [pure_ok, Except.ok.injEq, Prod.mk.injEq] at h
    obtain ⟨h, h'⟩ := h
    rw [← h, ← h']
    exact ⟨_, rfl, rfl, (dictOf_keys cs).1, fun p hp => mkConsts_objects hc p (dictOf_mem hp)⟩

theorem DomainParse.fresh_preds : ∀ n p, dictGet P.σ4.preds n = some p → p ∈ P.preds ∧ p.name = n := by
  have h1 : P.σ1.preds = [] := by
    rcases P.state1 with h | h <;> rw [h] <;> rfl
  have h2 : P.σ2.preds = P.σ1.preds := by
    rcases P.state2 with ⟨_, h⟩ | h <;> rw [h]
  obtain ⟨_, h3⟩ := P.state3
  have h3 : P.σ3.preds = P.σ2.preds := by rw [h3]
  rcases P.hpreds with ⟨_, h, h'⟩ | ⟨b, _, h⟩
  · rw [h', h3, h2, h1]
    intro n p h
    simp [dictGet] at h
  · unfold sectionPredicates at h
    obtain ⟨ps, _, h⟩ := bind_ok_iff.1 h
    obtain ⟨_, _, h⟩ := bind_ok_iff.1 h
    simp only [pure_ok, Except.ok.injEq, Prod.mk.injEq] at h
    obtain ⟨h, h'⟩ := h
    rw [← h, ← h']
    intro n p hp
    obtain ⟨q, hq, e⟩ := List.mem_map.1 (dictOf_mem (mem_of_dictGet hp))
    simp only [Prod.mk.injEq] at e
    rw [← e.2]
    exact ⟨hq, e.1⟩

theorem DomainParse.fresh_types : (P.σ4.types = none ∧ P.types = []) ∨ P.σ4.types = some P.types := by
  obtain ⟨_, h3⟩ := P.state3
  obtain ⟨_, h4⟩ := P.state4
  rw [h4, h3]
  simp only
  rcases P.state2 with ⟨h', h⟩ | h
  · left
    rw [h]
    refine ⟨?_, h'⟩
    rcases P.state1 with h | h <;> rw [h] <;> rfl
  · right; rw [h]

variable (hT : IsDict P.types)
include hT

theorem DomainParse.domain_eq : d = domainOf ⟨P.n, P.rs, P.types, P.consts, P.preds, P.funs, P.ds, P.as⟩ :=
  ((mkDomain_ok (by exact hT)).1 P.hdomain).2.2.2.2.2.2.2.2

theorem DomainParse.reflects : Reflects d P.σ4 := by
  have hd := P.domain_eq hT
  constructor
  · intro r hr
    rcases P.fresh_ext with h | h
    · rw [h] at hr
      have he : d.reqs = reqSet P.rs := congrArg Domain.reqs hd
      refine (extend_congr (rs := P.rs) (fun r => ?_) r).1 hr
      rw [he]
      exact mem_reqSet.symm
    · rw [h] at hr; simp at hr
  · obtain ⟨cs, h1, h2, h3, h4⟩ := P.fresh_consts
    intro n t ht
    rw [h1] at ht
    have hm := mem_of_dictGet ht
    obtain ⟨hv, _, x, hx⟩ := h4 _ hm
    simp only at hv hx
    refine ⟨hv, ⟨x, hx⟩, ?_⟩
    have hdc : d.constants = dedupBy Term.pyEq P.consts := congrArg Domain.constants hd
    have htm : t ∈ P.consts := by rw [h2]; exact List.mem_map.2 ⟨_, hm, rfl⟩
    obtain ⟨u, hu, e⟩ := memBy_iff.1 (dedupBy_cover (fun a => Term.pyEq_iff.2 rfl) htm)
    rw [← hdc] at hu
    have hown : ∀ c ∈ d.constants, (c.name, c) ∈ cs := by
      intro c hc
      rw [hdc] at hc
      have := dedupBy_subset hc
      rw [h2] at this
      obtain ⟨q, hq, rfl⟩ := List.mem_map.1 this
      obtain ⟨_, _, y, hy⟩ := h4 q hq
      rw [hy]
      simp only [Term.name]
      rw [← hy]; exact hq
    have hun : u.name = n := by
      rw [Term.pyEq_iff] at e
      have h5 : t.name = n := by rw [hx]; rfl
      rw [← h5]
      revert e
      rw [hx]
      cases u <;> simp [Term.norm, Term.name] <;> intro h <;> simp [h]
    unfold constantNamed
    cases hf : d.constants.find? (fun c => decide (c.name = n)) with
    | none =>
      have := List.find?_eq_none.1 hf u hu
      simp [hun] at this
    | some c =>
      have h6 := List.find?_some hf
      have h7 := List.mem_of_find?_eq_some hf
      simp only [decide_eq_true_eq] at h6
      have h8 := dictGet_of_mem h3 (hown c h7)
      rw [h6, ht] at h8
      simp only [Option.some.injEq] at h8
      rw [h8]

end

/-! ### Derived predicates that have been read -/

theorem updateTags_good {f : Expr} : ∀ {env : VarTypes} {g : Expr}, f.updateTags env = .ok g → g.Good := by
  have hl : ∀ (as : List Expr), (∀ a ∈ as, ∀ {env : VarTypes} {g : Expr}, a.updateTags env = .ok g → g.Good) →
      ∀ {env : VarTypes} {bs : List Expr}, Expr.updateTagss env as = .ok bs → ∀ b ∈ bs, b.Good := by
    intro as ih env bs h b hb
    obtain ⟨a, ha, h⟩ := forall₂_right (updateTagss_ok.1 h) b hb
    exact ih a ha h
  induction f using Expr.ind with
  | hpred p =>
    intro env g h
    rw [Expr.updateTags] at h
    obtain ⟨ts, _, h⟩ := bind_ok_iff.1 h
    obtain ⟨q, hq, h⟩ := bind_ok_iff.1 h
    cases h
    exact (Built.pred hq).good
  | heq l r =>
    intro env g h
    rw [Expr.updateTags] at h
    obtain ⟨l', _, h⟩ := bind_ok_iff.1 h
    obtain ⟨r', _, h⟩ := bind_ok_iff.1 h
    exact (Built.eq h).good
  | hnfun f =>
    intro env g h
    rw [Expr.updateTags] at h
    obtain ⟨ts, _, h⟩ := bind_ok_iff.1 h
    obtain ⟨q, hq, h⟩ := bind_ok_iff.1 h
    cases h
    exact (Built.nfun hq).good
  | hnum n => intro env g h; rw [Expr.updateTags] at h; cases h; trivial
  | hbfun o as ih =>
    intro env g h
    rw [Expr.updateTags] at h
    obtain ⟨bs, hb, h⟩ := bind_ok_iff.1 h
    cases h
    exact good_construct (hl as (fun a ha => ih a ha) hb)
  | hbin o as ih =>
    intro env g h
    rw [Expr.updateTags] at h
    obtain ⟨bs, hb, h⟩ := bind_ok_iff.1 h
    cases h
    exact good_construct (hl as (fun a ha => ih a ha) hb)
  | hnot a ih =>
    intro env g h
    rw [Expr.updateTags] at h
    obtain ⟨b, hb, h⟩ := bind_ok_iff.1 h
    cases h
    exact (ih hb : b.Good)
  | hquant q vs c ih =>
    intro env g h
    rw [Expr.updateTags] at h
    obtain ⟨b, hb, h⟩ := bind_ok_iff.1 h
    cases h
    exact (Built.quant q vs (ih hb).built).good
  | hwhen c e _ _ => intro env g h; rw [Expr.updateTags] at h; simp at h
  | hfall vs e _ => intro env g h; rw [Expr.updateTags] at h; simp at h

theorem retaggeds_map (S : List (List Var)) (env : VarTypes) (as : List Expr) :
    retaggeds S env as = as.map (retagged S env) := by
  induction as with
  | nil => rfl
  | cons a as ih => rw [retaggeds, ih]; rfl

theorem noObstacle_retagged {env : VarTypes} {e : Expr} : ∀ {S}, NoObstacle F (retagged S env e) → NoObstacle F e := by
  have hl : ∀ (as : List Expr), (∀ a ∈ as, ∀ {S}, NoObstacle F (retagged S env a) → NoObstacle F a) →
      ∀ {S}, NoObstacles F (retaggeds S env as) → NoObstacles F as := by
    intro as ih S h
    rw [retaggeds_map] at h
    have h := noObstacles_iff.1 h
    exact noObstacles_iff.2 (fun a ha => ih a ha (h _ (List.mem_map.2 ⟨a, ha, rfl⟩)))
  induction e using Expr.ind with
  | hpred p => exact id
  | heq l r => exact id
  | hnfun f => exact id
  | hnum n => exact id
  | hbfun o as ih =>
    intro S h
    simp only [retagged, NoObstacle] at h ⊢
    refine ⟨?_, hl as (fun a ha => ih a ha) h.2⟩
    have := h.1
    rw [retaggeds_map, List.length_map] at this
    exact this
  | hbin o as ih => intro S h; exact hl as (fun a ha => ih a ha) h
  | hnot a ih => intro S h; exact ih h
  | hquant q vs c ih => intro S h; exact ⟨h.1, ih h.2⟩
  | hwhen c e ih1 ih2 => intro S h; exact ⟨ih1 h.1, ih2 h.2⟩
  | hfall vs e ih => intro S h; exact ⟨h.1, ih h.2⟩

theorem from_untyped {E : GEnv} (hc : ∀ n t, E.constant n = .ok t → ∃ x, t = .const n x) (hp : E.params = []) {e : Expr}
    (h : AllFrom E e) : ∀ v ∈ occurrences e, v.tags = [] := by
  intro v hv
  simp only [occurrences, List.mem_flatMap] at hv
  obtain ⟨a, ha, t, ht, hv⟩ := hv
  rcases h a ha t ht with ⟨n, h⟩ | ⟨n, h⟩
  · obtain ⟨x, rfl⟩ := hc n t h
    simp [varOf] at hv
  · unfold GEnv.variable at h
    rw [hp] at h
    simp only [dictGet, List.lookup] at h
    obtain ⟨w, hw, h⟩ := bind_ok_iff.1 h
    simp only [pure_ok, Except.ok.injEq] at h
    subst h
    obtain ⟨_, _, rfl⟩ := mkVar_set_ok.1 hw
    simp only [varOf, List.mem_singleton] at hv
    subst hv
    rfl

theorem checkSubtypes_none {l r : List Str} (hr : r ≠ []) (h : checkSubtypes none l r = .ok ()) : ∀ t ∈ l, t ∈ r := by
  induction l with
  | nil => simp
  | cons t ts ih =>
    rw [checkSubtypes_cons, if_neg (by simpa using hr)] at h
    split at h
    · rename_i ht
      intro x hx
      rcases List.mem_cons.1 hx with rfl | hx
      · exact ht
      · exact ih h x hx
    · simp at h

/-- The head of a derived predicate with the types of the declaration filled in. -/
def filledHead : List Var → List Term → List Var
  | v :: vs, d :: ds => ⟨v.name, if v.tags ≠ [] then v.tags else d.tags⟩ :: filledHead vs ds
  | _, _ => []

theorem written_cons (v : Var) (vs : List Var) : writtenTypes ((v :: vs).map Term.var) =
    (if v.tags = [] then [] else [(v.name, v.tags)]) ++ writtenTypes (vs.map Term.var) := by
  by_cases hv : v.tags = []
  · simp [writtenTypes, Term.tags, hv]
  · simp [writtenTypes, Term.tags, Term.name, hv]

theorem filled_types {vs : List Var} {ds : List Term} :
    writtenTypes ((filledHead vs ds).map Term.var) = headTypes ((vs.map Term.var).zip ds) := by
  induction vs generalizing ds with
  | nil => rfl
  | cons v vs ih =>
    cases ds with
    | nil => rfl
    | cons d ds =>
      rw [filledHead, written_cons, ih]
      simp only [List.map_cons, List.zip_cons_cons, headTypes]
      by_cases hv : v.tags = []
      · by_cases hd : d.tags = []
        · simp [hv, hd]
        · simp [hv, hd]
      · simp [hv]

theorem filled_names {vs : List Var} {ds : List Term} (hl : ds.length = vs.length) :
    (filledHead vs ds).map Var.name = vs.map Var.name := by
  induction vs generalizing ds with
  | nil => rfl
  | cons v vs ih =>
    cases ds with
    | nil => simp at hl
    | cons d ds =>
      simp only [filledHead, List.map_cons]
      rw [ih (by simpa using hl)]

theorem filled_retag {vs : List Var} {ds : List Term} (hl : ds.length = vs.length) (hn : (vs.map Var.name).Nodup) :
    (vs.map Term.var).map (retagTerm [] (headTypes ((vs.map Term.var).zip ds))) = (filledHead vs ds).map Term.var := by
  have key : ∀ (us : List Var) (es : List Term), es.length = us.length →
      (∀ w ∈ filledHead us es, w ∈ filledHead vs ds) →
      (us.map Term.var).map (retagTerm [] (headTypes ((vs.map Term.var).zip ds))) = (filledHead us es).map Term.var := by
    intro us
    induction us with
    | nil => intro es _ _; rfl
    | cons u us ih =>
      intro es hl' hsub
      cases es with
      | nil => simp at hl'
      | cons e es =>
        simp only [filledHead, List.map_cons] at hsub ⊢
        rw [ih es (by simpa using hl') (fun w hw => hsub w (List.mem_cons_of_mem _ hw))]
        congr 1
        have hw := lookup_written (vs := filledHead vs ds) (by rw [filled_names hl]; exact hn)
          (hsub _ (List.mem_cons_self ..))
        rw [filled_types] at hw
        simp only [retagTerm, scopeTypes]
        simp only at hw
        rw [hw]
        by_cases hu : u.tags = []
        · by_cases he : e.tags = []
          · simp [hu, he]
          · simp [hu, he]
        · simp [hu]
  exact key vs ds hl (fun w h => h)

theorem filled_decl {vs us : List Var} (hl : us.length = vs.length) (hv : DeclVars vs) (hu : DeclVars us)
    (hn : (vs.map Var.name).Nodup) : DeclVars (filledHead vs (us.map Term.var)) := by
  have hmem : ∀ (vs us : List Var), ∀ w ∈ filledHead vs (us.map Term.var), ∃ v ∈ vs, ∃ u ∈ us, w.name = v.name ∧
      w.tags = if v.tags ≠ [] then v.tags else u.tags := by
    intro vs
    induction vs with
    | nil => intro us w hw; simp [filledHead] at hw
    | cons v vs ih =>
      intro us w hw
      cases us with
      | nil => simp [filledHead] at hw
      | cons u us =>
        simp only [List.map_cons, filledHead] at hw
        rcases List.mem_cons.1 hw with rfl | hw
        · exact ⟨v, by simp, u, by simp, rfl, rfl⟩
        · obtain ⟨v', h1, u', h2, h3⟩ := ih us w hw
          exact ⟨v', by simp [h1], u', by simp [h2], h3⟩
  have hname : ((filledHead vs (us.map Term.var)).map Var.name).Nodup := by rw [filled_names (by simpa using hl)]; exact hn
  refine ⟨?_, ?_, ?_, ?_⟩
  · intro w hw
    obtain ⟨v, h1, u, _, h3, _⟩ := hmem vs us w hw
    rw [h3]; exact hv.names v h1
  · intro w hw t ht
    obtain ⟨v, h1, u, h2, _, h4⟩ := hmem vs us w hw
    rw [h4] at ht
    split at ht
    · exact hv.types v h1 t ht
    · exact hu.types u h2 t ht
  · have h1 := hv.order
    have h2 := hu.order
    clear * - h1 h2 hmem
    induction vs generalizing us with
    | nil => exact .nil
    | cons v vs ih =>
      cases us with
      | nil => exact .nil
      | cons u us =>
        rw [List.pairwise_cons] at h1 h2
        simp only [List.map_cons, filledHead, List.pairwise_cons]
        refine ⟨?_, ih h1.2 h2.2⟩
        intro w hw e
        obtain ⟨v', ha, u', hb, _, h4⟩ := hmem vs us w hw
        rw [h4]
        by_cases hv : v.tags = []
        · simp only [hv, ne_eq, not_true, if_false, Term.tags] at e
          rw [h1.1 v' ha hv, h2.1 u' hb e]; simp
        · simp only [ne_eq, hv, not_false_eq_true, if_true] at e
  · intro v hv w hw e
    have : v = w := List.inj_on_of_nodup_map hname hv hw e
    rw [this]; exact fun _ => Iff.rfl

theorem derivedEnv_fits {types : Option TypeDict} {vs : List Var} : ∀ {ds : List Term} {env0 env : VarTypes},
    derivedEnv types ((vs.map Term.var).zip ds) env0 = .ok env → ds.length = vs.length →
    List.Forall₂ (fun (w : Var) (d : Term) => (w.tags = [] → d.tags = []) ∧ checkSubtypes types w.tags d.tags = .ok () ∨ w.tags = d.tags)
      (filledHead vs ds) ds := by
  induction vs with
  | nil =>
    intro ds env0 env _ hl
    simp at hl
    subst hl
    exact .nil
  | cons v vs ih =>
    intro ds env0 env h hl
    cases ds with
    | nil => simp at hl
    | cons d ds =>
      simp only [List.map_cons, List.zip_cons_cons, derivedEnv] at h
      simp only [filledHead]
      split at h
      · rename_i h0
        have hv : v.tags = [] := by simpa using h0
        split at h
        · exact .cons (.inr (by simp [hv])) (ih h (by simpa using hl))
        · exact .cons (.inr (by simp [hv])) (ih h (by simpa using hl))
      · rename_i h0
        have hv : v.tags ≠ [] := by simpa using h0
        obtain ⟨_, hc, h⟩ := bind_ok_iff.1 h
        exact .cons (.inl (by simp [hv, hc])) (ih h (by simpa using hl))

theorem retag_name {env : VarTypes} {t u : Term} (h : t.retag env = .ok u) : u.name = t.name := by
  cases t with
  | const n x => simp only [Term.retag, pure_ok, Except.ok.injEq] at h; rw [← h]
  | var v =>
    simp only [Term.retag] at h
    split at h
    · obtain ⟨w, hw, h⟩ := bind_ok_iff.1 h
      simp only [pure_ok, Except.ok.injEq] at h
      obtain ⟨_, _, rfl⟩ := mkVar_set_ok.1 hw
      rw [← h]; rfl
    · simp only [pure_ok, Except.ok.injEq] at h; rw [← h]

theorem retag_mapM_names {env : VarTypes} {ts us : List Term} (h : ts.mapM (Term.retag env) = .ok us) :
    us.map Term.name = ts.map Term.name := by
  have := mapM_ok_iff.1 h
  clear h
  induction this with
  | nil => rfl
  | cons h _ ih => simp [retag_name h, ih]

theorem derivedPredicate_ok {types : Option TypeDict} {preds : List (Str × Pred)} {head : Pred} {c : Expr} {x : Derived}
    (h : derivedPredicate types preds head c = .ok x) : BuiltDerived x ∧ ∃ p env us, dictGet preds head.name = some p ∧
      p.terms.length = head.terms.length ∧ derivedEnv types (head.terms.zip p.terms) [] = .ok env ∧
      head.terms.mapM (Term.retag env) = .ok us ∧ c.updateTags env = .ok x.cond ∧ x.pred = ⟨head.name, us⟩ := by
  unfold derivedPredicate at h
  split at h
  · simp at h
  · rename_i p hp
    split at h
    · simp at h
    · rename_i hl
      obtain ⟨env, he, h⟩ := bind_ok_iff.1 h
      obtain ⟨us, hu, h⟩ := bind_ok_iff.1 h
      obtain ⟨q, hq, h⟩ := bind_ok_iff.1 h
      obtain ⟨c', hc, h⟩ := bind_ok_iff.1 h
      simp only [pure_ok, Except.ok.injEq] at h
      subst h
      exact ⟨⟨⟨_, _, hq⟩, (updateTags_good hc).built⟩, p, env, us, hp, by simpa using hl, he, hu, hc, (mkPred_ok.1 hq).2.2⟩

theorem norms_tags {ts us : List Term} (h : ts.map Term.norm = us.map Term.norm)
    (ht : ∀ t ∈ ts, ∃ v, t = .var v) : List.Forall₂ (fun t u : Term => SameTypes t.tags u.tags) ts us := by
  induction ts generalizing us with
  | nil =>
    cases us with
    | nil => exact .nil
    | cons u us => simp at h
  | cons t ts ih =>
    cases us with
    | nil => simp at h
    | cons u us =>
      simp only [List.map_cons, List.cons.injEq] at h
      refine .cons ?_ (ih h.2 (fun t ht' => ht t (List.mem_cons_of_mem _ ht')))
      obtain ⟨v, rfl⟩ := ht t (List.mem_cons_self ..)
      cases u with
      | const n x => simp [Term.norm] at h
      | var w =>
        intro y
        have := congrArg (fun s => y ∈ s) (congrArg Prod.snd (NTerm.var.inj h.1))
        simpa [Var.norm, Term.tags] using this

theorem HeadFits.congr {d : TypeDict} {l r r' : List Str} (h : SameTypes r r') (hf : HeadFits d l r) : HeadFits d l r' := by
  refine ⟨fun e => (sameTypes_nil h).1 (hf.1 e), ?_⟩
  rcases hf.2 with h' | h'
  · exact .inl ((sameTypes_nil h).1 h')
  · right
    intro t ht
    rcases h' t ht with h1 | ⟨p, h1, h2⟩
    · exact .inl ((h t).1 h1)
    · exact .inr ⟨p, (h p).1 h1, h2⟩

theorem forall₂_trans {α β γ} {R : α → β → Prop} {S : β → γ → Prop} {T : α → γ → Prop} {l : List α} {m : List β} {n : List γ}
    (h1 : List.Forall₂ R l m) (h2 : List.Forall₂ S m n) (h : ∀ b ∈ m, ∀ a c, R a b → S b c → T a c) : List.Forall₂ T l n := by
  induction h1 generalizing n with
  | nil => cases h2; exact .nil
  | cons h3 _ ih =>
    cases h2 with
    | cons h4 h5 => exact .cons (h _ (List.mem_cons_self ..) _ _ h3 h4) (ih h5 (fun b hb => h b (List.mem_cons_of_mem _ hb)))

section
variable {ts : List Tree} {d : Domain} {σ' : PState} (P : DomainParse F PState.fresh ts d σ')

theorem DomainParse.preds_decl (hw : ∀ w, Inside (.atom (.name w)) (.node ts) → nameRegex w = true) :
    ∀ p ∈ P.preds, (∃ n ts, mkPred n ts = .ok p) ∧
      ∃ vs : List Var, p.terms = vs.map Term.var ∧ DeclVars vs ∧ ∀ v ∈ vs, v.tags.Nodup := by
  rcases P.hpreds with ⟨_, h, _⟩ | ⟨b, hb, h⟩
  · rw [h]; simp
  · unfold sectionPredicates at h
    obtain ⟨ps, hp, h⟩ := bind_ok_iff.1 h
    obtain ⟨_, _, h⟩ := bind_ok_iff.1 h
    simp only [pure_ok, Except.ok.injEq, Prod.mk.injEq] at h
    rw [← h.1]
    intro p hpm
    obtain ⟨t, ht, hs⟩ := forall₂_right (mapM_ok_iff.1 hp) p hpm
    refine skeleton_decl (fun w hi => hw w ?_) hs
    exact hi.trans (P.section_mem (k := s%"predicates") (b := b) (by simp [hb, optText]) ht)

/-- A derived predicate read before any action, without obstacles, can be printed. -/
theorem DomainParse.derived_reread (hT : IsDict P.types) (hw : ∀ w, Inside (.atom (.name w)) (.node ts) → nameRegex w = true)
    {body : List Tree} {x : Derived} (hbody : section_ s%"derived" body ∈ P.ts5)
    (h : derivedDef F P.σ4 body = .ok x) (hn : NoObstacle F x.cond) (hd : (x.pred.terms.map Term.name).Nodup)
    (hone : ∀ p ∈ d.predicates, ∀ q ∈ d.predicates, p.name = x.pred.name → q.name = x.pred.name → q = p) :
    PrintDerived F d x := by
  obtain ⟨t, c, head, cond, rfl, hh, hc, hx⟩ := derivedDef_ok h
  obtain ⟨_, p, env, us, hp, hl, he, hu, hcond, hpred⟩ := derivedPredicate_ok hx
  obtain ⟨hpm, hpn⟩ := P.fresh_preds _ _ hp
  obtain ⟨_, ds, hds, hds1, hds2⟩ := P.preds_decl hw p hpm
  have hts : ∀ w, Inside (.atom (.name w)) t → nameRegex w = true := fun w hi =>
    hw w (hi.trans (P.section_mem (k := s%"derived") (b := [t, c]) (by simp [hbody]) (by simp)))
  obtain ⟨_, vs, hvs, hvs1, hvs2⟩ := skeleton_decl hts hh
  have hnames : (vs.map Var.name).Nodup := by
    rw [hpred] at hd
    simp only at hd
    rw [retag_mapM_names hu, hvs, List.map_map] at hd
    exact hd
  have hlen : ds.length = vs.length := by rw [hds, hvs] at hl; simpa using hl
  have hlen' : p.terms.length = vs.length := by rw [hds]; simpa using hlen
  rw [hvs] at he hu
  have hzip : ((((vs.map Term.var).zip p.terms).map Prod.fst).map Term.name).Nodup := by
    rw [List.map_fst_zip (by rw [List.length_map]; omega), List.map_map]
    exact hnames
  have henv : EnvOf env [] (headTypes ((vs.map Term.var).zip p.terms)) := by
    intro n
    rw [derivedEnv_ok he hzip n]
    rw [show dictGet ([] : VarTypes) n = none from rfl, Option.or_none]
    rfl
  have hsn : ScopeNodup [] (headTypes ((vs.map Term.var).zip p.terms)) := by
    refine scopeNodup_base (headTypes_nodup ?_)
    rintro ⟨a, b⟩ hab
    have h1 := List.of_mem_zip hab
    rw [hds] at h1
    obtain ⟨h1, h2⟩ := h1
    obtain ⟨v, hv, rfl⟩ := List.mem_map.1 h1
    obtain ⟨w, hw', rfl⟩ := List.mem_map.1 h2
    exact ⟨hvs2 v hv, hds2 w hw'⟩
  have hus := retags_ok henv hsn hu
  rw [filled_retag hlen' hnames] at hus
  have hterms : x.pred.terms = (filledHead vs p.terms).map Term.var := by rw [hpred]; exact hus
  have hparams : P.σ4.params = [] := P.params4
  have hσ := P.reflects hT
  have hE : DomainScope (P.σ4.env F) := hσ.scope (by rw [hparams]; intro q hq; simp at hq)
  have hr := gd_rel hc
  have hunty : ∀ v ∈ occurrences cond, v.tags = [] := by
    refine from_untyped (E := P.σ4.env F) ?_ hparams hr.from
    intro n t ht
    exact (hσ.constant ht).2.1
  have hexact := update_exact (τ := fun _ => []) henv hsn hr.good
    (by intro v hv y; rw [hunty v hv]) (fun v hv => hr.bounds v hv) hcond
  rw [← filled_types, ← hterms] at hexact
  refine ⟨⟨_, hterms, ?_, ?_⟩, ?_, cond, hr.good.built, ?_, hexact⟩
  · rw [hds]; exact filled_decl hlen hvs1 hds1 hnames
  · rw [filled_names hlen']; exact hnames
  · have hde : d.predicates = dedupBy Pred.pyEq P.preds := congrArg Domain.predicates (P.domain_eq hT)
    obtain ⟨q, hq, e⟩ := memBy_iff.1 (dedupBy_cover (fun a => Pred.pyEq_iff.2 rfl) hpm)
    rw [← hde] at hq
    rw [Pred.pyEq_iff] at e
    have hqn : q.name = x.pred.name := by
      rw [hpred, ← hpn]
      first | exact congrArg Prod.fst e | exact (congrArg Prod.fst e).symm
    refine ⟨q, hq, hqn, fun q' hq' e' => hone q hq q' hq' hqn e', ?_⟩
    have hpq : List.Forall₂ (fun t u : Term => SameTypes t.tags u.tags) p.terms q.terms := by
      refine norms_tags ?_ ?_
      · first | exact congrArg Prod.snd e | exact (congrArg Prod.snd e).symm
      · intro t ht
        rw [hds] at ht
        obtain ⟨v, _, rfl⟩ := List.mem_map.1 ht
        exact ⟨v, rfl⟩
    rw [hterms, List.forall₂_map_left_iff]
    refine forall₂_trans (derivedEnv_fits he hlen') hpq ?_
    intro b hb a cc hab hbc
    refine HeadFits.congr hbc ?_
    have hval : ∀ t ∈ b.tags, ValidType t := by
      rw [hds] at hb
      obtain ⟨w, hw', rfl⟩ := List.mem_map.1 hb
      exact hds1.types w hw'
    rcases hab with ⟨h1, h2⟩ | h1
    · refine ⟨h1, ?_⟩
      by_cases hb0 : b.tags = []
      · exact .inl hb0
      · right
        rcases P.fresh_types with ⟨ht, _⟩ | ht
        · rw [ht] at h2
          exact fun t h => .inl (checkSubtypes_none hb0 h2 t h)
        · rw [ht] at h2
          intro t ht'
          rcases (checkSubtypes_ok hb0).1 h2 t ht' with h | ⟨y, hy, hlk⟩
          · exact .inl h
          · refine .inr ⟨y, hy, ?_⟩
            have hdt : d.types = cleanDict P.types := congrArg Domain.types (P.domain_eq hT)
            rw [hdt, lookup_cleanDict, hlk]
            have := validType_ne (hval y hy)
            cases y with
            | nil => exact absurd rfl this
            | cons _ _ => rfl
    · show HeadFits d.types a.tags b.tags
      rw [h1]
      exact ⟨id, .inr (fun t ht => .inl ht)⟩
  · have hle : ScopeLe (P.σ4.env F) (domainScope F d []) := hσ.le (by rw [hparams]; rfl)
    rw [hexact] at hn
    exact hle.cond ((hr.read hE.toTermScope).print hE (noObstacle_retagged hn))

/-- The derived predicates, when none is written after an action. -/
theorem structures_first {σ σ'' : PState} {l : List Tree} {as : List Action} {ds : List Derived}
    (h : structures F σ l = .ok (as, ds, σ''))
    (ho : l.Pairwise (fun a b => (∃ body, a = section_ s%"action" body) → ¬ ∃ body, b = section_ s%"derived" body)) :
    ∀ x ∈ ds, ∃ body, section_ s%"derived" body ∈ l ∧ derivedDef F σ body = .ok x := by
  induction l generalizing σ as ds with
  | nil =>
    simp only [structures, pure_ok, Except.ok.injEq, Prod.mk.injEq] at h
    rw [← h.2.1]; simp
  | cons t l ih =>
    rw [List.pairwise_cons] at ho
    unfold structures at h
    split at h
    · simp at *
    · rename_i k body l' heq
      injection heq with h1 h2
      subst h1 h2
      split at h
      · rename_i hk
        subst hk
        obtain ⟨⟨a, σ1⟩, _, h⟩ := bind_ok_iff.1 h
        obtain ⟨⟨as', ds', σ2⟩, hs, h⟩ := bind_ok_iff.1 h
        simp only [pure_ok, Except.ok.injEq, Prod.mk.injEq] at h
        obtain ⟨_, rfl, rfl⟩ := h
        intro x hx
        obtain ⟨b, hb, _⟩ := ih hs ho.2 x hx
        exact absurd ⟨b, rfl⟩ (ho.1 _ hb ⟨body, rfl⟩)
      · split at h
        · rename_i hk
          subst hk
          obtain ⟨y, hy, h⟩ := bind_ok_iff.1 h
          obtain ⟨⟨as', ds', σ2⟩, hs, h⟩ := bind_ok_iff.1 h
          simp only [pure_ok, Except.ok.injEq, Prod.mk.injEq] at h
          obtain ⟨_, rfl, rfl⟩ := h
          intro x hx
          rcases List.mem_cons.1 hx with rfl | hx
          · exact ⟨body, List.mem_cons_self .., hy⟩
          · obtain ⟨b, hb, h⟩ := ih hs ho.2 x hx
            exact ⟨b, List.mem_cons_of_mem _ hb, h⟩
        · simp at h
    · simp at h

/-! ### Domains that have been read -/

theorem DomainParse.functions_read (hw : ∀ w, Inside (.atom (.name w)) (.node ts) → nameRegex w = true) :
    IsFunDict P.funs ∧ ∀ f ∈ P.funs, (∃ n ts, mkNFun n ts = .ok f.1) ∧ (f.2 = none ∨ f.2 = some s%"number") ∧
      (∃ vs : List Var, f.1.terms = vs.map Term.var ∧ DeclVars vs) ∧ (f.1.name = s%"total-cost" → f.1.terms = []) := by
  rcases P.hfuns with ⟨_, h⟩ | ⟨b, hb, h⟩
  · rw [h]; exact ⟨List.Pairwise.nil, by simp⟩
  · obtain ⟨h1, h2⟩ := functions_decl h
    refine ⟨h1, fun f hf => ?_⟩
    obtain ⟨h3, t, ht, h4⟩ := h2 f hf
    obtain ⟨h5, h6, h7⟩ := functionSkeleton_decl (fun w hi =>
      hw w (hi.trans (P.section_mem (k := s%"functions") (b := b) (by simp [hb, optText]) ht))) h4
    exact ⟨h5, h3, h6, h7⟩

theorem DomainParse.printable (hw : ∀ w, Inside (.atom (.name w)) (.node ts) → nameRegex w = true)
    (ho : P.ts5.Pairwise (fun a b => (∃ body, a = section_ s%"action" body) → ¬ ∃ body, b = section_ s%"derived" body))
    (hn : DomainNoObstacle F d) : BuiltDomain d ∧ PrintDomain F d := by
  obtain ⟨hT, hT'⟩ := Props.DomainParse.types_ok P hw
  have hd := P.domain_eq hT
  have hr := P.reflects hT
  obtain ⟨_, hacts, hders⟩ := structures_from P.hstruct
  have hact : ∀ a ∈ P.as, BuiltAction a ∧ (∀ t ∈ a.params ++ termsOpt a.pre ++ termsOpt a.eff, t.tags.Nodup) ∧
      ((∀ t ∈ a.params, t.tags.length ≤ 1) →
      (∀ e, a.pre = some e → NoObstacle F e ∧ (e = .bin .or [] → Allows (domainScope F d []) [.disPrecondition, .adl])) →
      (∀ e, a.eff = some e → NoObstacle F e ∧ e ≠ .bin .or []) → PrintAction F d a) := by
    intro a ha
    obtain ⟨body, σ1, σ2, hb, hs, hdef⟩ := hacts a ha
    refine action_reread (hr.same hs) (fun w hi => hw w ?_) hdef
    refine hi.trans (.node (t := section_ s%"action" body) ?_ .refl)
    have hts : Tree.node ts = .node (word s%"define" :: _ :: _) := P.sections_of.choose_spec.2
    simp only [Tree.node.injEq] at hts
    rw [hts]
    exact .tail _ (.tail _ (List.mem_append.2 (.inr hb)))
  have hder : ∀ x ∈ P.ds, BuiltDerived x := by
    intro x hx
    obtain ⟨body, σ1, _, _, hdef⟩ := hders x hx
    obtain ⟨_, _, _, _, _, _, _, h⟩ := derivedDef_ok hdef
    exact (derivedPredicate_ok h).1
  obtain ⟨hf1, hf2⟩ := P.functions_read hw
  have hpd := P.preds_decl hw
  have hty : d.types = cleanDict P.types := congrArg Domain.types hd
  obtain ⟨cs, _, hcs, _, hcs'⟩ := P.fresh_consts
  refine ⟨⟨_, ⟨?_, ?_, ?_, ?_, ?_, ?_, ?_⟩, P.hdomain⟩, ?_, ?_, ?_, ?_, ?_, ?_, ?_⟩
  · exact hT
  · exact fun p hp => (hpd p hp).1
  · exact hf1
  · exact fun f hf => (hf2 f hf).1
  · exact fun a ha => (hact a ha).1
  · exact hder
  · exact fun a ha => (hact a ha).2.1
  · have he : d.reqs = reqSet P.rs := congrArg Domain.reqs hd
    rw [he, mem_reqSet]
    rcases P.hreqs with ⟨_, h, _⟩ | ⟨b, _, h, _⟩
    · rw [h]; simp
    · exact parseRequirements_read h
  · refine ⟨hn.typing, ?_, ?_⟩
    · intro p hp
      rw [hty] at hp
      obtain ⟨q, hq, rfl⟩ := List.mem_map.1 hp
      intro e
      exact absurd (e ▸ (hT' q hq).1) (by decide +kernel)
    · intro p hp t e
      refine ⟨?_, hn.parents p hp t e⟩
      rw [hty] at hp
      obtain ⟨q, hq, rfl⟩ := List.mem_map.1 hp
      rintro rfl
      refine (hT' q hq).2 ?_
      revert e
      obtain ⟨k, v⟩ := q
      cases v with
      | none => simp [cleanParent]
      | some s =>
        cases s with
        | nil => simp [cleanParent]
        | cons c cs => simp [cleanParent]
  · have hdc : d.constants = dedupBy Term.pyEq P.consts := congrArg Domain.constants hd
    intro o ho'
    rw [hdc] at ho'
    have := dedupBy_subset ho'
    rw [hcs] at this
    obtain ⟨q, hq, rfl⟩ := List.mem_map.1 this
    exact (hcs' q hq).2.1
  · have hde : d.predicates = dedupBy Pred.pyEq P.preds := congrArg Domain.predicates hd
    intro p hp
    rw [hde] at hp
    obtain ⟨_, vs, h1, h2, _⟩ := hpd p (dedupBy_subset hp)
    exact ⟨vs, h1, h2⟩
  · have hdf : d.functions = P.funs := congrArg Domain.functions hd
    intro f hf
    have hlen := hn.functions f hf
    rw [hdf] at hf
    obtain ⟨_, h1, ⟨vs, h2, h3⟩, h4⟩ := hf2 f hf
    refine ⟨⟨vs, h2, h3, ?_⟩, h4, h1⟩
    intro v hv
    exact hlen (.var v) (by rw [h2]; exact List.mem_map.2 ⟨v, hv, rfl⟩)
  · have hde : d.derived = dedupBy Derived.pyEq P.ds := congrArg Domain.derived hd
    intro x hx
    have hx' := hx
    rw [hde] at hx'
    obtain ⟨body, hb, hdef⟩ := structures_first P.hstruct ho x (dedupBy_subset hx')
    exact P.derived_reread hT hw hb hdef (hn.cond x hx) (hn.head x hx) (hn.declared x hx)
  · have hde : d.actions = dedupBy Action.pyEq P.as := congrArg Domain.actions hd
    intro a ha
    have ha' := ha
    rw [hde] at ha'
    exact (hact a (dedupBy_subset ha')).2.2 (hn.params a ha) (hn.pre a ha) (hn.eff a ha)

theorem domain_reread {text : Str} {d : Domain} {σ' : PState} (h : parseDomain F PState.fresh text = .ok (d, σ'))
    (ho : DerivedFirst text) (hn : DomainNoObstacle F d) : BuiltDomain d ∧ PrintDomain F d := by
  obtain ⟨ts, hr, h⟩ := parseDomain_ok h
  obtain ⟨P⟩ := domainDef_ok h
  refine P.printable (fun w hw => readText_words hr (t := .node ts) (by simp) hw) ?_ hn
  have hp := ho ts (readText_brackets.1 hr)
  have hts : Tree.node ts = .node (word s%"define" :: _ :: (_ ++ P.ts5)) := P.sections_of.choose_spec.2
  simp only [Tree.node.injEq] at hts
  rw [hts] at hp
  exact (List.pairwise_append.1 (List.pairwise_cons.1 (List.pairwise_cons.1 hp).2).2).2.1

end

end Pddl
