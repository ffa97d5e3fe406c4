/-
A printed domain is read back.
-/
import Verif.Proofs.SectionsRead
import Verif.Proofs.ActionRead
import Verif.Proofs.DerivedRead
import Verif.Proofs.ProblemText
import Verif.Proofs.Problem

namespace Pddl
open Pddl.Spec Pddl.Props

variable {F : FloatOf}

/-! ### Dictionaries with the same items -/

theorem lookup_same {β} {a b : List (Str × β)} (ha : IsDict a) (hb : IsDict b) (h : ∀ p, p ∈ a ↔ p ∈ b) (k : Str) :
    a.lookup k = b.lookup k := by
  have e : ∀ {a b : List (Str × β)}, IsDict b → (∀ p, p ∈ a ↔ p ∈ b) → ∀ v, dictGet a k = some v → dictGet b k = some v :=
    fun hb h v hv => dictGet_of_mem hb ((h _).1 (mem_of_dictGet hv))
  show dictGet a k = dictGet b k
  cases h1 : dictGet a k with
  | some v => exact (e hb h v h1).symm
  | none =>
    cases h2 : dictGet b k with
    | none => rfl
    | some v => rw [e ha (fun p => (h p).symm) v h2] at h1; cases h1

theorem parent_same {a b : TypeDict} (ha : IsDict a) (hb : IsDict b) (h : ∀ p, p ∈ a ↔ p ∈ b) : Parent a = Parent b := by
  funext x y
  unfold Parent
  rw [lookup_same ha hb h]

theorem declared_same {a b : TypeDict} (h : ∀ p, p ∈ a ↔ p ∈ b) (t : Str) : Declared a t ↔ Declared b t := by
  unfold Declared
  simp only [h]

theorem hierarchy_same {a b : TypeDict} {rs : List Req} (e : Parent a = Parent b) : HierarchyOk a rs ↔ HierarchyOk b rs := by
  constructor
  · rintro ⟨h1, h2, h3⟩
    rw [e] at h1 h2 h3
    exact ⟨h1, h2, h3⟩
  · rintro ⟨h1, h2, h3⟩
    rw [← e] at h1 h2 h3
    exact ⟨h1, h2, h3⟩

theorem parent_of_clean (d : TypeDict) : Parent (cleanDict d) = Parent d := by
  funext x y
  apply propext
  constructor
  · intro h; exact parent_clean.1 h.1
  · intro h; exact ⟨parent_clean.2 h, h.2⟩

theorem declared_of_clean (d : TypeDict) (t : Str) : Declared (cleanDict d) t ↔ Declared d t := by
  have h1 := mem_typesAll (d := cleanDict d) (t := t)
  have h2 := mem_typesAll (d := d) (t := t)
  rw [cleanDict_idem] at h1
  exact h1.symm.trans h2

theorem clean_ne {d : TypeDict} : ∀ p ∈ cleanDict d, p.2 ≠ some [] := by
  intro p hp
  obtain ⟨q, _, rfl⟩ := List.mem_map.1 hp
  obtain ⟨k, v⟩ := q
  cases v with
  | none => simp [cleanParent]
  | some s => cases s <;> simp [cleanParent]

theorem firstOcc_subset {α} {eq : α → α → Bool} (h : Equivalence (fun a b => eq a b = true)) {l : List α} {x : α}
    (hx : x ∈ firstOcc eq l) : x ∈ l := by
  rw [← dedup_firstOcc h] at hx
  exact dedupBy_subset hx

theorem wellTyped_tags {P : Str → Prop} {rs : List Req} {t u : Term} (h : SameTypes t.tags u.tags)
    (hu : WellTypedTerm P rs u) : WellTypedTerm P rs t := by
  refine ⟨fun x hx => hu.1 x ((h x).1 hx), fun hne => hu.2 ?_⟩
  intro e
  cases ht : t.tags with
  | nil => exact hne ht
  | cons x xs =>
    have := (h x).1 (by rw [ht]; simp)
    rw [e] at this; cases this

/-! ### What is known of a domain that exists -/

/-- The conditions that `Domain(...)` has checked. -/
structure Checked (d : Domain) : Prop where
  name : ValidName d.name
  dict : IsDict d.types
  clean : ∀ p ∈ d.types, p.2 ≠ some []
  typeNames : TypeNamesOk d.types
  hierarchy : HierarchyOk d.types d.reqs
  functions : ∀ f ∈ d.functions,
    (f.1.name = s%"total-cost" → Req.actionCosts ∈ d.reqs) ∧
    (f.1.name ≠ s%"total-cost" → Req.numericFluents ∈ d.reqs ∨ Req.fluents ∈ d.reqs)
  constants : ∀ t ∈ d.constants, WellTypedTerm (Declared d.types) d.reqs t
  predicates : ∀ p ∈ d.predicates, ∀ t ∈ p.terms, WellTypedTerm (Declared d.types) d.reqs t
  actions : ∀ x ∈ d.actions, x.pre ≠ none ∧ x.eff ≠ none ∧ WellTypedAction (Declared d.types) d.reqs x
  derived : ∀ x ∈ d.derived, ∀ t ∈ x.pred.terms, ∀ y ∈ t.tags, Declared d.types y
  distinct : d.constants.Pairwise (fun a b => b.pyEq a = false)
  distinctPreds : d.predicates.Pairwise (fun a b => b.pyEq a = false)
  distinctDerived : d.derived.Pairwise (fun a b => b.pyEq a = false)
  distinctActions : d.actions.Pairwise (fun a b => b.pyEq a = false)
  distinctReqs : d.reqs.Nodup

theorem checked_of_mk {a : DomainArgs} {d : Domain} (ht : IsDict a.types) (h : mkDomain a = .ok d) : Checked d := by
  obtain ⟨h1, h2, h3, h4, h5, h6, h7, h8, rfl⟩ := (mkDomain_ok ht).1 h
  have hr : ∀ r, r ∈ a.reqs ↔ r ∈ reqSet a.reqs := fun r => mem_reqSet.symm
  have hw : ∀ t, WellTypedTerm (Declared a.types) a.reqs t →
      WellTypedTerm (Declared (cleanDict a.types)) (reqSet a.reqs) t :=
    fun t => (wellTypedTerm_congr (fun x => (declared_of_clean a.types x).symm) hr t).1
  refine ⟨h1, isDict_clean ht, clean_ne, typeNamesOk_clean h2, ?_, ?_, ?_, ?_, ?_, ?_, dedupBy_pairwise _,
    dedupBy_pairwise _, dedupBy_pairwise _, dedupBy_pairwise _, dedup_nodup _⟩
  · show HierarchyOk (cleanDict a.types) (reqSet a.reqs)
    rw [hierarchy_same (parent_of_clean _)]
    exact (hierarchyOk_congr hr).1 h3
  · intro f hf
    simp only [← hr, domainOf] at h4 ⊢
    exact ⟨fun e => h4.1 ⟨f, hf, e⟩, fun e => h4.2 ⟨f, hf, e⟩⟩
  · intro t ht
    exact hw t (h5 t (by rw [← dedup_firstOcc eqv_term]; exact ht))
  · intro p hp t ht
    exact hw t (h6 p (by rw [← dedup_firstOcc eqv_pred]; exact hp) t ht)
  · intro x hx
    have := h7 x (by rw [← dedup_firstOcc eqv_action]; exact hx)
    exact ⟨this.1, this.2.1, fun t ht => hw t (this.2.2 t ht)⟩
  · intro x hx t ht y hy
    exact (declared_of_clean _ _).2 (h8 x (by rw [← dedup_firstOcc eqv_derived]; exact hx) t ht y hy)

/-! ### A domain made of the same things -/

theorem isFunDict_perm {a b : FunDict} (h : a.Perm b) (hb : IsFunDict b) : IsFunDict a :=
  h.symm.pairwise hb (fun h => funs_symm h)

theorem remake {d : Domain} (hc : Checked d) (hpp : ∀ p ∈ d.predicates, PrintPredicate p)
    (hdp : ∀ x ∈ d.derived, PrintPredicate x.pred) (hfd : IsFunDict d.functions)
    {rs : List Req} {T : TypeDict} {objs : List Term} {qs : List Pred} {fs : FunDict} {as : List Action} {ds xs : List Derived}
    (hrs : ∀ r, r ∈ rs ↔ r ∈ d.reqs) (hT : IsDict T) (hTm : ∀ p, p ∈ T ↔ p ∈ d.types) (hobjs : objs.Perm d.constants)
    {ps : List Pred} (hps : ps.Perm d.predicates) (hqs : qs = ps.map readPred) (hfs : fs.Perm d.functions)
    (has : as.Perm d.actions) (hxs : xs.Perm d.derived)
    (hds : List.Forall₂ (fun x y => y.norm = x.norm ∧ y.pred = readPred x.pred) xs ds) :
    ∃ d', mkDomain { name := d.name, reqs := rs, types := T, constants := objs, predicates := qs, functions := fs,
                     derived := ds, actions := as } = .ok d' ∧ d'.pyEq d = true ∧
      d' = ⟨d.name, reqSet rs, T, objs, qs, fs, ds, as⟩ := by
  have hpar := parent_same hT hc.dict hTm
  have hdec := fun t => declared_same hTm t
  have hw : ∀ t, WellTypedTerm (Declared d.types) d.reqs t → WellTypedTerm (Declared T) rs t :=
    fun t => (wellTypedTerm_congr (fun x => (hdec x).symm) (fun r => (hrs r).symm) t).1
  have hcl : cleanDict T = T := by
    unfold cleanDict
    conv => rhs; rw [← List.map_id T]
    apply List.map_congr_left
    rintro ⟨k, v⟩ hp
    have := hc.clean _ ((hTm _).1 hp)
    cases v with
    | none => rfl
    | some s => cases s with
      | nil => exact absurd rfl this
      | cons => rfl
  refine ⟨_, (mkDomain_ok hT).2 ⟨hc.name, ?_, ?_, ?_, ?_, ?_, ?_, ?_, rfl⟩, ?_, ?_⟩
  · intro p hp
    exact hc.typeNames p ((hTm p).1 hp)
  · exact (hierarchyOk_congr hrs).2 ((hierarchy_same hpar).2 hc.hierarchy)
  · constructor
    · rintro ⟨f, hf, e⟩
      exact (hrs _).2 ((hc.functions f (hfs.mem_iff.1 hf)).1 e)
    · rintro ⟨f, hf, e⟩
      have := (hc.functions f (hfs.mem_iff.1 hf)).2 e
      simpa only [hrs] using this
  · intro t ht
    exact hw t (hc.constants t (hobjs.mem_iff.1 (firstOcc_subset eqv_term ht)))
  · intro p hp t ht
    have hp := firstOcc_subset eqv_pred hp
    simp only [hqs] at hp
    obtain ⟨q, hq, rfl⟩ := List.mem_map.1 hp
    have hq := hps.mem_iff.1 hq
    obtain ⟨u, hu, h⟩ := forall₂_left (readPred_same (hpp q hq)) t ht
    exact wellTyped_tags h.2.1 (hw u (hc.predicates q hq u hu))
  · intro x hx
    have := hc.actions x (has.mem_iff.1 (firstOcc_subset eqv_action hx))
    exact ⟨this.1, this.2.1, fun t ht => hw t (this.2.2 t ht)⟩
  · intro y hy t ht z hz
    obtain ⟨x, hx, _, e⟩ := forall₂_right hds y (firstOcc_subset eqv_derived hy)
    have hx := hxs.mem_iff.1 hx
    rw [e] at ht
    obtain ⟨u, hu, h⟩ := forall₂_left (readPred_same (hdp x hx)) t ht
    exact (hdec z).2 (hc.derived x hx u hu z ((h.2.1 z).1 hz))
  · have e2 : reqsEq (reqSet rs) d.reqs = true := by
      unfold reqsEq
      rw [setEqBy_decide]
      intro x
      rw [mem_reqSet]; exact hrs x
    have e3 : typeDictEq (cleanDict T) d.types = true := by
      rw [hcl, typeDictEq_iff]
      exact ⟨fun p hp => dictGet_of_mem hc.dict ((hTm _).1 hp), fun p hp => dictGet_of_mem hT ((hTm _).2 hp)⟩
    have e4 : setEqBy Term.pyEq (dedupBy Term.pyEq objs) d.constants = true := by
      rw [setEqBy_iff' (f := Term.norm) (fun a b => Term.pyEq_iff)]
      intro x
      rw [dedupBy_norm (eq := Term.pyEq) (f := Term.norm) (fun a b => Term.pyEq_iff)]
      exact (hobjs.map _).mem_iff
    have e5 : setEqBy Pred.pyEq (dedupBy Pred.pyEq qs) d.predicates = true := by
      refine setEq_norm (f := Pred.norm) (fun a b => Pred.pyEq_iff) hps ?_
      rw [hqs, List.forall₂_map_right_iff, List.forall₂_same]
      exact fun p hp => readPred_norm (hpp p (hps.mem_iff.1 hp))
    have e6 : funDictEq fs d.functions = true := by
      unfold funDictEq
      simp only [Bool.and_eq_true, List.all_eq_true, decide_eq_true_eq]
      exact ⟨fun p hp => funDictGet_self hfd (hfs.mem_iff.1 hp),
        fun p hp => funDictGet_self (isFunDict_perm hfs hfd) (hfs.mem_iff.2 hp)⟩
    have e7 : setEqBy Derived.pyEq (dedupBy Derived.pyEq ds) d.derived = true :=
      setEq_norm (f := Derived.norm) (fun a b => Derived.pyEq_iff) hxs (hds.imp (fun _ _ h => h.1))
    have e8 : setEqBy Action.pyEq (dedupBy Action.pyEq as) d.actions = true := by
      refine setEq_norm (f := Action.norm) (fun a b => Action.pyEq_iff) has ?_
      rw [List.forall₂_same]
      exact fun _ _ => rfl
    simp only [Domain.pyEq, domainOf, e2, e3, e4, e5, e6, e7, e8, decide_true, Bool.and_self]
  · have e4 : dedupBy Term.pyEq objs = objs :=
      dedup_stays (f := Term.norm) (fun a b => Term.pyEq_iff) hc.distinct hobjs (List.forall₂_same.2 (fun _ _ => rfl))
    have e5 : dedupBy Pred.pyEq qs = qs := by
      refine dedup_stays (f := Pred.norm) (fun a b => Pred.pyEq_iff) hc.distinctPreds hps ?_
      rw [hqs, List.forall₂_map_right_iff, List.forall₂_same]
      exact fun p hp => readPred_norm (hpp p (hps.mem_iff.1 hp))
    have e7 : dedupBy Derived.pyEq ds = ds :=
      dedup_stays (f := Derived.norm) (fun a b => Derived.pyEq_iff) hc.distinctDerived hxs (hds.imp (fun _ _ h => h.1))
    have e8 : dedupBy Action.pyEq as = as :=
      dedup_stays (f := Action.norm) (fun a b => Action.pyEq_iff) hc.distinctActions has (List.forall₂_same.2 (fun _ _ => rfl))
    simp only [domainOf, hcl, e4, e5, e7, e8]

/-! ### The state of the parser behind the sections -/

theorem constant_read {objs cs : List Term} (h : objs.Perm cs) (hn : (cs.map Term.name).Nodup) {n : Str} {t : Term}
    (ht : constantNamed cs n = .ok t) : dictGet (objs.map (fun o => (o.name, o))) n = some t := by
  unfold constantNamed at ht
  split at ht
  · rename_i c hc
    cases ht
    have h1 := List.find?_some hc
    have h2 := List.mem_of_find?_eq_some hc
    simp only [decide_eq_true_eq] at h1
    refine dictGet_of_mem ?_ (List.mem_map.2 ⟨_, h.mem_iff.2 h2, by rw [h1]⟩)
    unfold IsDict
    rw [List.map_map]
    exact ((h.map Term.name).nodup_iff).2 hn
  · cases ht

theorem subtypes_read {d T : TypeDict} (hT : IsDict T) (hd : IsDict d) (hTm : ∀ p, p ∈ T ↔ p ∈ d) {o : Option TypeDict}
    (ho : (o = none ∧ d = []) ∨ o = some T) (l r l' r' : List Str) (h : HeadFits d l r) (hl : SameTypes l' l) (hr : SameTypes r' r) :
    checkSubtypes o l' r' = .ok () := by
  by_cases h0 : r' = []
  · subst h0; exact checkSubtypes_nil _ _
  have hr0 : r ≠ [] := by
    rintro rfl
    cases r' with
    | nil => exact h0 rfl
    | cons x xs => exact absurd ((hr x).1 (by simp)) (by simp)
  have hall : ∀ t ∈ l', t ∈ r' ∨ ∃ p ∈ r', d.lookup t = some (some p) := by
    intro t ht
    rcases h.2 with e | e
    · exact absurd e hr0
    · rcases e t ((hl t).1 ht) with h | ⟨p, h, h'⟩
      · exact .inl ((hr t).2 h)
      · exact .inr ⟨p, (hr p).2 h, h'⟩
  rcases ho with ⟨rfl, rfl⟩ | rfl
  · have : ∀ t ∈ l', t ∈ r' := by
      intro t ht
      rcases hall t ht with h | ⟨p, _, h⟩
      · exact h
      · cases h
    clear hall hl h
    induction l' with
    | nil => rfl
    | cons t ts ih =>
      rw [checkSubtypes_cons, if_neg (by simpa using h0), if_pos (this t (by simp))]
      exact ih (fun t ht => this t (by simp [ht]))
  · rw [checkSubtypes_ok h0]
    simpa only [lookup_same hT hd hTm] using hall

/-! ### Derived predicates and actions -/

theorem structures_actions {σ : PState} {ts : List Tree} {as : List Action}
    (h : List.Forall₂ (fun t a => ∃ body ps, t = .node (.atom (.kw s%"action") :: body) ∧
      ∀ prm, actionDef F { σ with params := prm } body = .ok (a, { σ with params := ps })) ts as) :
    ∀ prm, ∃ σ', structures F { σ with params := prm } ts = .ok (as, [], σ') := by
  induction h with
  | nil => exact fun _ => ⟨_, rfl⟩
  | cons h _ ih =>
    intro prm
    obtain ⟨body, ps, rfl, h⟩ := h
    obtain ⟨σ', hs⟩ := ih ps
    refine ⟨σ', ?_⟩
    simp only [structures, if_true, h, ok_bind, hs, pure_ok]

theorem structures_derived {σ : PState} {ts ats : List Tree} {as : List Action} {ds : List Derived} {σ' : PState}
    (h : List.Forall₂ (fun t d => ∃ body, t = .node (.atom (.kw s%"derived") :: body) ∧ derivedDef F σ body = .ok d) ts ds)
    (ha : structures F σ ats = .ok (as, [], σ')) : structures F σ (ts ++ ats) = .ok (as, ds, σ') := by
  have hne : ¬ (s%"derived" = s%"action") := by decide
  induction h with
  | nil => exact ha
  | cons h _ ih =>
    obtain ⟨body, rfl, h⟩ := h
    simp only [List.cons_append, structures, if_neg hne, if_true, h, ok_bind, ih, pure_ok]

theorem sorted_block {α} {f : α → Str} {g : α → List Tree} {l : List α}
    (h : ∀ x ∈ l, Prints (f x) (g x)) (hb : ∀ x, ∃ r, f x = '(' :: r) :
    Block (sortAndPrint [] (l.map f) [] false) ((inOrder f l).flatMap g) := by
  unfold sortAndPrint
  cases l with
  | nil => exact .nil
  | cons a l =>
    rw [if_pos (by simp), inOrder_map]
    refine ⟨?_, .inr ?_⟩
    · have := Prints.join_map isSpace_blank (f := f) (g := g) (l := inOrder f (a :: l)) (fun x hx =>
        h x ((inOrder_perm _ _).mem_iff.1 hx))
      simpa using this
    · cases ho : inOrder f (a :: l) with
      | nil => have := (inOrder_perm f (a :: l)).length_eq; rw [ho] at this; simp at this
      | cons b bs =>
        obtain ⟨r, hr⟩ := hb b
        cases bs with
        | nil => exact ⟨r, by simp [joinStr, hr]⟩
        | cons c cs => exact ⟨_, by simp only [List.map_cons, joinStr, hr, List.nil_append, List.append_nil, List.cons_append]; rfl⟩

/-! ### The whole text -/

theorem typing_of_has {rs : List Req} (h : HasTyping rs) : Req.typing ∈ extendReqs rs := typing_extend.2 h

theorem extend_congr {rs rs' : List Req} (h : ∀ r, r ∈ rs ↔ r ∈ rs') (r : Req) : r ∈ extendReqs rs ↔ r ∈ extendReqs rs' := by
  rw [mem_extendReqs, mem_extendReqs]
  unfold InForce
  simp only [h]

/-- What is read back has the same parts, up to order, with the same texts. -/
structure DomainEchoed (d' d : Domain) : Prop where
  name : d'.name = d.name
  reqs : d'.reqs.Perm d.reqs
  types : d'.types.Perm d.types
  constants : d'.constants.Perm d.constants
  predicates : ∃ ps : List Pred, ps.Perm d.predicates ∧ d'.predicates = ps.map readPred
  functions : d'.functions.Perm d.functions
  derived : ∃ xs : List Derived, xs.Perm d.derived ∧ List.Forall₂ (fun x y : Derived => y.pred = readPred x.pred ∧ y.cond.str = x.cond.str ∧
    blocks y.cond = blocks x.cond) xs d'.derived
  actions : d'.actions.Perm d.actions

theorem retagged_blocks (env : VarTypes) (e : Expr) : ∀ S, blocks (retagged S env e) = blocks e := by
  induction e using Expr.ind with
  | hbfun o as ih =>
    intro S
    simp only [retagged, blocks, blocksAll_eq, retaggeds_eq_map, List.flatMap_map]
    exact List.flatMap_congr (fun a ha => ih a ha S)
  | hbin o as ih =>
    intro S
    simp only [retagged, blocks, blocksAll_eq, retaggeds_eq_map, List.flatMap_map]
    exact List.flatMap_congr (fun a ha => ih a ha S)
  | hpred => intro S; rfl
  | heq => intro S; rfl
  | hnfun => intro S; rfl
  | hnum => intro S; rfl
  | hnot a ih => intro S; simp only [retagged, blocks, ih]
  | hquant q vs c ih => intro S; simp only [retagged, blocks, ih]
  | hwhen c e ih1 ih2 => intro S; simp only [retagged, blocks, ih1, ih2]
  | hfall vs e ih => intro S; simp only [retagged, blocks, ih]

theorem domain_read {d : Domain} (hb : BuiltDomain d) (hp : PrintDomain F d) :
    ∃ text d' σ', d.str = .ok text ∧ parseDomain F PState.fresh text = .ok (d', σ') ∧ d'.pyEq d = true ∧ DomainEchoed d' d := by
  obtain ⟨a, ha, hmk⟩ := hb
  have hc := checked_of_mk ha.types hmk
  obtain ⟨_, _, _, _, _, _, _, _, hda⟩ := (mkDomain_ok ha.types).1 hmk
  have hmp : ∀ p ∈ d.predicates, p ∈ a.predicates := by rw [hda]; exact fun p hp => dedupBy_subset hp
  have hma : ∀ x ∈ d.actions, x ∈ a.actions := by rw [hda]; exact fun p hp => dedupBy_subset hp
  have hmd : ∀ x ∈ d.derived, x ∈ a.derived := by rw [hda]; exact fun p hp => dedupBy_subset hp
  have hfun : d.functions = a.functions := by rw [hda]; rfl
  have hfd : IsFunDict d.functions := by rw [hfun]; exact ha.functions
  have hnames := names_nodup hp.constants hc.distinct
  -- requirements
  obtain ⟨r1, rs0, b1, hr1, hrs0⟩ := requirements_block hp.reqs
  obtain ⟨rs, hrs, hr1'⟩ : ∃ rs : List Req, (∀ r, r ∈ rs ↔ r ∈ d.reqs) ∧
      ((r1 = none ∧ rs = [] ∧ (⟨extendReqs rs, [], [], [], none⟩ : PState) = PState.fresh) ∨ ∃ b, r1 = some b ∧ parseRequirements b = .ok rs ∧
        (⟨extendReqs rs, [], [], [], none⟩ : PState) = { PState.fresh with ext := extendReqs rs }) := by
    refine ⟨rs0.getD [], hrs0, ?_⟩
    rcases hr1 with ⟨h1, h2⟩ | ⟨b, x, h1, h2, h3⟩
    · subst h2; exact .inl ⟨h1, rfl, rfl⟩
    · subst h3; exact .inr ⟨b, h1, h2, rfl⟩
  let σ1 : PState := ⟨extendReqs rs, [], [], [], none⟩
  -- types
  obtain ⟨ttext, r2, T, ht0, b2, hr2, hT, hTm⟩ := types_block (σ := σ1) hc.dict hc.typeNames hc.hierarchy.acyclic hc.clean hp.types rfl
    (fun h => (extend_congr hrs _).2 (typing_of_has (hp.types.typing h)))
  obtain ⟨o, ho, hr2'⟩ : ∃ o : Option TypeDict, ((o = none ∧ d.types = []) ∨ o = some T) ∧
      ((r2 = none ∧ T = [] ∧ ({ σ1 with types := o } : PState) = σ1) ∨ ∃ b, r2 = some b ∧ sectionTypes σ1 b = .ok (T, { σ1 with types := o })) := by
    rcases hr2 with ⟨h1, h2, h3⟩ | ⟨b, h1, h2, _⟩
    · exact ⟨none, .inl ⟨rfl, h3⟩, .inl ⟨h1, h2, rfl⟩⟩
    · exact ⟨some T, .inr rfl, .inr ⟨b, h1, h2⟩⟩
  let σ2 : PState := { σ1 with types := o }
  -- constants
  obtain ⟨r3, objs, cs, b3, hr3, hobjs, hcs⟩ := constants_block hp.constants hnames σ2
  let σ3 : PState := { σ2 with consts := cs }
  have hr3' : (r3 = none ∧ objs = [] ∧ σ3 = σ2) ∨ ∃ b, r3 = some b ∧ sectionConstants σ2 b = .ok (objs, σ3) := by
    rcases hr3 with ⟨h1, h2, h3⟩ | h
    · exact .inl ⟨h1, h2, by simp only [σ3, h3]; rfl⟩
    · exact .inr h
  -- predicates
  obtain ⟨r4, qs, b4, hr4, hqs⟩ := predicates_block hp.predicates (fun p h => ha.predicates p (hmp p h)) σ3
  let σ4 : PState := { σ3 with preds := dictOf (qs.map (fun p => (p.name, p))) }
  have hr4' : (r4 = none ∧ qs = [] ∧ σ4 = σ3) ∨ ∃ b, r4 = some b ∧ sectionPredicates σ3 b = .ok (qs, σ4) := by
    rcases hr4 with ⟨h1, h2⟩ | h
    · refine .inl ⟨h1, h2, ?_⟩
      simp only [σ4, h2]; rfl
    · exact .inr h
  have hperm : (sortedBy Pred.lt d.predicates).Perm d.predicates := sortBy_perm _ _
  -- functions
  obtain ⟨r5, fs, b5, hr5, hfs⟩ := functions_block hp.functions (fun f h => ha.functionNames f (by rw [← hfun]; exact h)) hfd
  -- the scope
  have hscope : ∀ params : List Term, ScopeLe (domainScope F d params)
      (PState.env { σ4 with params := params.map (fun t => (t.name, t)) } F) := by
    intro params
    refine ⟨rfl, fun r hr => (extend_congr hrs r).2 hr, ?_, fun _ => rfl, rfl⟩
    intro n t ht
    have := constant_read hobjs hnames ht
    rw [← hcs] at this
    show PState.constant _ n = _
    simp only [PState.constant, σ4, σ3, this, pure_ok]
  have hq : ∀ n q, dictGet σ4.preds n = some q → ∃ p ∈ d.predicates, p.name = n ∧ q = readPred p := by
    intro n q h
    have := dictOf_mem (mem_of_dictGet h)
    obtain ⟨q', hq', e⟩ := List.mem_map.1 this
    cases e
    rw [hqs] at hq'
    obtain ⟨p, hp', rfl⟩ := List.mem_map.1 hq'
    exact ⟨p, hperm.mem_iff.1 hp', rfl, rfl⟩
  have hq' : ∀ p ∈ d.predicates, ∃ q, dictGet σ4.preds p.name = some q := by
    intro p hp'
    refine dictGet_of_key ((dictOf_keys _).2.2 _ ?_)
    simp only [List.map_map, List.mem_map, Function.comp_apply]
    exact ⟨readPred p, by rw [hqs]; exact List.mem_map.2 ⟨p, hperm.mem_iff.2 hp', rfl⟩, rfl⟩
  -- derived predicates
  have hder : ∀ x : Derived, ∃ (c : Expr) (y : Derived), x ∈ d.derived → Prints (derivedStr x) [derivedTree x c] ∧
      derivedDef F σ4 [predTree x.pred.name (declOf x.pred), c.tree] = .ok y ∧ (y.norm = x.norm ∧ y.pred = readPred x.pred) ∧
        ∃ env env', y.cond = retagged [] env c ∧ x.cond = retagged [] env' c := by
    intro x
    by_cases hx : x ∈ d.derived
    · obtain ⟨c, y, h⟩ := derivedDef_read (σ := σ4) (ha.derived x (hmd x hx)) (hp.derived x hx) hp.predicates rfl (hscope []) hq hq'
        (subtypes_read hT hc.dict hTm ho)
      exact ⟨c, y, fun _ => h⟩
    · exact ⟨x.cond, x, fun h => absurd h hx⟩
  choose cf yf hder using hder
  have b6 := sorted_block (f := derivedStr) (g := fun x => [derivedTree x (cf x)]) (l := d.derived) (fun x hx => (hder x hx).1)
    (fun x => ⟨_, rfl⟩)
  -- actions
  have hact : ∀ x : Action, ∃ p e : Expr, x ∈ d.actions → Prints (x.str ++ s%"\n") [actionTree x p e] ∧
      ∃ body ps, actionTree x p e = .node (.atom (.kw s%"action") :: body) ∧
        ∀ prm, actionDef F { σ4 with params := prm } body = .ok (x, { σ4 with params := ps }) := by
    intro x
    by_cases hx : x ∈ d.actions
    · obtain ⟨h1, h2, _⟩ := hc.actions x hx
      obtain ⟨p, hpe⟩ := Option.ne_none_iff_exists'.1 h1
      obtain ⟨e, hee⟩ := Option.ne_none_iff_exists'.1 h2
      obtain ⟨vs, hv, hs⟩ := (hp.actions x hx).params
      have hbx := ha.actions x (hma x hx)
      have gp : p.Good := built_iff_good.1 (by have := hbx.pre; rw [hpe] at this; exact this)
      have ge : e.Good := built_iff_good.1 (by have := hbx.eff; rw [hee] at this; exact this)
      have htags := ha.tags x (hma x hx)
      rw [hpe, hee] at htags
      have tp : TagSets p := fun t ht => htags t (by simp [termsOpt, ht])
      have te : TagSets e := fun t ht => htags t (by simp [termsOpt, ht])
      have hn : ValidName x.name := by obtain ⟨n, hn⟩ := hbx.name; have := parseName_ok.1 hn; rw [this.1]; exact this.2
      have pp := (hscope x.params).cond ((hp.actions x hx).pre p hpe)
      have pe := (hscope x.params).eff ((hp.actions x hx).eff e hee)
      have hvp : x.params.map (fun t => (t.name, t)) = vs.map (fun v => (v.name, Term.var v)) := by
        rw [hv, List.map_map]; rfl
      rw [hvp] at pp pe
      refine ⟨p, e, fun _ => ⟨Prints.action hn.1 hv hs hpe hee (printCond_rel pp gp).2 (printEff_rel pe ge).2, _, vs.map (fun v => (v.name, Term.var v)), rfl, ?_⟩⟩
      intro prm
      exact actionDef_read (σ := { σ4 with params := prm }) hn hv hs hpe hee gp ge tp te pp pe
    · exact ⟨.num (.int 0), .num (.int 0), fun h => absurd h hx⟩
  choose pf ef hact using hact
  have b7 := sorted_block (f := fun x : Action => x.str ++ s%"\n") (g := fun x => [actionTree x (pf x) (ef x)]) (l := d.actions)
    (fun x hx => (hact x hx).1) (fun x => ⟨_, rfl⟩)
  have e6 : ∀ (α : Type) (g : α → Tree) (l : List α), l.flatMap (fun x => [g x]) = l.map g := by
    intro α g l
    induction l with
    | nil => rfl
    | cons x l ih => simp [ih]
  rw [e6] at b6 b7
  -- the structures
  have hD := inOrder_perm derivedStr d.derived
  have hA := inOrder_perm (fun x : Action => x.str ++ s%"\n") d.actions
  obtain ⟨σ5, hs1⟩ := structures_actions (F := F) (σ := σ4) (ts := (inOrder (fun x : Action => x.str ++ s%"\n") d.actions).map
      (fun x => actionTree x (pf x) (ef x))) (as := inOrder (fun x : Action => x.str ++ s%"\n") d.actions) (by
    rw [List.forall₂_map_left_iff, List.forall₂_same]
    exact fun x hx => (hact x (hA.mem_iff.1 hx)).2) []
  have hs2 := structures_derived (F := F) (σ := σ4) (ts := (inOrder derivedStr d.derived).map (fun x => derivedTree x (cf x)))
    (ds := (inOrder derivedStr d.derived).map yf) (by
    rw [List.forall₂_map_left_iff, List.forall₂_map_right_iff, List.forall₂_same]
    exact fun x hx => ⟨_, rfl, (hder x (hD.mem_iff.1 hx)).2.1⟩) hs1
  -- the domain
  obtain ⟨d', hmk', heq, hd'⟩ := remake hc hp.predicates (fun x hx => by
      obtain ⟨vs, h1, h2, _⟩ := (hp.derived x hx).head; exact ⟨vs, h1, h2⟩) hfd hrs hT hTm hobjs hperm hqs hfs hA hD
    (ds := (inOrder derivedStr d.derived).map yf) (by
      rw [List.forall₂_map_right_iff, List.forall₂_same]
      exact fun x hx => (hder x (hD.mem_iff.1 hx)).2.2.1)
  -- the text
  have hbody := ((((((b1.append b2).append b3).append b4).append b5).append b6).append b7).1
  obtain ⟨body, hbs, hbody⟩ : ∃ body, d.bodyStr = .ok body ∧ Prints body _ := by
    refine ⟨_, ?_, hbody⟩
    unfold Domain.bodyStr
    rw [ht0, ok_bind]
    rfl
  have hhead := header_text (k := s%"domain") (by decide +kernel) (by decide) hc.name.1
  have hread := readText_layout hhead hbody
  have htext : '(' :: (s%"define (" ++ s%"domain" ++ s%" " ++ d.name ++ s%")") =
      s%"(define (domain " ++ d.name ++ s%")" := by simp
  rw [htext] at hread
  have hn5 : ∀ k : Str, k ≠ s%"derived" → k ≠ s%"action" → NotSection k
      ((inOrder derivedStr d.derived).map (fun x => derivedTree x (cf x)) ++
       (inOrder (fun x : Action => x.str ++ s%"\n") d.actions).map (fun x => actionTree x (pf x) (ef x))) := by
    intro k h1 h2
    cases inOrder derivedStr d.derived with
    | cons x l => exact .node h1
    | nil =>
      cases inOrder (fun x : Action => x.str ++ s%"\n") d.actions with
      | cons x l => exact .node h2
      | nil => exact .nil
  refine ⟨_, d', { σ5 with types := none }, by unfold Domain.str; rw [hbs, ok_bind]; rfl, ?_, heq, ?_⟩
  rotate_left
  · have hTp : T.Perm d.types := by
      rw [List.perm_ext_iff_of_nodup hT.of_map hc.dict.of_map]
      exact hTm
    rw [hd']
    refine ⟨rfl, ?_, hTp, hobjs, ⟨_, hperm, hqs⟩, hfs, ⟨_, hD, ?_⟩, hA⟩
    · exact (List.perm_ext_iff_of_nodup (dedup_nodup _) hc.distinctReqs).2 (fun r => mem_reqSet.trans (hrs r))
    · rw [List.forall₂_map_right_iff, List.forall₂_same]
      intro x hx
      obtain ⟨_, _, ⟨_, h2⟩, _, _, h3, h4⟩ := hder x (hD.mem_iff.1 hx)
      refine ⟨h2, ?_, ?_⟩
      · rw [h3, h4, retagged_text, retagged_text]
      · rw [h3, h4, retagged_blocks, retagged_blocks]
  unfold parseDomain
  rw [hread, ok_bind]
  simp only [List.append_assoc]
  refine DomainParse.run (d := d') ⟨d.name, _, ?_, r1, _, takeSection_sec ?_, rs, σ1, hr1', r2, _, takeSection_sec ?_, T, σ2, hr2',
    r3, _, takeSection_sec ?_, objs, σ3, hr3', r4, _, takeSection_sec ?_, qs, σ4, hr4', r5, _, takeSection_sec ?_, fs, hr5,
    _, _, σ5, hs2, hmk', rfl⟩
  · have e1 : ∀ l, dropKeyword s%"define" (.atom (.name s%"define") :: l) = some l := fun _ => rfl
    have e2 : ∀ l, dropKeyword s%"domain" (.atom (.name s%"domain") :: l) = some l := fun _ => rfl
    simp only [List.cons_append, List.nil_append, header, e1, e2, pure_ok]
  · exact .sec (by decide) (.sec (by decide) (.sec (by decide) (.sec (by decide) (hn5 _ (by decide) (by decide)))))
  · exact .sec (by decide) (.sec (by decide) (.sec (by decide) (hn5 _ (by decide) (by decide))))
  · exact .sec (by decide) (.sec (by decide) (hn5 _ (by decide) (by decide)))
  · exact .sec (by decide) (hn5 _ (by decide) (by decide))
  · exact hn5 _ (by decide) (by decide)

end Pddl
