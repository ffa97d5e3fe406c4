/-
The derived predicates that are read derive what the text derives.
-/
import Verif.Spec.DerivedSem
import Verif.Proofs.Execute
import Verif.Proofs.DomainReread
import Verif.Proofs.AsReadCond

namespace Pddl
open Spec Spec.Grammar

/-! ### A text is one list of variables -/

theorem varTrees_inj {ns ns' : List Str} (h : ns.flatMap varTrees = ns'.flatMap varTrees) : ns = ns' := by
  have := congrArg varNames h
  have h1 := varNames_vars ns []
  have h2 := varNames_vars ns' []
  simp only [List.append_nil] at h1 h2
  rw [h1, h2] at this
  simpa [varNames] using this

theorem varTrees_minus {ns ns' : List Str} {r r' : List Tree}
    (h : ns.flatMap varTrees ++ .atom .minus :: r = ns'.flatMap varTrees ++ .atom .minus :: r') : ns = ns' ∧ r = r' := by
  induction ns generalizing ns' with
  | nil =>
    cases ns' with
    | nil => simpa using h
    | cons n ns' => simp [varTrees] at h
  | cons n ns ih =>
    cases ns' with
    | nil => simp [varTrees] at h
    | cons n' ns' =>
      simp only [List.flatMap_cons, varTrees, List.cons_append, List.nil_append, List.cons.injEq, true_and,
        Tree.atom.injEq, Tok.name.injEq] at h
      obtain ⟨h1, h2⟩ := ih h.2
      exact ⟨by rw [h.1, h1], h2⟩

theorem varTrees_noMinus {ns ns' : List Str} {r : List Tree} (h : ns.flatMap varTrees = ns'.flatMap varTrees ++ .atom .minus :: r) : False := by
  have : Tree.atom .minus ∈ ns.flatMap varTrees := by rw [h]; simp
  simp [varTrees] at this

theorem names_inj {ns ns' : List Str} (h : ns.map (fun x => Tree.atom (.name x)) = ns'.map (fun x => Tree.atom (.name x))) : ns = ns' := by
  have hi : Function.Injective (fun n : Str => Tree.atom (.name n)) := by
    intro x y hxy; injection hxy with hxy; injection hxy
  exact List.map_injective_iff.2 hi h

theorem Spec.TypeText.unique {t : Tree} {l l' : List Str} (h : TypeText t l) (h' : TypeText t l') : l = l' := by
  cases h with
  | one n => cases h'; rfl
  | either n ns =>
    generalize ht : Tree.node (.atom (.name s%"either") :: (n :: ns).map (fun x => .atom (.name x))) = t at h'
    cases h' with
    | one _ => cases ht
    | either n' ns' =>
      injection ht with ht
      injection ht with _ ht
      exact names_inj ht
    | fused c cs ns' hc =>
      injection ht with ht
      injection ht with ht _
      simp at ht
  | fused c cs ns hc =>
    generalize ht : Tree.node (.atom (.name (s%"either" ++ c :: cs)) :: ns.map (fun x => .atom (.name x))) = t at h'
    cases h' with
    | one _ => cases ht
    | either n' ns' =>
      injection ht with ht
      injection ht with ht _
      simp at ht
    | fused c' cs' ns' hc' =>
      injection ht with ht
      injection ht with h1 ht
      simp at h1
      rw [names_inj ht, h1.1, h1.2]

theorem Spec.VarsText.unique {ts : List Tree} {l l' : TypedList} (h : VarsText ts l) (h' : VarsText ts l') : l = l' := by
  induction h generalizing l' with
  | rest ns =>
    generalize ht : ns.flatMap varTrees = t at h'
    cases h' with
    | rest ns' => rw [varTrees_inj ht]
    | group _ _ => exact (varTrees_noMinus ht).elim
  | @group n ns t types ts l h1 _ ih =>
    generalize ht : (n :: ns).flatMap varTrees ++ .atom .minus :: t :: ts = u at h'
    cases h' with
    | rest ns' => exact (varTrees_noMinus ht.symm).elim
    | @group n' ns' t' types' ts' l' h1' h2' =>
      obtain ⟨e1, e2⟩ := varTrees_minus ht
      injection e2 with e2 e3
      subst e2 e3
      rw [e1, h1.unique h1', ih h2']

/-! ### The head of a derived predicate -/

theorem inRange_congr {D : Type} {I : Interp D} {v w : Var} (h : SameTypes v.tags w.tags) (d : D) : InRange I v d ↔ InRange I w d := by
  unfold InRange
  rw [sameTypes_nil h]
  have : (∃ t ∈ v.tags, I.ty t d) ↔ ∃ t ∈ w.tags, I.ty t d :=
    ⟨fun ⟨t, h1, h2⟩ => ⟨t, (h t).1 h1, h2⟩, fun ⟨t, h1, h2⟩ => ⟨t, (h t).2 h1, h2⟩⟩
  rw [this]

/-- The predicate reads as the written head, with types from the declaration. -/
structure HeadFilled (l l' : TypedList) (ts : List Term) : Prop where
  length : l'.vars.length = l.vars.length
  each : List.Forall₂ (fun (q : (Str × List Str) × (Str × List Str)) (t : Term) => ∃ v : Var, t = .var v ∧ v.name = q.1.1 ∧
    SameTypes v.tags (if q.1.2 = [] then q.2.2 else q.1.2)) (l.vars.zip l'.vars) ts

theorem filled_each {ps ps' : List (Str × List Str)} (h : ps'.length = ps.length) :
    List.Forall₂ (fun (q : (Str × List Str) × (Str × List Str)) (t : Term) => ∃ v : Var, t = .var v ∧ v.name = q.1.1 ∧
      SameTypes v.tags (if q.1.2 = [] then q.2.2 else q.1.2)) (ps.zip ps')
      ((filledHead (ps.map (fun p => ⟨p.1, dd p.2⟩)) (ps'.map (fun p => Term.var ⟨p.1, dd p.2⟩))).map Term.var) := by
  induction ps generalizing ps' with
  | nil => exact .nil
  | cons p ps ih =>
    cases ps' with
    | nil => simp at h
    | cons p' ps' =>
      simp only [List.zip_cons_cons, List.map_cons, filledHead]
      refine .cons ⟨_, rfl, rfl, ?_⟩ (ih (by simpa using h))
      intro x
      by_cases hp : p.2 = []
      · simp [hp, dd_mem, dd_empty, Term.tags]
      · simp [hp, dd_mem, dd_empty]

theorem filledHead_ok {types : Option TypeDict} {l l' : TypedList} {p : Pred} {env : VarTypes} {us : List Term}
    (hp : p.terms = (builtVars l').map Term.var) (hlen : p.terms.length = (builtVars l).length)
    (hn : (l.vars.map Prod.fst).Nodup) (he : derivedEnv types (((builtVars l).map Term.var).zip p.terms) [] = .ok env)
    (hu : ((builtVars l).map Term.var).mapM (Term.retag env) = .ok us) : HeadFilled l l' us := by
  have hnames : ((builtVars l).map Var.name).Nodup := by
    unfold builtVars; rw [List.map_map]; exact hn
  have hzip : (((((builtVars l).map Term.var).zip p.terms).map Prod.fst).map Term.name).Nodup := by
    rw [List.map_fst_zip (by rw [List.length_map]; omega), List.map_map]
    exact hnames
  have henv : EnvOf env [] (headTypes (((builtVars l).map Term.var).zip p.terms)) := by
    intro n
    rw [derivedEnv_ok he hzip n]
    rw [show dictGet ([] : VarTypes) n = none from rfl, Option.or_none]
    rfl
  have hbn : ∀ (k : TypedList), ∀ v ∈ builtVars k, v.tags.Nodup := by
    intro k v hv
    obtain ⟨q, _, rfl⟩ := List.mem_map.1 hv
    exact dedup_nodup _
  have hsn : ScopeNodup [] (headTypes (((builtVars l).map Term.var).zip p.terms)) := by
    refine scopeNodup_base (headTypes_nodup ?_)
    rintro ⟨a, b⟩ hab
    have h1 := List.of_mem_zip hab
    rw [hp] at h1
    obtain ⟨h1, h2⟩ := h1
    obtain ⟨v, hv, rfl⟩ := List.mem_map.1 h1
    obtain ⟨w, hw', rfl⟩ := List.mem_map.1 h2
    exact ⟨hbn _ v hv, hbn _ w hw'⟩
  have hus := retags_ok henv hsn hu
  rw [filled_retag hlen hnames] at hus
  have hll : l'.vars.length = l.vars.length := by
    rw [hp] at hlen
    simpa [builtVars] using hlen
  refine ⟨hll, ?_⟩
  rw [hus, hp]
  have := filled_each (ps := l.vars) (ps' := l'.vars) hll
  simpa [builtVars, List.map_map, Function.comp_def] using this

theorem HeadFilled.congr {l l' : TypedList} {ts us : List Term} (h : HeadFilled l l' ts) (e : us.map Term.norm = ts.map Term.norm) :
    HeadFilled l l' us := by
  refine ⟨h.length, ?_⟩
  have h2 := h.each
  clear h
  revert h2
  generalize l.vars.zip l'.vars = qs
  intro h2
  induction h2 generalizing us with
  | nil => simp at e; subst e; exact .nil
  | cons h1 _ ih =>
    cases us with
    | nil => simp at e
    | cons u us =>
      simp only [List.map_cons, List.cons.injEq] at e
      refine .cons ?_ (ih e.2)
      obtain ⟨v, rfl, hv, ht⟩ := h1
      cases u with
      | const _ _ => simp [Term.norm] at e
      | var w =>
        have := e.1
        simp only [Term.norm, Var.norm, NTerm.var.injEq, Prod.mk.injEq] at this
        refine ⟨w, rfl, this.1.trans hv, fun x => ?_⟩
        rw [← ht x, ← List.mem_toFinset, this.2, List.mem_toFinset]

theorem HeadFilled.denote {D : Type} {l l' : TypedList} {ts : List Term} (h : HeadFilled l l' ts) (I : Interp D) (ρ : Str → D) :
    ts.map (denote I ρ) = l.vars.map (fun p => ρ p.1) ∧ ts.map Term.name = l.vars.map Prod.fst ∧
      ((∀ v, .var v ∈ ts → InRange I v (ρ v.name)) ↔
        ∀ q ∈ l.vars.zip l'.vars, InRange I ⟨q.1.1, if q.1.2 = [] then q.2.2 else q.1.2⟩ (ρ q.1.1)) := by
  have hz : l.vars = (l.vars.zip l'.vars).map Prod.fst := by
    rw [List.map_fst_zip]
    exact Nat.le_of_eq h.length.symm
  have h2 := h.each
  have e1 : l.vars.map (fun p => ρ p.1) = (l.vars.zip l'.vars).map (fun q => ρ q.1.1) := by
    conv_lhs => rw [hz]
    rw [List.map_map]; rfl
  have e2 : l.vars.map Prod.fst = (l.vars.zip l'.vars).map (fun q => q.1.1) := by
    conv_lhs => rw [hz]
    rw [List.map_map]; rfl
  rw [e1, e2]
  clear hz h e1 e2
  generalize l.vars.zip l'.vars = qs at h2 ⊢
  induction h2 with
  | nil => simp
  | cons h1 _ ih =>
    obtain ⟨v, rfl, hv, ht⟩ := h1
    obtain ⟨i1, i2, i3⟩ := ih
    refine ⟨?_, ?_, ?_⟩
    · simp only [List.map_cons, i1, Spec.denote, hv]
    · simp only [List.map_cons, i2, Term.name, hv]
    · simp only [List.mem_cons, forall_eq_or_imp, ← i3]
      have : ∀ d, InRange I v d ↔ InRange I ⟨_, _⟩ d := fun d => inRange_congr (w := ⟨v.name, _⟩) ht d
      constructor
      · intro h
        refine ⟨?_, fun w hw => h w (.inr hw)⟩
        have := (this _).1 (h v (.inl rfl))
        rw [← hv]; exact this
      · rintro ⟨h, h'⟩ w (hw | hw)
        · injection hw with hw
          subst hw
          refine (this _).2 ?_
          rw [hv] at *
          exact h
        · exact h' w hw

/-! ### One derived predicate -/

/-- The derived predicate is read from the text `t`. -/
structure DerivedReads (F : FloatOf) (s : DomainSections) (b : List Tree) (c : Tree) (x : Derived) (l l' : TypedList) (b' : List Tree) :
    Prop where
  text : VarsText b l
  decl : .node (word x.pred.name :: b') ∈ s.predicates.getD []
  declText : VarsText b' l'
  head : (l.vars.map Prod.fst).Nodup → HeadFilled l l' x.pred.terms
  cond : KeepsOperands (textEnv F) c → SaysTheSame F c x.cond
  exact : ∀ (D : Type) (I : Interp D) lit ρ, LitOk lit F → (holds I x.cond ρ ↔ treeHolds I lit (readCond F c) ρ)

theorem DerivedReads.congr {F : FloatOf} {s : DomainSections} {b : List Tree} {c : Tree} {x y : Derived} {l l' : TypedList} {b' : List Tree}
    (h : DerivedReads F s b c x l l' b') (e : y.pyEq x = true) : DerivedReads F s b c y l l' b' ∧ y.pred.name = x.pred.name := by
  rw [Derived.pyEq_iff] at e
  simp only [Derived.norm, Pred.norm, Prod.mk.injEq] at e
  obtain ⟨⟨e1, e2⟩, e3⟩ := e
  refine ⟨⟨h.text, e1 ▸ h.decl, h.declText, fun hn => (h.head hn).congr e2, fun hk D I lit ρ hlit => ?_,
    fun D I lit ρ hlit => ?_⟩, e1⟩
  · rw [← h.cond hk D I lit ρ hlit]
    exact holds_congr_norm I e3 ρ
  · rw [← h.exact D I lit ρ hlit]
    exact holds_congr_norm I e3 ρ

theorem derivedDef_reads {F : FloatOf} {σ : PState} {s : DomainSections} {body : List Tree} {x : Derived} (hc : ConstsOk σ) (hp : ParamsOk σ)
    (hpreds : ∀ n p, dictGet σ.preds n = some p → ∃ b' l', .node (word n :: b') ∈ s.predicates.getD [] ∧ VarsText b' l' ∧
      p.terms = (builtVars l').map Term.var)
    (hw : ∀ w, Inside (.atom (.name w)) (section_ s%"derived" body) → nameRegex w = true)
    (h : derivedDef F σ body = .ok x) :
    ∃ b c l l' b', body = [.node (word x.pred.name :: b), c] ∧ DerivedReads F s b c x l l' b' := by
  obtain ⟨b, c, l, e, hl, _, hcond⟩ := derivedDef_written hc hp hw h
  obtain ⟨t, c', head, cond, rfl, h1, h2, h3⟩ := derivedDef_ok h
  simp only [section_, Tree.node.injEq, List.cons.injEq, true_and, and_true] at e
  obtain ⟨rfl, rfl⟩ := e
  obtain ⟨_, p, env, us, hget, hlen, he, hu, hct, hpred⟩ := derivedPredicate_ok h3
  obtain ⟨b', l', hd, hl', hterms⟩ := hpreds _ _ hget
  unfold formulaSkeleton at h1
  simp only [word] at h1
  obtain ⟨vs, hv, h1⟩ := bind_ok_iff.1 h1
  obtain ⟨_, _, rfl⟩ := mkPred_ok.1 h1
  obtain ⟨l1, hl1, _, _, rfl⟩ := parseTypedVars_ok (fun w h => hw w (.node (t := .node (word x.pred.name :: b)) (List.mem_cons_of_mem _ List.mem_cons_self) (.node (.tail _ h) .refl))) hv
  have e1 := hl1.unique hl
  subst e1
  refine ⟨b, c', l1, l', b', rfl, hl, hd, hl', fun hn => ?_, hcond, fun D I lit ρ hlit => ?_⟩
  · rw [hpred]
    exact filledHead_ok hterms (by simpa using hlen) hn he hu
  · rw [updateTags_holds I ((gd_iff.1 h2).steady (env_plain hc hp F)) ρ hct]
    exact GRel.exact I lit (params_env hc hp F) hlit (gd_iff.1 h2) (fun w hi => hw w (hi.trans (.node (by simp) .refl))) ρ

/-! ### All derived predicates -/

theorem DomainParse.inside_section {F σ ts d σ'} (P : DomainParse F σ ts d σ') {t : Tree}
    (ht : t ∈ optText s%"types" P.r2 ++ optText s%"predicates" P.r4 ++ P.ts5) : Inside t (.node ts) := by
  have hts : Tree.node ts = .node (word s%"define" :: _ :: _) := P.sections_of.choose_spec.2
  simp only [Tree.node.injEq] at hts
  refine .node ?_ .refl
  rw [hts]
  refine .tail _ (.tail _ ?_)
  show t ∈ optText s%"requirements" P.r1 ++ optText s%"types" P.r2 ++
      optText s%"constants" P.r3 ++ optText s%"predicates" P.r4 ++ optText s%"functions" P.r5 ++ P.ts5
  simp only [List.mem_append] at ht ⊢
  tauto

theorem DomainParse.preds4 {F σ ts d σ'} (P : DomainParse F σ ts d σ') (hw : ∀ w, Inside (.atom (.name w)) (.node ts) → nameRegex w = true)
    (hσ : σ.preds = [] ∨ P.sections.predicates ≠ none) :
    ∀ n p, dictGet P.σ4.preds n = some p → ∃ b' l', .node (word n :: b') ∈ P.sections.predicates.getD [] ∧ VarsText b' l' ∧
      p.terms = (builtVars l').map Term.var := by
  have h1 : P.σ1.preds = σ.preds := by
    rcases P.hreqs with ⟨_, _, h⟩ | ⟨b, _, _, h⟩ <;> rw [h]
  have h2 : P.σ2.preds = P.σ1.preds := by
    rcases P.htypes with ⟨_, _, h⟩ | ⟨b, _, h⟩
    · rw [h]
    · unfold sectionTypes at h
      obtain ⟨_, _, h⟩ := bind_ok_iff.1 h
      obtain ⟨_, _, h⟩ := bind_ok_iff.1 h
      obtain ⟨_, _, h⟩ := bind_ok_iff.1 h
      simp only [pure_ok, Except.ok.injEq, Prod.mk.injEq] at h
      rw [← h.2]
  have h3 : P.σ3.preds = P.σ2.preds := by
    rcases P.hconsts with ⟨_, _, h⟩ | ⟨b, _, h⟩
    · rw [h]
    · unfold sectionConstants at h
      obtain ⟨_, _, h⟩ := bind_ok_iff.1 h
      obtain ⟨_, _, h⟩ := bind_ok_iff.1 h
      simp only [pure_ok, Except.ok.injEq, Prod.mk.injEq] at h
      rw [← h.2]
  intro n p hget
  rcases P.hpreds with ⟨h, h', h4⟩ | ⟨b, hb, h⟩
  · rcases hσ with hσ | hσ
    · rw [h4, h3, h2, h1, hσ] at hget
      simp [dictGet] at hget
    · exact absurd h hσ
  · have hsec : P.sections.predicates = some b := hb
    unfold sectionPredicates at h
    obtain ⟨ps, hps, h⟩ := bind_ok_iff.1 h
    obtain ⟨_, _, h⟩ := bind_ok_iff.1 h
    simp only [pure_ok, Except.ok.injEq, Prod.mk.injEq] at h
    rw [← h.2] at hget
    obtain ⟨q, hq, e⟩ := List.mem_map.1 (dictOf_mem (mem_of_dictGet hget))
    simp only [Prod.mk.injEq] at e
    obtain ⟨rfl, rfl⟩ := e
    obtain ⟨t, ht, hs⟩ := forall₂_right (mapM_ok_iff.1 hps) q hq
    rw [hsec]
    unfold formulaSkeleton at hs
    split at hs
    · rename_i n b1
      obtain ⟨vs, hv, hs⟩ := bind_ok_iff.1 hs
      obtain ⟨_, _, rfl⟩ := mkPred_ok.1 hs
      obtain ⟨l, hl, _, _, rfl⟩ := parseTypedVars_ok (fun w hi => hw w ((Inside.node (.tail _ hi) .refl).trans
        (Inside.trans (.node (.tail _ ht) .refl) (P.inside_section (t := section_ s%"predicates" b) (by simp [hb, optText]))))) hv
      exact ⟨b1, l, ht, hl, rfl⟩
    · cases hs

theorem DomainParse.derivedReads {F σ ts d σ'} (P : DomainParse F σ ts d σ') (hσ : ParserState F σ)
    (hw : ∀ w, Inside (.atom (.name w)) (.node ts) → nameRegex w = true) (hpr : σ.preds = [] ∨ P.sections.predicates ≠ none) :
    (∀ x ∈ d.derived, ∃ b c l l' b', section_ s%"derived" [.node (word x.pred.name :: b), c] ∈ P.sections.structures ∧
      DerivedReads F P.sections b c x l l' b') ∧
    ∀ n b c, section_ s%"derived" [.node (word n :: b), c] ∈ P.sections.structures →
      ∃ x ∈ d.derived, x.pred.name = n ∧ ∃ l l' b', DerivedReads F P.sections b c x l l' b' := by
  have h4 := constsOk_domain P hσ.constsOk
  have hp4 : ParamsOk P.σ4 := by unfold ParamsOk; rw [P.params4]; exact hσ.paramsOk
  have hcs : ∀ σ1 : PState, σ1.Same P.σ4 → ConstsOk σ1 := by
    intro σ1 hs
    unfold ConstsOk at *
    rw [hs.2.1]
    exact h4
  have hw5 : ∀ t ∈ P.ts5, ∀ w, Inside (.atom (.name w)) t → nameRegex w = true := fun t ht w hi =>
    hw w (hi.trans (P.inside_section (List.mem_append_right _ ht)))
  obtain ⟨-, hall, hder⟩ := structures_all P.hstruct hp4
  have hpr4 := P.preds4 hw hpr
  have htd : IsDict P.types := by
    rcases P.htypes with ⟨h, h', _⟩ | ⟨b, h, h'⟩
    · rw [h']; exact List.Pairwise.nil
    · refine (sectionTypes_written (fun w hi => hw w ?_) h').2
      exact Inside.trans (.node (.tail _ hi) .refl) (P.inside_section (t := section_ s%"types" b) (by simp [h, optText]))
  have hd : d.derived = dedupBy Derived.pyEq P.ds := congrArg Domain.derived ((mkDomain_ok (by exact htd)).1 P.hdomain).2.2.2.2.2.2.2.2
  rw [hd]
  constructor
  · intro x hx
    obtain ⟨body, σ1, hb, hs, hp, hdf⟩ := hder x (dedupBy_subset hx)
    obtain ⟨b, c, l, l', b', rfl, hr⟩ := derivedDef_reads (s := P.sections) (hcs σ1 hs) hp (by rw [hs.2.2.1]; exact hpr4) (hw5 _ hb) hdf
    exact ⟨b, c, l, l', b', hb, hr⟩
  · intro n b c ht
    rcases hall _ ht with ⟨body, σ1, σ2, a, e, _⟩ | ⟨body, σ1, x, e, hs, hp, hdf, hx⟩
    · simp [section_] at e
    · have e : [.node (word n :: b), c] = body := by simpa [section_] using e
      obtain ⟨b1, c1, l, l', b', e1, hr⟩ := derivedDef_reads (s := P.sections) (hcs σ1 hs) hp (by rw [hs.2.2.1]; exact hpr4)
        (by rw [← e]; exact hw5 _ ht) hdf
      rw [← e] at e1
      simp only [List.cons.injEq, Tree.node.injEq, word, Tree.atom.injEq, Tok.name.injEq, and_true] at e1
      obtain ⟨⟨e1, rfl⟩, rfl⟩ := e1
      obtain ⟨y, hy, ey⟩ := memBy_iff.1 (dedupBy_cover (fun a => Derived.pyEq_iff.2 rfl) hx)
      obtain ⟨hr', hn⟩ := hr.congr (eqv_derived.symm ey)
      exact ⟨y, hy, hn.trans e1.symm, l, l', b', hr'⟩

/-- What is derived. -/
theorem derives_iff {F : FloatOf} {s : DomainSections} {xs : List Derived}
    (h1 : ∀ x ∈ xs, ∃ b c l l' b', section_ s%"derived" [.node (word x.pred.name :: b), c] ∈ s.structures ∧ DerivedReads F s b c x l l' b')
    (h2 : ∀ n b c, section_ s%"derived" [.node (word n :: b), c] ∈ s.structures →
      ∃ x ∈ xs, x.pred.name = n ∧ ∃ l l' b', DerivedReads F s b c x l l' b')
    (hp : PlainDerived F s) {D : Type} {lit : Str → Option Rat} (hlit : LitOk lit F) (ρ : Str → D) (I : Interp D) (n : Str) (ds : List D) :
    Derives ρ xs I n ds ↔ TextDerives lit s ρ I n ds := by
  constructor
  · rintro ⟨x, hx, rfl, ρ', k1, k2, k3, k4⟩
    obtain ⟨b, c, l, l', b', ht, hr⟩ := h1 x hx
    have hh := hr.head (hp.vars _ _ _ _ ht hr.text)
    obtain ⟨z1, z2, z3⟩ := hh.denote I ρ'
    rw [z2] at k1
    rw [z1] at k2
    exact ⟨b, c, l, b', l', ρ', ht, hr.text, hr.decl, hr.declText, hh.length, k1, k2, z3.1 k3,
      (hr.cond (hp.cond _ _ _ ht) D I lit ρ' hlit).1 k4⟩
  · rintro ⟨b, c, l, b', l', ρ', ht, hl, hd, hl', _, k1, k2, k3, k4⟩
    obtain ⟨x, hx, rfl, l1, l1', b1, hr⟩ := h2 n b c ht
    have e := hr.text.unique hl
    subst e
    have e := hp.once _ _ _ _ _ ht hr.decl hd
    subst e
    have e := hr.declText.unique hl'
    subst e
    have hh := hr.head (hp.vars _ _ _ _ ht hr.text)
    obtain ⟨z1, z2, z3⟩ := hh.denote I ρ'
    refine ⟨x, hx, rfl, ρ', ?_, ?_, z3.2 k3, (hr.cond (hp.cond _ _ _ ht) D I lit ρ' hlit).2 k4⟩
    · rw [z2]; exact k1
    · rw [z1]; exact k2

/-! ### Plans -/

theorem runsBy_iff {F : FloatOf} {σ : PState} {text : Str} {d : Domain} {σ' : PState} {ts : List Tree} {plan : Plan} {us : List Tree}
    {gs : List Action} (hσ : ParserState F σ) (h : parseDomain F σ text = .ok (d, σ')) (hts : readText text = .ok [.node ts])
    (hp : PlainActions ts) (hk : OperandsStay F ts us) (hw : List.Forall₂ StepWritten us plan.steps)
    (hvalid : ∀ s ∈ plan.steps, ∀ c ∈ s.2, ValidName c.name) (hg : plan.inst d = .ok gs)
    {D : Type} {lit : Str → Option Rat} (hlit : LitOk lit F) (E : Interp D → Interp D → Prop) (ρ : Str → D) (I J : Interp D) :
    RunsBy E ρ gs I J ↔ TextRunsBy E lit ts ρ us I J := by
  have h1 := instSteps_ok.mp hg
  clear hg
  revert h1 hw hvalid
  generalize plan.steps = l
  intro hw hvalid h1
  induction hw generalizing gs I with
  | nil =>
    cases h1
    constructor <;> (intro h; cases h; exact .nil)
  | @cons u s us l hu _ ih =>
    cases h1 with
    | @cons _ g _ gs h1 h2 =>
      obtain ⟨a, ha, hi⟩ := h1
      obtain ⟨hm, hn⟩ := lastNamed_mem ha
      obtain ⟨ns, rfl, hs⟩ := hu
      rw [hs] at hi
      have key := fun I' J => actsAt_iff hσ h hts hp hk (n := s.1) (ns := ns) List.mem_cons_self (fun m hm => hvalid s List.mem_cons_self (.const m none) (by
        rw [hs]; exact List.mem_map.2 ⟨m, hm, rfl⟩)) hm hn hi hlit ρ I I' J
      have hk' : OperandsStay F ts us := fun n ns ps pre eff l hu => hk n ns ps pre eff l (List.mem_cons_of_mem _ hu)
      have ih := fun J => ih (gs := gs) hk' J (fun s hs => hvalid s (List.mem_cons_of_mem _ hs))
      constructor
      · intro h
        cases h with
        | cons k0 k1 k2 => exact .cons k0 ((key _ _).1 k1) ((ih _ h2).1 k2)
      · intro h
        cases h with
        | cons k0 k1 k2 => exact .cons k0 ((key _ _).2 k1) ((ih _ h2).2 k2)

end Pddl
