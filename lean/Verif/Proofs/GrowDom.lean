/-
Domains with more declarations.
-/
import Verif.Proofs.Grow

namespace Pddl.Rules
open Spec Spec.Rules Spec.Grammar

/-! ### Lists -/

theorem memBy_filter {α : Type} {eq : α → α → Bool} {Q : α → Bool} (hQ : ∀ a b, eq a b = true → Q a = Q b) {x : α} (hx : Q x = true)
    (l : List α) : memBy eq x (l.filter Q) = memBy eq x l := by
  rw [Bool.eq_iff_iff, memBy_iff, memBy_iff]
  constructor
  · rintro ⟨y, hy, e⟩
    exact ⟨y, List.mem_of_mem_filter hy, e⟩
  · rintro ⟨y, hy, e⟩
    exact ⟨y, List.mem_filter.2 ⟨hy, by rw [← hQ _ _ e]; exact hx⟩, e⟩

theorem dedupAux_filter {α : Type} {eq : α → α → Bool} {Q : α → Bool} (hQ : ∀ a b, eq a b = true → Q a = Q b) (l seen : List α) :
    (dedupAux eq seen l).filter Q = dedupAux eq (seen.filter Q) (l.filter Q) := by
  induction l generalizing seen with
  | nil => rfl
  | cons x l ih =>
    by_cases hx : Q x = true
    · rw [List.filter_cons_of_pos hx, dedupAux, dedupAux, memBy_filter hQ hx]
      split
      · exact ih seen
      · rw [List.filter_cons_of_pos hx, ih, List.filter_append, List.filter_cons_of_pos hx, List.filter_nil]
    · rw [List.filter_cons_of_neg hx, dedupAux]
      split
      · exact ih seen
      · rw [List.filter_cons_of_neg hx, ih, List.filter_append, List.filter_cons_of_neg hx, List.filter_nil, List.append_nil]

theorem dedupBy_filter {α : Type} {eq : α → α → Bool} {Q : α → Bool} (hQ : ∀ a b, eq a b = true → Q a = Q b) (l : List α) :
    (dedupBy eq l).filter Q = dedupBy eq (l.filter Q) := dedupAux_filter hQ l []

theorem dedupAux_append {α : Type} {eq : α → α → Bool} (l m seen : List α) :
    ∃ r, (∀ x ∈ r, x ∈ m) ∧ dedupAux eq seen (l ++ m) = dedupAux eq seen l ++ r := by
  induction l generalizing seen with
  | nil => exact ⟨dedupAux eq seen m, fun x hx => dedupAux_subset hx, rfl⟩
  | cons x l ih =>
    rw [List.cons_append, dedupAux, dedupAux]
    split
    · exact ih seen
    · obtain ⟨r, h1, h2⟩ := ih (seen ++ [x])
      exact ⟨r, h1, by rw [h2, List.cons_append]⟩

theorem dedupBy_append {α : Type} {eq : α → α → Bool} (l m : List α) :
    ∃ r, (∀ x ∈ r, x ∈ m) ∧ dedupBy eq (l ++ m) = dedupBy eq l ++ r := dedupAux_append l m []

theorem forall₂_filter {α β : Type} {R : α → β → Prop} {Q : α → Bool} {Q' : β → Bool} {l : List α} {m : List β}
    (h : List.Forall₂ R l m) (hq : ∀ a b, R a b → Q a = Q' b) : List.Forall₂ R (l.filter Q) (m.filter Q') := by
  induction h with
  | nil => exact .nil
  | @cons a b l m hab _ ih =>
    by_cases ha : Q a = true
    · rw [List.filter_cons_of_pos ha, List.filter_cons_of_pos (by rw [← hq _ _ hab]; exact ha)]
      exact .cons hab ih
    · rw [List.filter_cons_of_neg ha, List.filter_cons_of_neg (by rw [← hq _ _ hab]; exact ha)]
      exact ih

theorem forall₂_fun {α β : Type} {R : α → β → Prop} (hR : ∀ a b c, R a b → R a c → b = c) {l : List α} {m m' : List β}
    (h : List.Forall₂ R l m) (h' : List.Forall₂ R l m') : m = m' := by
  induction h generalizing m' with
  | nil => cases h'; rfl
  | cons hab _ ih =>
    cases h' with
    | cons hab' h' => rw [hR _ _ _ hab hab', ih h']

/-! ### Predicates -/

theorem skeleton_name {t : Tree} {p : Pred} (h : formulaSkeleton t = .ok p) : declName t = some p.name := by
  unfold formulaSkeleton at h
  split at h
  · obtain ⟨vs, h1, h⟩ := bind_ok_iff.1 h
    obtain ⟨_, _, rfl⟩ := mkPred_ok.1 h
    rfl
  · simp at h

/-- The declarations of predicates as the parser reads them. -/
def ReadPreds (r : Option (List Tree)) (ps : List Pred) : Prop :=
  List.Forall₂ (fun t p => formulaSkeleton t = .ok p) (r.getD []) ps

theorem readPreds_filter {r r' : Option (List Tree)} {ps ps' : List Pred} (h : ReadPreds r ps) (h' : ReadPreds r' ps')
    (hf : (r'.getD []).filter (fun t => decide (declName t ∈ (r.getD []).map declName)) = r.getD []) :
    ps'.filter (fun p => decide (p.name ∈ ps.map Pred.name)) = ps := by
  have hn : (r.getD []).map declName = (ps.map Pred.name).map some := by
    unfold ReadPreds at h
    generalize r.getD [] = b at h
    clear hf
    induction h with
    | nil => rfl
    | cons hab _ ih => simp only [List.map_cons, skeleton_name hab, ih]
  have := forall₂_filter (Q := fun t => decide (declName t ∈ (r.getD []).map declName))
    (Q' := fun p => decide (p.name ∈ ps.map Pred.name)) h' (by
      intro t p htp
      rw [hn, skeleton_name htp]
      simp)
  rw [hf] at this
  exact forall₂_fun (fun a b c h1 h2 => by rw [h1] at h2; simpa using h2) this h

theorem predDict_filter {ps ps' : List Pred} (hf : ps'.filter (fun p => decide (p.name ∈ ps.map Pred.name)) = ps) {n : Str} {p : Pred}
    (h : dictGet (predDict ps) n = some p) : dictGet (predDict ps') n = some p := by
  have key : ∀ l : List Pred, dictGet (predDict l) n = l.reverse.find? (fun p => decide (p.name = n)) := by
    intro l
    unfold predDict
    rw [Pddl.dictGet_dictOf, ← List.map_reverse, List.find?_map]
    simp [Function.comp_def]
  have hn : n ∈ ps.map Pred.name := by
    rw [key] at h
    have h1 := List.find?_some h
    have h2 := List.mem_of_find?_eq_some h
    simp only [decide_eq_true_eq] at h1
    exact List.mem_map.2 ⟨p, by simpa using h2, h1⟩
  rw [key] at h ⊢
  rw [← h]
  conv_rhs => rw [← hf, ← List.filter_reverse, List.find?_filter]
  congr 1
  funext q
  rw [Bool.eq_iff_iff]
  simp only [decide_eq_true_eq]
  constructor
  · rintro rfl; exact ⟨hn, rfl⟩
  · exact fun h => h.2

/-! ### The sections -/

/-- What the parser knows after the declarations. -/
structure After (D : Decls) (rs x : List Req) (o : Option TypeDict) (r : Option (List Tree)) (ps : List Pred) : Prop where
  reqs : ∀ r, r ∈ rs ↔ r ∈ D.reqs
  ext : ∀ r, r ∈ x ↔ InForce D.reqs r
  kept : TypesKept o D.types
  dict : IsDict D.types
  nodup : (D.consts.map Prod.fst).Nodup
  preds : List.Forall₂ DeclIn ps D.preds
  read : ReadPreds r ps
  constOk : ∀ p ∈ D.consts, ∀ t, p.2 = some t → D.typeOk t
  predOk : ∀ p ∈ D.preds, ∀ q ∈ p.2, ∀ t ∈ q.2, D.typeOk t

theorem After.state {D : Decls} {rs x : List Req} {o : Option TypeDict} {r : Option (List Tree)} {ps : List Pred}
    (h : After D rs x o r ps) : StateIn D [] ⟨x, constDict D.consts, predDict ps, [], o⟩ :=
  stateIn_sections h.ext h.kept h.dict h.nodup h.preds h.constOk h.predOk

theorem declarations_run {F : FloatOf} {ts : List Tree} {s : DomainSections} {D : Decls} (hw : WordsOk (.node ts))
    (hs : s.Of (.node ts)) (ho : OnlyStructures s) (h : DeclarationsIn F s D) :
    ∃ rs x o ps funs, After D rs x o s.predicates ps ∧ ∀ as ds σ5,
      structures F ⟨x, constDict D.consts, predDict ps, [], o⟩ s.structures = .ok (as, ds, σ5) → (∀ a ∈ as, ATyped D a) →
      (∀ d ∈ ds, ∀ t ∈ d.pred.terms, ∀ x ∈ t.tags, Declared D.types x) →
      domainDef F PState.fresh ts = .ok (domainOf ⟨s.name, rs, D.types, (constDict D.consts).map Prod.snd, ps, funs, ds, as⟩,
        { σ5 with types := none }) := by
  obtain ⟨w2, w3, w4, w5, w6⟩ := sections_words hs hw
  obtain ⟨t0, t1, t2, t3, t4, k0, k1, k2, k3, k4, k5⟩ := takeSections hs ho
  obtain ⟨rs, σ1, hreqs, hr, x, rfl, hx⟩ := in_reqs h.reqs
  obtain ⟨hd, hT1, hT2, o, ho, htypes⟩ := in_types (σ1 := { PState.fresh with ext := x }) w2 rfl hx h.types
  obtain ⟨hC, hcs, hconsts⟩ := in_consts (σ2 := { PState.fresh with ext := x, types := o }) w3 rfl h.constants
  obtain ⟨hps, ps, hQ, hpreds⟩ := in_preds (σ3 := { PState.fresh with ext := x, types := o, consts := constDict D.consts }) w4 rfl h.predicates
  obtain ⟨funs, hfuns, hfok⟩ : ∃ funs, ((s.functions = none ∧ funs = []) ∨ ∃ b, s.functions = some b ∧ sectionFunctions b = .ok funs) ∧
      FunsOk D.reqs funs := by
    cases hf : s.functions with
    | none => exact ⟨[], .inl ⟨rfl, rfl⟩, by simp [FunsOk]⟩
    | some b =>
      obtain ⟨d, h1, h2⟩ := (sectionFunctions_in (w5 b hf)).2 (h.functions b hf)
      exact ⟨d, .inr ⟨b, rfl, h1⟩, h2⟩
  have hread : ReadPreds s.predicates ps := by
    unfold ReadPreds
    rcases hpreds with ⟨e, rfl, _⟩ | ⟨b, e, hb⟩
    · rw [show s.predicates = none from e]; exact .nil
    · rw [show s.predicates = some b from e]
      unfold sectionPredicates at hb
      obtain ⟨ps', h1, hb⟩ := bind_ok_iff.1 hb
      obtain ⟨_, _, hb⟩ := bind_ok_iff.1 hb
      simp only [pure_ok, Except.ok.injEq, Prod.mk.injEq] at hb
      rw [← hb.1]
      exact mapM_forall₂.1 h1
  have A : After D rs x o s.predicates ps := ⟨hr, hx, ho, hd, hC, hQ, hread, hcs, hps⟩
  refine ⟨rs, x, o, ps, funs, A, ?_⟩
  intro as ds σ5 hstruct ha hds
  obtain ⟨j1, j2, _⟩ := structures_in A.state w6 hstruct
  obtain ⟨d, hdomain⟩ := (mkDomain_in (n := s.name) (funs := funs) hd hr hC hQ j2 j1).2
    ⟨h.name, hT1, hT2, hfok, hcs, hps, ha, hds⟩
  obtain rfl := ((mkDomain_ok hd).1 hdomain).2.2.2.2.2.2.2.2
  exact DomainParse.run (σ' := { σ5 with types := none }) ⟨s.name, t0, k0, s.reqs, t1, k1, rs, _, hreqs, s.types, t2, k2,
    D.types, _, htypes, s.constants, t3, k3, _, _, hconsts, s.predicates, t4, k4, ps, _, hpreds, s.functions, s.structures, k5,
    funs, hfuns, as, ds, σ5, hstruct, hdomain, rfl⟩

theorem inForce_mono {rs rs' : List Req} (h : ∀ r ∈ rs, r ∈ rs') {r : Req} : InForce rs r → InForce rs' r := by
  unfold InForce
  rintro (h1 | ⟨h1, h2⟩ | ⟨h1, h2⟩ | ⟨h1, h2⟩)
  · exact .inl (h _ h1)
  · exact .inr (.inl ⟨h _ h1, h2⟩)
  · exact .inr (.inr (.inl ⟨h _ h1, h2⟩))
  · exact .inr (.inr (.inr ⟨h _ h1, h2⟩))

theorem declared_mono {T T' : TypeDict} (h : ∀ p ∈ T, p ∈ T') {t : Str} : Declared T t → Declared T' t :=
  fun ⟨p, hp, e⟩ => ⟨p, h p hp, e⟩

theorem typeOk_mono {D D' : Decls} (hr : ∀ r ∈ D.reqs, r ∈ D'.reqs) (ht : ∀ p ∈ D.types, p ∈ D'.types) {t : Str} (h : D.typeOk t) :
    D'.typeOk t := ⟨declared_mono ht h.1, h.2.imp (hr _) (hr _)⟩

theorem ATyped.mono {D D' : Decls} (hr : ∀ r ∈ D.reqs, r ∈ D'.reqs) (ht : ∀ p ∈ D.types, p ∈ D'.types) {a : Action}
    (h : ATyped D a) : ATyped D' a := by
  obtain ⟨⟨p, hp, hp'⟩, ⟨e, he, he'⟩, hs⟩ := h
  exact ⟨⟨p, hp, fun v hv x hx => typeOk_mono hr ht (hp' v hv x hx)⟩, ⟨e, he, fun v hv x hx => typeOk_mono hr ht (he' v hv x hx)⟩,
    fun t htm x hx => typeOk_mono hr ht (hs t htm x hx)⟩

theorem After.le {D D' : Decls} {rs rs' x x' : List Req} {o o' : Option TypeDict} {r r' : Option (List Tree)} {ps ps' : List Pred}
    (h : After D rs x o r ps) (h' : After D' rs' x' o' r' ps') (hr : ∀ r ∈ D.reqs, r ∈ D'.reqs) (ht : ∀ p ∈ D.types, p ∈ D'.types)
    (hc : ∀ p ∈ D.consts, p ∈ D'.consts)
    (hf : (r'.getD []).filter (fun t => decide (declName t ∈ (r.getD []).map declName)) = r.getD []) :
    PState.Le ⟨x, constDict D.consts, predDict ps, [], o⟩ ⟨x', constDict D'.consts, predDict ps', [], o'⟩ where
  ext := fun r hx => (h'.ext r).2 (inForce_mono hr ((h.ext r).1 hx))
  const := by
    intro n t hn
    obtain ⟨tag, e, hm⟩ := (constDict_get h.nodup n t).1 hn
    exact (constDict_get h'.nodup n t).2 ⟨tag, e, hc _ hm⟩
  pred := fun n p hp => predDict_filter (readPreds_filter h.read h'.read hf) hp
  params := rfl
  types := by
    intro d t p hd hj
    have hd : o = some d := hd
    rcases h.kept with ⟨e, _⟩ | e
    · rw [e] at hd; cases hd
    · rw [e] at hd
      injection hd with hd
      subst hd
      rw [join_eq_some] at hj
      have hm := ht _ (mem_of_dictGet (d := D.types) hj)
      rcases h'.kept with ⟨_, e'⟩ | e'
      · rw [e'] at hm; cases hm
      · refine ⟨D'.types, e', ?_⟩
        rw [join_eq_some]
        exact dictGet_of_mem h'.dict hm

/-- The state after the structures still fits the declarations. -/
theorem structures_state {F : FloatOf} {D : Decls} {ts : List Tree} {ps : List (Str × List Str)} {σ σ' : PState} {as : List Action}
    {ds : List Derived} (h : StateIn D ps σ) (hw : WordsOk (.node ts)) (hs : structures F σ ts = .ok (as, ds, σ')) :
    ∃ ps', StateIn D ps' σ' := by
  induction ts generalizing ps σ as ds with
  | nil =>
    simp only [structures, pure_ok, Except.ok.injEq, Prod.mk.injEq] at hs
    obtain ⟨_, _, rfl⟩ := hs
    exact ⟨ps, h⟩
  | cons t ts ih =>
    have hwt : WordsOk t := hw.sub (by simp)
    unfold structures at hs
    split at hs
    · simp at *
    · rename_i k body ts' heq
      injection heq with h1 h2
      subst h2
      subst h1
      split at hs
      · rename_i hk
        subst hk
        obtain ⟨⟨a, σ1⟩, ha, hs⟩ := bind_ok_iff.1 hs
        obtain ⟨⟨as', ds', σ2⟩, hs', hs⟩ := bind_ok_iff.1 hs
        simp only [pure_ok, Except.ok.injEq, Prod.mk.injEq] at hs
        obtain ⟨rfl, rfl, rfl⟩ := hs
        obtain ⟨hf, l, n, vs, pre, eff, e, hst, hin⟩ := h.action_in hwt ha
        exact ih hst hw.tail hs'
      · split at hs
        · obtain ⟨d, hd, hs⟩ := bind_ok_iff.1 hs
          obtain ⟨⟨as', ds', σ2⟩, hs', hs⟩ := bind_ok_iff.1 hs
          simp only [pure_ok, Except.ok.injEq, Prod.mk.injEq] at hs
          obtain ⟨rfl, rfl, rfl⟩ := hs
          exact ih h hw.tail hs'
        · cases hs
    · cases hs

/-- Actions have the names written. -/
theorem structures_names {F : FloatOf} {ts : List Tree} {σ σ' : PState} {as : List Action} {ds : List Derived}
    (hs : structures F σ ts = .ok (as, ds, σ')) : ∀ a ∈ as, ∃ t ∈ ts, actionName t = some a.name := by
  induction ts generalizing σ as ds with
  | nil =>
    simp only [structures, pure_ok, Except.ok.injEq, Prod.mk.injEq] at hs
    obtain ⟨rfl, _, rfl⟩ := hs
    simp
  | cons t ts ih =>
    unfold structures at hs
    split at hs
    · simp at *
    · rename_i k body ts' heq
      injection heq with h1 h2
      subst h2
      subst h1
      split at hs
      · rename_i hk
        subst hk
        obtain ⟨⟨a, σ1⟩, ha, hs⟩ := bind_ok_iff.1 hs
        obtain ⟨⟨as', ds', σ2⟩, hs', hs⟩ := bind_ok_iff.1 hs
        simp only [pure_ok, Except.ok.injEq, Prod.mk.injEq] at hs
        obtain ⟨rfl, rfl, rfl⟩ := hs
        intro y hy
        rcases List.mem_cons.1 hy with rfl | hy
        · obtain ⟨n, vs, t, t', params, p, e, rfl, h1, rfl, h2, h3, h4⟩ := actionDef_ok ha
          obtain ⟨_, rfl⟩ := mkAction_ok.1 h4
          exact ⟨_, List.mem_cons_self, rfl⟩
        · obtain ⟨t, ht, e⟩ := ih hs' y hy
          exact ⟨t, List.mem_cons_of_mem _ ht, e⟩
      · split at hs
        · obtain ⟨d, hd, hs⟩ := bind_ok_iff.1 hs
          obtain ⟨⟨as', ds', σ2⟩, hs', hs⟩ := bind_ok_iff.1 hs
          simp only [pure_ok, Except.ok.injEq, Prod.mk.injEq] at hs
          obtain ⟨rfl, rfl, rfl⟩ := hs
          intro y hy
          obtain ⟨t, ht, e⟩ := ih hs' y hy
          exact ⟨t, List.mem_cons_of_mem _ ht, e⟩
        · cases hs
    · cases hs

theorem constants_self {D : Decls} (h : (D.consts.map Prod.fst).Nodup) :
    dedupBy Term.pyEq ((constDict D.consts).map Prod.snd) = (constDict D.consts).map Prod.snd := by
  apply dedupBy_eq_self
  have h' : D.consts.Pairwise (fun p q => p.1 ≠ q.1) := List.pairwise_map.1 h
  rw [constDict, List.map_map, List.pairwise_map]
  refine h'.imp fun {p q} hpq => ?_
  simp only [Function.comp, Term.pyEq, decide_eq_false_iff_not]
  exact fun e => hpq e.symm

/-- The text with more declarations is accepted, and the domain contains the other one. -/
theorem declares_more {F : FloatOf} {ts ts' : List Tree} {s s' : DomainSections} {D D' : Decls} {more : List Tree}
    (hw : WordsOk (.node ts)) (hw' : WordsOk (.node ts')) (hs : s.Of (.node ts)) (hs' : s'.Of (.node ts'))
    (h : SectionsIn F s D) (h' : DeclarationsIn F s' D') (H : DeclaresMore s s' D D' more)
    (hm : ∀ ps, StructuresIn F D' ps more)
    (hn : ∀ t ∈ more, ∀ u ∈ s.structures, ∀ n, actionName t = some n → actionName u ≠ some n) :
    ∃ d d' σ σ', domainDef F PState.fresh ts = .ok (d, σ) ∧ domainDef F PState.fresh ts' = .ok (d', σ') ∧ Contains d' d := by
  obtain ⟨rs, x, o, ps, funs, A, run⟩ := declarations_run hw hs (structuresIn_only h.structures)
    ⟨h.name, h.reqs, h.types, h.constants, h.predicates, h.functions, .nil⟩
  obtain ⟨as, ds, σ5, hstruct, ha, hds⟩ := in_structures A.state (sections_words hs hw).2.2.2.2 h.structures
  have hrun := run as ds σ5 hstruct ha hds
  have ho' : OnlyStructures s' := by
    intro t ht
    rw [H.structures] at ht
    rcases List.mem_append.1 ht with ht | ht
    · exact structuresIn_only h.structures t ht
    · exact structuresIn_only (hm []) t ht
  obtain ⟨rs', x', o', ps', funs', A', run'⟩ := declarations_run hw' hs' ho' h'
  have L := A.le A' H.reqs H.types H.consts H.predicates
  obtain ⟨τ5, hstruct', _⟩ := structures_le L hstruct
  have w6 := (sections_words hs' hw').2.2.2.2
  rw [H.structures] at w6
  have w7 : WordsOk (.node s.structures) := fun w hi => by
    cases hi with
    | node hmem hi => exact w6 w (.node (List.mem_append_left _ hmem) hi)
  have w8 : WordsOk (.node more) := fun w hi => by
    cases hi with
    | node hmem hi => exact w6 w (.node (List.mem_append_right _ hmem) hi)
  obtain ⟨qs, hst⟩ := structures_state A'.state w7 hstruct'
  obtain ⟨as', ds', τ6, hstruct2, ha2, hds2⟩ := in_structures hst w8 (hm qs)
  have hall := structures_append hstruct' hstruct2
  rw [← H.structures] at hall
  have hrun' := run' _ _ _ hall
    (fun a h => by
      rcases List.mem_append.1 h with h | h
      · exact (ha a h).mono H.reqs H.types
      · exact ha2 a h)
    (fun d h t ht x hx => by
      rcases List.mem_append.1 h with h | h
      · exact declared_mono H.types (hds d h t ht x hx)
      · exact hds2 d h t ht x hx)
  refine ⟨_, _, _, _, hrun, hrun', H.name, ?_, ?_, ?_, ?_, ?_, ?_⟩
  · intro r hr
    rw [domainOf] at hr ⊢
    simp only [mem_reqSet] at hr ⊢
    exact (A'.reqs r).2 (H.reqs r ((A.reqs r).1 hr))
  · intro p hp
    obtain ⟨q, hq, rfl⟩ := List.mem_map.1 hp
    exact List.mem_map.2 ⟨q, H.types q hq, rfl⟩
  · show ∀ c ∈ dedupBy Term.pyEq ((constDict D.consts).map Prod.snd), c ∈ dedupBy Term.pyEq ((constDict D'.consts).map Prod.snd)
    rw [constants_self A.nodup, constants_self A'.nodup]
    intro c hc
    simp only [constDict, List.map_map, List.mem_map] at hc ⊢
    obtain ⟨p, hp, rfl⟩ := hc
    exact ⟨p, H.consts p hp, rfl⟩
  · show (dedupBy Pred.pyEq ps').filter (fun p => decide (p.name ∈ (dedupBy Pred.pyEq ps).map Pred.name)) = dedupBy Pred.pyEq ps
    have hmem : ∀ n, n ∈ (dedupBy Pred.pyEq ps).map Pred.name ↔ n ∈ ps.map Pred.name := by
      intro n
      simp only [List.mem_map]
      constructor
      · rintro ⟨p, hp, e⟩; exact ⟨p, dedupBy_subset hp, e⟩
      · rintro ⟨p, hp, e⟩
        obtain ⟨q, hq, hpq⟩ := memBy_iff.1 (dedupBy_cover (eq := Pred.pyEq) (fun a => Pred.pyEq_iff.2 rfl) hp)
        have := congrArg Prod.fst (Pred.pyEq_iff.1 hpq)
        exact ⟨q, hq, (show q.name = p.name from this.symm).trans e⟩
    simp only [hmem]
    rw [dedupBy_filter, readPreds_filter A.read A'.read H.predicates]
    intro p q hpq
    have : p.name = q.name := congrArg Prod.fst (Pred.pyEq_iff.1 hpq)
    rw [this]
  · obtain ⟨r, _, e⟩ := dedupBy_append (eq := Derived.pyEq) ds ds'
    exact ⟨r, e⟩
  · obtain ⟨r, hr, e⟩ := dedupBy_append (eq := Action.pyEq) as as'
    show (dedupBy Action.pyEq (as ++ as')).filter (fun a => decide (a.name ∈ (dedupBy Action.pyEq as).map Action.name)) = dedupBy Action.pyEq as
    rw [e, List.filter_append, List.filter_eq_self.2, List.filter_eq_nil_iff.2, List.append_nil]
    · intro a har
      simp only [decide_eq_true_eq, List.mem_map, not_exists, not_and]
      intro b hb hab
      obtain ⟨t, ht, e1⟩ := structures_names hstruct2 a (hr a har)
      obtain ⟨u, hu, e2⟩ := structures_names hstruct b (dedupBy_subset hb)
      exact hn t ht u hu _ e1 (by rw [e2, hab])
    · intro a ha
      simp only [decide_eq_true_eq, List.mem_map]
      exact ⟨a, ha, rfl⟩

end Pddl.Rules
