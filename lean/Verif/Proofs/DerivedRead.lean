/-
The texts of derived predicates, and what the parser makes of them.
-/
import Verif.Proofs.ActionRead
import Verif.Props.Tags

namespace Pddl
open Spec

/-! ### Retagging and text -/

theorem retagTerm_trees (S : List (List Var)) (env : VarTypes) (t : Term) : (retagTerm S env t).trees = t.trees ∧
    (retagTerm S env t).str = t.str ∧ (retagTerm S env t).name = t.name := by
  cases t <;> exact ⟨rfl, rfl, rfl⟩

theorem retagged_text (env : VarTypes) (e : Expr) : ∀ S, (retagged S env e).str = e.str := by
  have ht : ∀ S (ts : List Term), (ts.map (retagTerm S env)).map Term.str = ts.map Term.str := by
    intro S ts
    rw [List.map_map]
    exact List.map_congr_left (fun t _ => (retagTerm_trees S env t).2.1)
  have hl : ∀ (as : List Expr), (∀ a ∈ as, ∀ S, (retagged S env a).str = a.str) →
      ∀ S, Expr.strs (retaggeds S env as) = Expr.strs as := by
    intro as h S
    induction as with
    | nil => rfl
    | cons a as ih =>
      simp only [retaggeds, Expr.strs, h a (by simp) S, ih (fun x hx => h x (by simp [hx]))]
  induction e using Expr.ind with
  | hpred p => intro S; simp only [retagged, Expr.str, Pred.str, atomStr, ht, List.length_map]
  | heq l r => intro S; simp only [retagged, Expr.str, (retagTerm_trees S env _).2.1]
  | hnfun f => intro S; simp only [retagged, Expr.str, NFun.str, atomStr, ht, List.length_map]
  | hnum n => intro S; rfl
  | hbfun o as ih => intro S; simp only [retagged, Expr.str, hl as ih S]
  | hbin o as ih => intro S; simp only [retagged, Expr.str, hl as ih S]
  | hnot a ih => intro S; simp only [retagged, Expr.str, ih S]
  | hquant q vs c ih => intro S; simp only [retagged, Expr.str, ih]
  | hwhen c e ih1 ih2 => intro S; simp only [retagged, Expr.str, ih1 S, ih2 S]
  | hfall vs e ih => intro S; simp only [retagged, Expr.str, ih S]

/-! ### Retagging with the types in another order -/

/-- The same names with the same types. -/
def SameEnv (env env' : VarTypes) : Prop :=
  ∀ n, (env.lookup n = none ∧ env'.lookup n = none) ∨
    ∃ l l', env.lookup n = some l ∧ env'.lookup n = some l' ∧ SameTypes l l'

theorem SameEnv.scope {env env' : VarTypes} (h : SameEnv env env') (S : List (List Var)) (n : Str) :
    (scopeTypes S env n = none ∧ scopeTypes S env' n = none) ∨
    ∃ l l', scopeTypes S env n = some l ∧ scopeTypes S env' n = some l' ∧ SameTypes l l' := by
  induction S with
  | nil => exact h n
  | cons vs S ih =>
    simp only [scopeTypes]
    cases vs.reverse.find? (fun v => decide (v.name = n)) with
    | some v => exact .inr ⟨_, _, rfl, rfl, fun _ => Iff.rfl⟩
    | none => exact ih

theorem sameTypes_norm {n : Str} {l l' : List Str} (h : SameTypes l l') :
    (Term.var ⟨n, l⟩).norm = (Term.var ⟨n, l'⟩).norm := by
  simp only [Term.norm, Var.norm]
  congr 2
  ext y
  simpa using h y

theorem SameEnv.term {env env' : VarTypes} (h : SameEnv env env') (S : List (List Var)) (t : Term) :
    SameTerm (retagTerm S env t) (retagTerm S env' t) := by
  cases t with
  | const n x => exact ⟨rfl, fun _ => Iff.rfl, rfl⟩
  | var v =>
    have hs : SameTypes ((scopeTypes S env v.name).getD v.tags) ((scopeTypes S env' v.name).getD v.tags) := by
      rcases h.scope S v.name with ⟨h1, h2⟩ | ⟨l, l', h1, h2, h3⟩
      · rw [h1, h2]; exact fun _ => Iff.rfl
      · rw [h1, h2]; exact h3
    exact ⟨rfl, hs, sameTypes_norm hs⟩

theorem SameEnv.terms {env env' : VarTypes} (h : SameEnv env env') (S : List (List Var)) (ts : List Term) :
    List.Forall₂ SameTerm (ts.map (retagTerm S env)) (ts.map (retagTerm S env')) := by
  induction ts with
  | nil => exact .nil
  | cons t ts ih => exact .cons (h.term S t) ih

theorem SameEnv.norm {env env' : VarTypes} (h : SameEnv env env') (e : Expr) :
    ∀ S, (retagged S env e).norm = (retagged S env' e).norm := by
  have hl : ∀ (as : List Expr), (∀ a ∈ as, ∀ S, (retagged S env a).norm = (retagged S env' a).norm) →
      ∀ S, Expr.norms (retaggeds S env as) = Expr.norms (retaggeds S env' as) := by
    intro as h S
    induction as with
    | nil => rfl
    | cons a as ih =>
      simp only [retaggeds, Expr.norms, h a (by simp) S, ih (fun x hx => h x (by simp [hx]))]
  induction e using Expr.ind with
  | hpred p => intro S; simp only [retagged, Expr.norm, sameTerm_norms (h.terms S _)]
  | heq l r => intro S; simp only [retagged, Expr.norm, (h.term S _).2.2]
  | hnfun f => intro S; simp only [retagged, Expr.norm, sameTerm_norms (h.terms S _)]
  | hnum n => intro S; rfl
  | hbfun o as ih => intro S; simp only [retagged, Expr.norm, hl as ih S]
  | hbin o as ih => intro S; simp only [retagged, Expr.norm, hl as ih S]
  | hnot a ih => intro S; simp only [retagged, Expr.norm, ih S]
  | hquant q vs c ih => intro S; simp only [retagged, Expr.norm, ih]
  | hwhen c e ih1 ih2 => intro S; simp only [retagged, Expr.norm, ih1 S, ih2 S]
  | hfall vs e ih => intro S; simp only [retagged, Expr.norm, ih S]

theorem sameTerm_consistent' {ts' ts : List Term} (h : List.Forall₂ SameTerm ts' ts) (hc : Consistent ts) :
    Consistent ts' := consistent_iff.1 (sameTerm_consistent h (consistent_iff.2 hc))

theorem SameEnv.consistent {env env' : VarTypes} (h : SameEnv env env') (e : Expr) :
    ∀ S, AtomsConsistent (retagged S env' e) → AtomsConsistent (retagged S env e) := by
  have hl : ∀ (as : List Expr), (∀ a ∈ as, ∀ S, AtomsConsistent (retagged S env' a) → AtomsConsistent (retagged S env a)) →
      ∀ S, AtomsConsistents (retaggeds S env' as) → AtomsConsistents (retaggeds S env as) := by
    intro as h S
    induction as with
    | nil => exact id
    | cons a as ih =>
      simp only [retaggeds, AtomsConsistents]
      rintro ⟨h1, h2⟩
      exact ⟨h a (by simp) S h1, ih (fun x hx => h x (by simp [hx])) h2⟩
  induction e using Expr.ind with
  | hpred p => intro S hc; exact sameTerm_consistent' (h.terms S p.terms) hc
  | heq l r => intro S hc; exact sameTerm_consistent' (h.terms S [l, r]) hc
  | hnfun f => intro S _; trivial
  | hnum n => intro S _; trivial
  | hbfun o as ih => intro S; simp only [retagged, AtomsConsistent]; exact hl as ih S
  | hbin o as ih => intro S; simp only [retagged, AtomsConsistent]; exact hl as ih S
  | hnot a ih => intro S; simp only [retagged, AtomsConsistent]; exact ih S
  | hquant q vs c ih => intro S; simp only [retagged, AtomsConsistent]; exact ih _
  | hwhen c e ih1 ih2 => intro S; simp only [retagged, AtomsConsistent]; exact fun ⟨a, b⟩ => ⟨ih1 S a, ih2 S b⟩
  | hfall vs e ih => intro S; simp only [retagged, AtomsConsistent]; exact ih S

theorem good_atoms {e : Expr} : e.Good → AtomsConsistent e := by
  have hl : ∀ as : List Expr, (∀ a ∈ as, a.Good → AtomsConsistent a) → Expr.Goods as → AtomsConsistents as := by
    intro as h hg
    exact atomsConsistents_iff.2 (fun a ha => h a ha (goods_iff.1 hg a ha))
  induction e using Expr.ind with
  | hpred p => exact fun h => consistent_iff.1 h.2
  | heq l r => exact fun h => consistent_iff.1 h
  | hnfun f => exact fun _ => trivial
  | hnum n => exact fun _ => trivial
  | hbfun o as ih => exact fun h => hl as ih h.2
  | hbin o as ih => exact fun h => hl as ih h.2
  | hnot a ih => exact ih
  | hquant q vs c ih => exact fun h => ih h.2
  | hwhen c e ih1 ih2 => exact fun h => ⟨ih1 h.1, ih2 h.2⟩
  | hfall vs e ih => exact fun h => ih h.2

/-! ### Conditions read without parameters -/

variable {E : GEnv}

theorem known_untyped (hE : E.params = []) {t : Term} (h : Known E t) : ∀ v ∈ varOf t, v.tags = [] ∧ ValidName v.name := by
  cases t with
  | const n x => simp [varOf]
  | var v =>
    intro w hw
    simp only [varOf, List.mem_singleton] at hw
    subst hw
    obtain ⟨h1, ⟨_, h2, _⟩ | ⟨_, h2⟩⟩ := h
    · rw [hE] at h2; simp [dictGet] at h2
    · exact ⟨h2, h1⟩

theorem known_tags (hE : E.params = []) {t : Term} (h : Known E t) : t.tags.Nodup := by
  cases t with
  | const n x => cases x <;> simp [Term.tags]
  | var v =>
    have := (known_untyped hE h v (by simp [varOf])).1
    simp [Term.tags, this]

/-- What is used of a condition read without parameters. -/
structure Bare (e : Expr) : Prop where
  noEffect : NoEffect e
  occ : ∀ v ∈ occurrences e, v.tags = [] ∧ ValidName v.name
  bound : ∀ v ∈ binders e, TagsOk v.tags
  sets : TagSets e

theorem bare_terms {a : Str} {ts : List Term} {e : Expr} (hE : E.params = []) (h : ∀ t ∈ ts, Known E t) (hn : NoEffect e)
    (ha : atoms e = [(a, ts)]) (hb : binders e = []) (ht : terms e = ts) : Bare e := by
  refine ⟨hn, ?_, by simp [hb], ?_⟩
  · intro v hv
    simp only [occurrences, ha, List.flatMap_cons, List.flatMap_nil, List.append_nil, List.mem_flatMap] at hv
    obtain ⟨t, ht, hv⟩ := hv
    exact known_untyped hE (h t ht) v hv
  · intro t ht'
    rw [ht] at ht'
    exact known_tags hE (h t ht')

theorem bare_list {as : List Expr} (h : ∀ a ∈ as, Bare a) :
    NoEffects as ∧ (∀ v ∈ (atomsAll as).flatMap (fun a => a.2.flatMap varOf), v.tags = [] ∧ ValidName v.name) ∧
    (∀ v ∈ bindersAll as, TagsOk v.tags) ∧ (∀ t ∈ termsAll as, t.tags.Nodup) := by
  refine ⟨noEffects_iff.2 (fun a ha => (h a ha).noEffect), ?_, ?_, ?_⟩
  · intro v hv
    obtain ⟨x, hx, hv⟩ := List.mem_flatMap.1 hv
    obtain ⟨a, ha, hx⟩ := mem_atomsAll.1 hx
    exact (h a ha).occ v (List.mem_flatMap.2 ⟨x, hx, hv⟩)
  · intro v hv
    obtain ⟨a, ha, hv⟩ := mem_bindersAll.1 hv
    exact (h a ha).bound v hv
  · intro t ht
    obtain ⟨a, ha, ht⟩ := mem_termsAll.1 ht
    exact (h a ha).sets t ht

theorem bare_bfun {o : FOp} {as : List Expr} (h : ∀ a ∈ as, Bare a) : Bare (.bfun o as) :=
  let ⟨h1, h2, h3, h4⟩ := bare_list h
  ⟨h1, h2, h3, h4⟩

theorem bare_bin {o : BOp} {as : List Expr} (h : ∀ a ∈ as, Bare a) : Bare (.bin o as) :=
  let ⟨h1, h2, h3, h4⟩ := bare_list h
  ⟨h1, h2, h3, h4⟩

theorem printNum_bare (hE : E.params = []) {e : Expr} (h : PrintNum E e) : Bare e := by
  induction h with
  | num _ => exact ⟨trivial, by simp [occurrences, atoms], by simp [binders], by simp [TagSets, terms]⟩
  | fn h => exact bare_terms hE h trivial rfl rfl rfl
  | plus _ _ ih => exact bare_bfun ih
  | times _ _ ih => exact bare_bfun ih
  | divide _ _ ih1 ih2 => exact bare_bfun (by simp [ih1, ih2])
  | minus _ ih => exact bare_bfun (by simp [ih])

theorem printVars_tags {vs : List Var} (h : PrintVars vs) : ∀ v ∈ vs, TagsOk v.tags := by
  intro v hv
  rcases h.types v hv with e | ⟨t, e, ht⟩
  · rw [e]; exact ⟨by simp, by simp⟩
  · rw [e]; exact ⟨by simp, by simpa using ht⟩

theorem printCond_bare (hE : E.params = []) {e : Expr} (h : PrintCond E e) : Bare e := by
  induction h with
  | pred h => exact bare_terms hE h trivial rfl rfl rfl
  | @eq l r h1 h2 _ => exact bare_terms (ts := [l, r]) hE (by simp [h1, h2]) trivial rfl rfl rfl
  | and _ ih => exact bare_bin ih
  | or _ _ ih => exact bare_bin ih
  | imply _ _ _ ih1 ih2 => exact bare_bin (by simp [ih1, ih2])
  | not _ ih => exact ⟨ih.noEffect, ih.occ, ih.bound, ih.sets⟩
  | quant _ hv _ _ ih =>
    refine ⟨ih.noEffect, ih.occ, ?_, ?_⟩
    · intro v h'
      simp only [binders, List.mem_append] at h'
      rcases h' with h' | h'
      · exact printVars_tags hv v h'
      · exact ih.bound v h'
    · intro t ht
      simp only [terms, List.mem_append, List.mem_map] at ht
      rcases ht with ⟨v, h', rfl⟩ | ht
      · exact (printVars_tags hv v h').1
      · exact ih.sets t ht
  | comp _ h1 h2 => exact bare_bfun (by simp [printNum_bare hE h1, printNum_bare hE h2])

/-! ### The head -/

theorem sameTypes_nil {l l' : List Str} (h : SameTypes l l') : l = [] ↔ l' = [] := by
  constructor
  · rintro rfl
    cases l' with
    | nil => rfl
    | cons a l => exact absurd ((h a).2 (by simp)) (by simp)
  · rintro rfl
    cases l with
    | nil => rfl
    | cons a l => exact absurd ((h a).1 (by simp)) (by simp)

/-- The heads fit: the loop over the head succeeds, and nothing is taken from the declaration. -/
theorem headFits_env {types : Option TypeDict} {vs : List Var} {ds : List Term}
    (h : List.Forall₂ (fun v (d : Term) => (v.tags = [] → d.tags = []) ∧ checkSubtypes types v.tags d.tags = .ok ()) vs ds)
    (env : VarTypes) :
    (∃ env', derivedEnv types ((vs.map Term.var).zip ds) env = .ok env') ∧
      headTypes ((vs.map Term.var).zip ds) = writtenTypes (vs.map Term.var) := by
  induction h generalizing env with
  | nil => exact ⟨⟨env, rfl⟩, rfl⟩
  | @cons v d vs ds h1 _ ih =>
    obtain ⟨h1, h2⟩ := h1
    by_cases hv : v.tags = []
    · have hd := h1 hv
      constructor
      · simp only [List.map_cons, List.zip_cons_cons, derivedEnv, hv, hd, List.length_nil, if_true, ne_eq, not_true, if_false]
        exact (ih env).1
      · simp only [List.map_cons, List.zip_cons_cons, headTypes, hv, hd, ne_eq, not_true, if_false, (ih env).2]
        simp [writtenTypes, Term.tags, hv]
    · have hl : ¬ v.tags.length = 0 := by simpa using hv
      constructor
      · simp only [List.map_cons, List.zip_cons_cons, derivedEnv, hl, if_false, h2, ok_bind]
        exact (ih _).1
      · simp only [List.map_cons, List.zip_cons_cons, headTypes, ne_eq, hv, not_false_eq_true, if_true, (ih env).2]
        simp [writtenTypes, Term.tags, Term.name, hv]

theorem lookup_written {vs : List Var} (hd : (vs.map Var.name).Nodup) {v : Var} (hv : v ∈ vs) :
    (writtenTypes (vs.map Term.var)).lookup v.name = if v.tags = [] then none else some v.tags := by
  induction vs with
  | nil => simp at hv
  | cons w vs ih =>
    simp only [List.map_cons, List.nodup_cons] at hd
    rcases List.mem_cons.1 hv with rfl | hv'
    · by_cases e : v.tags = []
      · rw [if_pos e]
        have : writtenTypes ((v :: vs).map Term.var) = writtenTypes (vs.map Term.var) := by
          simp [writtenTypes, Term.tags, e]
        rw [this, List.lookup_eq_none_iff]
        intro p hp
        simp only [writtenTypes, List.mem_filterMap, List.mem_map] at hp
        obtain ⟨_, ⟨u, hu, rfl⟩, hp⟩ := hp
        split at hp
        · simp at hp
        · simp only [Option.some.injEq] at hp
          subst hp
          have : u.name ∈ vs.map Var.name := List.mem_map.2 ⟨u, hu, rfl⟩
          simp only [Term.name, bne_iff_ne, ne_eq]
          intro e'
          exact hd.1 (e' ▸ this)
      · rw [if_neg e]
        simp [writtenTypes, Term.tags, Term.name, e]
    · have hne : v.name ≠ w.name := by
        intro e'
        exact hd.1 (e' ▸ List.mem_map.2 ⟨v, hv', rfl⟩)
      by_cases e : w.tags = []
      · have : writtenTypes ((w :: vs).map Term.var) = writtenTypes (vs.map Term.var) := by
          simp [writtenTypes, Term.tags, e]
        rw [this]; exact ih hd.2 hv'
      · have : writtenTypes ((w :: vs).map Term.var) = (w.name, w.tags) :: writtenTypes (vs.map Term.var) := by
          simp [writtenTypes, Term.tags, Term.name, e]
        rw [this, List.lookup_cons]
        have hb : (v.name == w.name) = false := by simpa using hne
        rw [hb]
        exact ih hd.2 hv'

theorem lookup_written_none {vs : List Var} {n : Str} (hn : n ∉ vs.map Var.name) :
    (writtenTypes (vs.map Term.var)).lookup n = none := by
  rw [List.lookup_eq_none_iff]
  intro p hp
  simp only [writtenTypes, List.mem_filterMap, List.mem_map] at hp
  obtain ⟨_, ⟨u, hu, rfl⟩, hp⟩ := hp
  split at hp
  · simp at hp
  · simp only [Option.some.injEq] at hp
    subst hp
    simp only [Term.name, bne_iff_ne, ne_eq]
    intro e'
    exact hn (e' ▸ List.mem_map.2 ⟨u, hu, rfl⟩)

theorem readVars_names (vs : List Var) : (vs.map readVar).map Var.name = vs.map Var.name := by
  rw [List.map_map]; rfl

theorem readVar_types (v : Var) : SameTypes (readVar v).tags v.tags := fun t => by
  simp only [readVar, dd_mem, mem_sortedStr]

theorem written_same {vs : List Var} (hd : (vs.map Var.name).Nodup) :
    SameEnv (writtenTypes ((vs.map readVar).map Term.var)) (writtenTypes (vs.map Term.var)) := by
  intro n
  by_cases hn : n ∈ vs.map Var.name
  · obtain ⟨v, hv, rfl⟩ := List.mem_map.1 hn
    have h1 := lookup_written hd hv
    have h2 := lookup_written (vs := vs.map readVar) (by rw [readVars_names]; exact hd) (v := readVar v)
      (List.mem_map.2 ⟨v, hv, rfl⟩)
    have hs := readVar_types v
    by_cases e : v.tags = []
    · left
      rw [if_pos ((sameTypes_nil hs).2 e)] at h2
      rw [if_pos e] at h1
      exact ⟨h2, h1⟩
    · right
      rw [if_neg (fun e' => e ((sameTypes_nil hs).1 e'))] at h2
      rw [if_neg e] at h1
      exact ⟨_, _, h2, h1, hs⟩
  · exact .inl ⟨lookup_written_none (by rw [readVars_names]; exact hn), lookup_written_none hn⟩

theorem written_retag {vs : List Var} (hd : (vs.map Var.name).Nodup) :
    (vs.map Term.var).map (retagTerm [] (writtenTypes (vs.map Term.var))) = vs.map Term.var := by
  rw [List.map_map]
  apply List.map_congr_left
  intro v hv
  simp only [Function.comp_apply, retagTerm, scopeTypes, lookup_written hd hv]
  split <;> rfl

theorem written_ok {vs : List Var} (h : ∀ v ∈ vs, TagsOk v.tags) : EnvOk (writtenTypes (vs.map Term.var)) := by
  intro p hp
  simp only [writtenTypes, List.mem_filterMap, List.mem_map] at hp
  obtain ⟨_, ⟨v, hv, rfl⟩, hp⟩ := hp
  split at hp
  · simp at hp
  · simp only [Option.some.injEq] at hp
    subst hp; exact h v hv

/-! ### Derived predicates -/

/-- The tree of a derived predicate. -/
def derivedTree (x : Derived) (c : Expr) : Tree :=
  .node [.atom (.kw s%"derived"), predTree x.pred.name (declOf x.pred), c.tree]

theorem Prints.derived {x : Derived} {c : Expr} (hn : NameShape x.pred.name) (h : PrintPredicate x.pred) (hc : x.cond.str = c.str)
    (w : Writable c) : Prints (derivedStr x) [derivedTree x c] := by
  have hk : Prints s%":derived" [.atom (.kw s%"derived")] := Prints.kw (k := s%"derived") (by decide +kernel) (by decide +kernel)
  have h1 := printPredicates_prints (ps := [x.pred]) (by simpa using ⟨h, hn⟩)
  have e : sortedBy Pred.lt [x.pred] = [x.pred] := rfl
  rw [e] at h1
  have := (Prints.op hk (h1.sep isSpace_blank (Prints.expr w))).newline_end
  unfold derivedStr derivedTree
  rw [hc]
  simpa using this

/-- What is read for a derived predicate. -/
theorem derivedDef_read {F : FloatOf} {d : Domain} {σ : PState} {x : Derived} (hb : BuiltDerived x) (hp : PrintDerived F d x)
    (hpred : ∀ p ∈ d.predicates, PrintPredicate p) (hσ : σ.params = []) (hs : ScopeLe (domainScope F d []) (σ.env F))
    (hq : ∀ n q, dictGet σ.preds n = some q → ∃ p ∈ d.predicates, p.name = n ∧ q = readPred p)
    (hq' : ∀ p ∈ d.predicates, ∃ q, dictGet σ.preds p.name = some q)
    (ht : ∀ l r l' r', HeadFits d.types l r → SameTypes l' l → SameTypes r' r → checkSubtypes σ.types l' r' = .ok ()) :
    ∃ c y, Prints (derivedStr x) [derivedTree x c] ∧
      derivedDef F σ [predTree x.pred.name (declOf x.pred), c.tree] = .ok y ∧ (y.norm = x.norm ∧ y.pred = readPred x.pred) ∧
      ∃ env env', y.cond = retagged [] env c ∧ x.cond = retagged [] env' c := by
  obtain ⟨vs, hv1, hv2, hv3⟩ := hp.head
  obtain ⟨p, hp1, hp2, hp3, hp4⟩ := hp.declared
  obtain ⟨c, hc1, hc2, hc3⟩ := hp.cond
  have hpp : PrintPredicate x.pred := ⟨vs, hv1, hv2⟩
  have hdecl : declOf x.pred = vs := by rw [declOf, hv1, declOf_vars]
  have hc2' : PrintCond (σ.env F) c := hs.cond hc2
  have hE : (σ.env F).params = [] := hσ
  have bare := printCond_bare hE hc2'
  have hg := built_iff_good.1 hc1
  have ho : OneType (σ.env F) := by
    intro n w h
    rw [hE] at h; simp [dictGet] at h
  have hread := gd_of_rel (printCond_exact ho hc2' hg bare.sets)
  obtain ⟨n, ts, hmk⟩ := hb.pred
  obtain ⟨hname, _, hxe⟩ := mkPred_ok.1 hmk
  have hvalid : ValidName x.pred.name := by rw [hxe]; exact (parseName_ok.1 hname).2
  have hskel := skeleton_read hpp hb.pred
  obtain ⟨q, hq1⟩ := hq' p hp1
  rw [hp2] at hq1
  obtain ⟨p', hp1', hp2', rfl⟩ := hq _ _ hq1
  have hpe : p' = p := hp3 p' hp1' hp2'
  subst hpe
  have hheadt : (readPred x.pred).terms = (vs.map readVar).map Term.var := by
    simp only [readPred, hdecl]
  have hlen : (readPred p').terms.length = (readPred x.pred).terms.length := by
    have h1 := (readPred_same (hpred p' hp1)).length_eq
    have h2 := (readPred_same hpp).length_eq
    rw [h1, h2]; exact hp4.length_eq.symm
  have hfit : List.Forall₂ (fun (v : Var) (d : Term) => (v.tags = [] → d.tags = []) ∧ checkSubtypes σ.types v.tags d.tags = .ok ())
      (vs.map readVar) (readPred p').terms := by
    have h1 := readPred_same (hpred p' hp1)
    rw [hv1] at hp4
    generalize (readPred p').terms = rs at h1
    generalize p'.terms = ps at h1 hp4
    clear * - h1 hp4 ht
    induction vs generalizing ps rs with
    | nil =>
      cases hp4
      cases h1
      exact .nil
    | cons v vs ih =>
      cases hp4 with
      | cons ha hr =>
        cases h1 with
        | cons hb hr' =>
          refine .cons ⟨?_, ht _ _ _ _ ha (readVar_types v) hb.2.1⟩ (ih _ _ hr' hr)
          intro e
          have e1 := (sameTypes_nil (readVar_types v)).1 e
          exact (sameTypes_nil hb.2.1).2 (ha.1 e1)
  obtain ⟨⟨env, henv⟩, hht⟩ := headFits_env hfit []
  have hdn : ((vs.map readVar).map Var.name).Nodup := by rw [readVars_names]; exact hv3
  have hzip : (((vs.map readVar).map Term.var).zip (readPred p').terms).map Prod.fst = (vs.map readVar).map Term.var := by
    rw [List.map_fst_zip]
    rw [hlen, hheadt]
  have hlook : ∀ k, dictGet env k = (writtenTypes ((vs.map readVar).map Term.var)).lookup k := by
    intro k
    have := derivedEnv_ok henv (by
      rw [hzip, List.map_map]
      exact hdn) k
    rw [this, hht]
    simp [dictGet]
  have hEnv : EnvOf env [] (writtenTypes ((vs.map readVar).map Term.var)) := hlook
  have hTags : ∀ v ∈ vs.map readVar, TagsOk v.tags := by
    intro v hv
    obtain ⟨w, hw, rfl⟩ := List.mem_map.1 hv
    exact ⟨readVar_nodup w, fun t h => hv2.types w hw t ((readVar_types w t).1 h)⟩
  have hok := scopeOk_base (written_ok hTags)
  have hretag := retags_succeed hEnv hok (ts := (vs.map readVar).map Term.var) (by
    rw [declOf_vars]
    intro v hv
    obtain ⟨w, hw, rfl⟩ := List.mem_map.1 hv
    exact hv2.names w hw)
  rw [written_retag hdn] at hretag
  have hsame := written_same hv3
  have hcons : AtomsConsistent (retagged [] (writtenTypes ((vs.map readVar).map Term.var)) c) := by
    apply hsame.consistent c []
    rw [← hv1, ← hc3]
    exact good_atoms (built_iff_good.1 hb.cond)
  obtain ⟨g, hup⟩ := update_succeeds hEnv hok hg bare.noEffect (fun v hv => (bare.occ v hv).2) bare.bound hcons
  have hge := update_exact (τ := fun _ => []) hEnv hok.nodup hg (fun v hv t => by rw [(bare.occ v hv).1])
    (fun v hv => (bare.bound v hv).1) hup
  have hmkp : mkPred (readPred x.pred).name ((vs.map readVar).map Term.var) = .ok (readPred x.pred) := by
    refine mkPred_ok.2 ⟨?_, ?_, ?_⟩
    · exact parseName_of_valid hvalid
    · rw [← hheadt]
      exact sameTerm_consistent (readPred_same hpp) (by rw [hxe]; exact (mkPred_ok.1 hmk).2.1)
    · rw [← hheadt]
  refine ⟨c, ⟨readPred x.pred, g⟩, Prints.derived hvalid.1 hpp (by rw [hc3]; exact retagged_text _ c []) (printCond_rel hc2' hg).2, ?_, ⟨?_, rfl⟩, _, _, hge, hc3⟩
  · simp only [derivedDef, hskel, ok_bind, hread]
    unfold derivedPredicate
    rw [show (readPred x.pred).name = x.pred.name from rfl, hq1]
    simp only
    rw [if_neg (by simpa using hlen), hheadt, henv, ok_bind, hretag, ok_bind]
    rw [show x.pred.name = (readPred x.pred).name from rfl, hmkp, ok_bind, hup, ok_bind]
    rfl
  · simp only [Derived.norm, readPred_norm hpp, hge]
    rw [hsame.norm c [], hc3, hv1]

end Pddl
