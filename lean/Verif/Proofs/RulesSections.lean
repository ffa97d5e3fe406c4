/-
The sections of a domain obey the rules.
-/
import Verif.Proofs.RulesDerived

namespace Pddl.Rules
open Spec Spec.Rules Spec.Grammar

/-! ### Types and constants -/

theorem pairs_typed {l : NameList} (h : l.Ok) : (l.pairs.any (fun p => p.2.isSome) = true) ↔ l.groups ≠ [] := by
  rw [List.any_eq_true]
  unfold NameList.pairs
  constructor
  · rintro ⟨p, hp, hs⟩ e
    rw [e] at hp
    simp only [List.flatMap_nil, List.nil_append, List.mem_map] at hp
    obtain ⟨_, _, rfl⟩ := hp
    cases hs
  · intro hne
    obtain ⟨g, hg⟩ := List.exists_mem_of_ne_nil _ hne
    obtain ⟨n, hn⟩ := List.exists_mem_of_ne_nil _ (h.nonempty g hg)
    exact ⟨(n, some g.2), List.mem_append_left _ (List.mem_flatMap.2 ⟨g, hg, List.mem_map.2 ⟨n, hn, rfl⟩⟩), rfl⟩

theorem sectionTypes_iff {σ σ' : PState} {b : List Tree} {T : TypeDict} (hw : WordsOk (.node b)) (hσ : σ.types = none) :
    sectionTypes σ b = .ok (T, σ') ↔ ∃ l : NameList, b = l.text ∧ l.Ok ∧ (l.groups ≠ [] → Req.typing ∈ σ.ext) ∧
      T = l.pairs.map objectless ∧ σ' = { σ with types := some T } := by
  have hw' : ∀ w, .atom (.name w) ∈ b → nameRegex w = true := fun w h => hw w (.node h .refl)
  have hf : (fun p : Str × Option Str => if p.2 = some s%"object" then (p.1, none) else p) = objectless := by
    funext p
    unfold objectless
    split <;> rfl
  have hcheck : ∀ {l : NameList}, l.Ok → (check (!(l.pairs.any (fun p => p.2.isSome) && !decide (Req.typing ∈ σ.ext))) Exc.missingReq = .ok () ↔
      (l.groups ≠ [] → Req.typing ∈ σ.ext)) := by
    intro l hl
    rw [check_ok, ← pairs_typed hl]
    cases l.pairs.any (fun p => p.2.isSome) <;> simp
  unfold sectionTypes
  rw [hf, hσ]
  constructor
  · intro h
    obtain ⟨d, h1, h⟩ := bind_ok_iff.1 h
    obtain ⟨l, hl, e, rfl⟩ := (parseTypedNames_iff hw').1 h1
    obtain ⟨_, h2, h⟩ := bind_ok_iff.1 h
    obtain ⟨_, h3, h⟩ := bind_ok_iff.1 h
    simp only [pure_ok, Except.ok.injEq, Prod.mk.injEq] at h
    obtain ⟨rfl, rfl⟩ := h
    exact ⟨l, e, hl, (hcheck hl).1 h2, rfl, rfl⟩
  · rintro ⟨l, e, hl, h1, rfl, rfl⟩
    rw [(parseTypedNames_iff hw').2 ⟨l, hl, e, rfl⟩, ok_bind, (hcheck hl).2 h1]
    rfl

theorem objectless_dict {l : NameList} (h : l.Ok) : IsDict (l.pairs.map objectless) := by
  unfold IsDict
  rw [objectless_fst]
  exact h.nodup

/-- The constants that the parser keeps. -/
def constDict (cs : List (Str × Option Str)) : List (Str × Term) := cs.map (fun p => (p.1, .const p.1 p.2))

theorem constDict_fst (cs : List (Str × Option Str)) : (constDict cs).map Prod.fst = cs.map Prod.fst := by
  unfold constDict; rw [List.map_map]; rfl

theorem sectionConstants_iff {σ σ' : PState} {b : List Tree} {cs : List Term} (hw : WordsOk (.node b)) :
    sectionConstants σ b = .ok (cs, σ') ↔ ∃ l : NameList, b = l.text ∧ l.Ok ∧ cs = (constDict l.pairs).map Prod.snd ∧
      σ' = { σ with consts := constDict l.pairs } := by
  have hw' : ∀ w, .atom (.name w) ∈ b → nameRegex w = true := fun w h => hw w (.node h .refl)
  have hself : ∀ {l : NameList}, l.Ok → dictOf (constDict l.pairs) = constDict l.pairs := fun hl =>
    dictOf_self (by rw [constDict_fst]; exact hl.nodup)
  unfold sectionConstants
  constructor
  · intro h
    obtain ⟨d, h1, h⟩ := bind_ok_iff.1 h
    obtain ⟨l, hl, e, rfl⟩ := (parseTypedNames_iff hw').1 h1
    rw [mkConsts_total hl, ok_bind] at h
    have h' : Except.ok ((dictOf (constDict l.pairs)).map Prod.snd, ({ σ with consts := dictOf (constDict l.pairs) } : PState)) =
        Except.ok (ε := Exc) (cs, σ') := h
    rw [hself hl] at h'
    simp only [Except.ok.injEq, Prod.mk.injEq] at h'
    exact ⟨l, e, hl, h'.1.symm, h'.2.symm⟩
  · rintro ⟨l, e, hl, rfl, rfl⟩
    rw [(parseTypedNames_iff hw').2 ⟨l, hl, e, rfl⟩, ok_bind, mkConsts_total hl, ok_bind]
    exact congrArg (fun x => Except.ok (x.map Prod.snd, ({ σ with consts := x } : PState))) (hself hl)

theorem constDict_get {cs : List (Str × Option Str)} (hd : (cs.map Prod.fst).Nodup) (n : Str) (t : Term) :
    dictGet (constDict cs) n = some t ↔ ∃ tag, t = .const n tag ∧ (n, tag) ∈ cs := by
  constructor
  · intro h
    obtain ⟨p, hp, e⟩ := List.mem_map.1 (mem_of_dictGet h)
    simp only [Prod.mk.injEq] at e
    obtain ⟨rfl, rfl⟩ := e
    exact ⟨p.2, rfl, hp⟩
  · rintro ⟨tag, rfl, hm⟩
    exact dictGet_of_mem (by unfold IsDict; rw [constDict_fst]; exact hd) (List.mem_map.2 ⟨_, hm, rfl⟩)

theorem consts_typed {D : Decls} (hd : (D.consts.map Prod.fst).Nodup) :
    (∀ t ∈ firstOcc Term.pyEq ((constDict D.consts).map Prod.snd), WellTypedTerm (Declared D.types) D.reqs t) ↔
      ∀ p ∈ D.consts, ∀ t, p.2 = some t → D.typeOk t := by
  rw [forall_firstOcc eqv_term]
  · simp only [constDict, List.map_map, List.forall_mem_map, Function.comp_apply, wellTyped_iff]
    refine forall₂_congr fun p _ => ?_
    cases p.2 with
    | none => simp [Term.tags]
    | some x => simp [Term.tags]
  · intro a ha b hb e h
    simp only [constDict, List.map_map, List.mem_map, Function.comp_apply] at ha hb
    obtain ⟨p, hp, rfl⟩ := ha
    obtain ⟨q, hq, rfl⟩ := hb
    simp only [Term.pyEq, decide_eq_true_eq] at e
    have : p = q := by
      have h1 := dictGet_of_mem hd (show (p.1, p.2) ∈ D.consts from hp)
      have h2 := dictGet_of_mem hd (show (q.1, q.2) ∈ D.consts from hq)
      rw [e, h2] at h1
      simp only [Option.some.injEq] at h1
      exact Prod.ext e h1.symm
    rw [← this]; exact h

/-! ### Predicates -/

theorem dictGet_dictOf {β : Type} (items : List (Str × β)) (n : Str) : dictGet (dictOf items) n = items.reverse.lookup n := by
  induction items using List.reverseRecOn with
  | nil => rfl
  | append_singleton items p ih =>
    rw [dictOf_concat, dictGet_dictSet, ih, List.reverse_append, List.reverse_singleton, List.singleton_append]
    obtain ⟨k, v⟩ := p
    rw [List.lookup_cons]
    by_cases h : k = n
    · subst h; simp
    · have : (n == k) = false := by simpa using fun e => h e.symm
      simp [h, this]

/-- A declared predicate and what is written. -/
def DeclIn (p : Pred) (q : Str × List (Str × List Str)) : Prop := p.name = q.1 ∧ PredIn p q.2

theorem preds_lookup {ps : List Pred} {qs : List (Str × List (Str × List Str))} (h : List.Forall₂ DeclIn ps qs) (n : Str) :
    Option.Rel PredIn (dictGet (dictOf (ps.map (fun p => (p.name, p)))) n) (qs.reverse.lookup n) := by
  rw [dictGet_dictOf]
  have h' : List.Forall₂ (fun (x : Str × Pred) q => x.1 = q.1 ∧ PredIn x.2 q.2) (ps.map (fun p => (p.name, p))).reverse qs.reverse := by
    rw [List.forall₂_reverse_iff]
    rw [List.forall₂_map_left_iff]
    exact h
  generalize (ps.map (fun p => (p.name, p))).reverse = a at h'
  generalize qs.reverse = b at h'
  induction h' with
  | nil => exact .none
  | @cons x q a b hx _ ih =>
    obtain ⟨k, p⟩ := x
    obtain ⟨k', dl⟩ := q
    obtain ⟨rfl, hp⟩ := hx
    simp only [List.lookup_cons]
    cases n == k
    · exact ih
    · exact .some hp

theorem predIn_built {tl : TypedList} (hok : tl.Ok) (hc : Compatible tl.itemsOf) (n : Str) :
    PredIn ⟨n, (builtVars tl).map Term.var⟩ tl.vars := by
  have hb : ∀ q ∈ tl.vars, TagsOk (dd q.2) := fun q hq =>
    ((built_ok hok hc).1 ⟨q.1, dd q.2⟩ (List.mem_map.2 ⟨q, hq, rfl⟩)).2
  unfold PredIn builtVars
  rw [List.map_map, List.forall₂_map_left_iff, List.forall₂_same]
  exact fun q hq => ⟨_, rfl, rfl, fun x => dd_mem, hb q hq⟩

theorem predIn_vars {p : Pred} {dl : List (Str × List Str)} (h : PredIn p dl) : ∀ t ∈ p.terms, ∃ v, t = .var v := by
  intro t ht
  obtain ⟨d, _, v, hv, _⟩ := forall2_mem' h t ht
  exact ⟨v, hv⟩

theorem predIn_tags {p : Pred} {dl : List (Str × List Str)} (h : PredIn p dl) {ok : Str → Prop} :
    (∀ t ∈ p.terms, ∀ x ∈ t.tags, ok x) ↔ ∀ q ∈ dl, ∀ x ∈ q.2, ok x := by
  constructor
  · intro hk q hq x hx
    obtain ⟨t, ht, v, rfl, _, h2, _⟩ := forall2_mem h q hq
    exact hk _ ht x ((h2 x).2 hx)
  · intro hk t ht x hx
    obtain ⟨q, hq, v, rfl, _, h2, _⟩ := forall2_mem' h t ht
    exact hk q hq x ((h2 x).1 hx)

theorem preds_typed {D : Decls} {ps : List Pred} (h : List.Forall₂ DeclIn ps D.preds) :
    (∀ p ∈ firstOcc Pred.pyEq ps, ∀ t ∈ p.terms, WellTypedTerm (Declared D.types) D.reqs t) ↔
      ∀ p ∈ D.preds, ∀ q ∈ p.2, ∀ t ∈ q.2, D.typeOk t := by
  simp only [wellTyped_iff]
  rw [forall_firstOcc eqv_pred]
  · constructor
    · intro hk q hq
      obtain ⟨p, hp, _, h2⟩ := forall2_mem h q hq
      exact (predIn_tags h2).1 (hk p hp)
    · intro hk p hp
      obtain ⟨q, hq, _, h2⟩ := forall2_mem' h p hp
      exact (predIn_tags h2).2 (hk q hq)
  · intro a ha b _ e hk
    obtain ⟨q, _, _, h2⟩ := forall2_mem' h a ha
    have := Pred.pyEq_iff.1 e
    simp only [Pred.norm, Prod.mk.injEq] at this
    exact norm_vars this.2 (predIn_vars h2) hk

theorem sectionPredicates_in {σ σ' : PState} {b : List Tree} {ps : List Pred} (hw : WordsOk (.node b))
    (h : sectionPredicates σ b = .ok (ps, σ')) : ∃ qs, List.Forall₂ DeclIn ps qs ∧
      σ' = { σ with preds := dictOf (ps.map (fun p => (p.name, p))) } ∧
      ∀ ok : Str → Prop, (∀ q ∈ qs, ∀ p ∈ q.2, ∀ t ∈ p.2, ok t) → PredicatesIn ok b qs := by
  unfold sectionPredicates at h
  obtain ⟨ps', h1, h1'⟩ := bind_ok_iff.1 h
  obtain ⟨_, h2, h3⟩ := bind_ok_iff.1 h1'
  simp only [pure_ok, Except.ok.injEq, Prod.mk.injEq] at h3
  obtain ⟨rfl, rfl⟩ := h3
  rw [mapM_forall₂] at h1
  have hne : b ≠ [] := by
    rw [check_ok, decide_eq_true_eq] at h2
    rintro rfl
    simp at h2
  have : ∃ qs, List.Forall₂ DeclIn ps' qs ∧ ∀ ok : Str → Prop, (∀ q ∈ qs, ∀ p ∈ q.2, ∀ t ∈ p.2, ok t) →
      List.Forall₂ (fun t p => ∃ vs, t = .node (word p.1 :: vs) ∧ ValidName p.1 ∧ VarsIn ok vs p.2) b qs := by
    clear h h1' h2 hne
    induction h1 with
    | nil => exact ⟨[], .nil, fun _ _ => .nil⟩
    | @cons t p ts ps ht _ ih =>
      obtain ⟨qs, i1, i2⟩ := ih (fun w hi => by
        cases hi with
        | node hm hi => exact hw w (.node (List.mem_cons_of_mem _ hm) hi))
      obtain ⟨n, vs, tl, rfl, hn, hl, hok, hc, rfl⟩ := (formulaSkeleton_iff (hw.sub (by simp))).1 ht
      refine ⟨(n, tl.vars) :: qs, .cons ⟨rfl, predIn_built hok hc n⟩ i1, ?_⟩
      intro ok hk
      refine .cons ⟨vs, rfl, hn, in_vars hl hok hc ?_⟩ (i2 ok fun q hq => hk q (by simp [hq]))
      intro v hv x hx
      obtain ⟨q, hq, rfl⟩ := List.mem_map.1 hv
      exact hk (n, tl.vars) (by simp) q hq x (dd_mem.1 hx)
  obtain ⟨qs, i1, i2⟩ := this
  exact ⟨qs, i1, rfl, fun ok hk => ⟨hne, i2 ok hk⟩⟩

theorem in_sectionPredicates {σ : PState} {b : List Tree} {ok : Str → Prop} {qs : List (Str × List (Str × List Str))}
    (hw : WordsOk (.node b)) (h : PredicatesIn ok b qs) : (∀ q ∈ qs, ∀ p ∈ q.2, ∀ t ∈ p.2, ok t) ∧
    ∃ ps, List.Forall₂ DeclIn ps qs ∧
      sectionPredicates σ b = .ok (ps, { σ with preds := dictOf (ps.map (fun p => (p.name, p))) }) := by
  obtain ⟨hne, h⟩ := h
  have : (∀ q ∈ qs, ∀ p ∈ q.2, ∀ t ∈ p.2, ok t) ∧ ∃ ps, List.Forall₂ DeclIn ps qs ∧
      List.Forall₂ (fun t p => formulaSkeleton t = .ok p) b ps := by
    clear hne
    induction h with
    | nil => exact ⟨by simp, [], .nil, .nil⟩
    | @cons t q ts qs ht _ ih =>
      obtain ⟨i0, ps, i1, i2⟩ := ih (fun w hi => by
        cases hi with
        | node hm hi => exact hw w (.node (List.mem_cons_of_mem _ hm) hi))
      obtain ⟨vs, rfl, hn, hv⟩ := ht
      obtain ⟨tl, hl, e, hok, hc⟩ := vars_in hv
      refine ⟨?_, ⟨q.1, (builtVars tl).map Term.var⟩ :: ps, .cons ⟨rfl, ?_⟩ i1, .cons ?_ i2⟩
      · intro q' hq
        rcases List.mem_cons.1 hq with rfl | hq
        · exact fun p hp t ht => ((hv.2.1 p hp).2 t ht).2
        · exact i0 q' hq
      · rw [e]; exact predIn_built hok hc _
      · exact (formulaSkeleton_iff (hw.sub (by simp))).2 ⟨q.1, vs, tl, rfl, hn, hl, hok, hc, rfl⟩
  obtain ⟨i0, ps, i1, i2⟩ := this
  refine ⟨i0, ps, i1, ?_⟩
  unfold sectionPredicates
  rw [mapM_forall₂.2 i2, ok_bind]
  have h2 : check (decide (1 ≤ b.length)) Exc.lark = .ok () := by
    rw [check_ok, decide_eq_true_eq]; exact List.length_pos_iff.2 hne
  rw [h2]
  rfl

end Pddl.Rules
