/-
Where the terms of parsed formulas come from, and the parameters of a parsed action.
-/
import Verif.Proofs.TypedText
import Verif.Proofs.InstAtoms
import Verif.Proofs.Problem

namespace Pddl
open Spec

/-- A term returned by the callback for constants or for variables. -/
def FromEnv (E : GEnv) (t : Term) : Prop := (∃ n, E.constant n = .ok t) ∨ ∃ n, E.variable n = .ok t

theorem terms_from {E : GEnv} {args : List Tree} {ts : List Term} (h : E.terms args = .ok ts) :
    ∀ t ∈ ts, FromEnv E t := by
  induction args using GEnv.terms.induct generalizing ts with
  | case1 => simp [GEnv.terms] at h; subst h; simp
  | case2 n args ih =>
    simp only [GEnv.terms, bind_ok_iff, pure_ok, Except.ok.injEq] at h
    obtain ⟨t, ht, r, hr, rfl⟩ := h
    intro u hu
    rcases List.mem_cons.1 hu with rfl | hu
    · exact .inl ⟨n, ht⟩
    · exact ih hr u hu
  | case3 n args ih =>
    simp only [GEnv.terms, bind_ok_iff, pure_ok, Except.ok.injEq] at h
    obtain ⟨t, ht, r, hr, rfl⟩ := h
    intro u hu
    rcases List.mem_cons.1 hu with rfl | hu
    · exact .inr ⟨n, ht⟩
    · exact ih hr u hu
  | case4 => simp [GEnv.terms] at h

/-- All terms of the formula come from the environment. -/
def AllFrom (E : GEnv) (e : Expr) : Prop := ∀ a ∈ atoms e, ∀ t ∈ a.2, FromEnv E t

theorem AllFrom.construct {E : GEnv} {c : Cls} {es : List Expr} (h : ∀ e ∈ es, AllFrom E e) :
    AllFrom E (construct c es) := by
  intro a ha
  obtain ⟨e, he, hx⟩ := mem_atomsAll.1 (atoms_construct_sub ha)
  exact h e he a hx

theorem AllFrom.pairs {E : GEnv} {ts : List Tree} {es : List Expr} (hl : ts.length = es.length)
    (h : ∀ p ∈ ts.zip es, AllFrom E p.2) : ∀ e ∈ es, AllFrom E e := by
  intro e he
  obtain ⟨t, _, h⟩ := Pairs.mem_right (R := fun _ e => AllFrom E e) ⟨hl, h⟩ he
  exact h

theorem AllFrom.fn {E : GEnv} {f : NFun} (h : ∀ t ∈ f.terms, FromEnv E t) : AllFrom E (.nfun f) := by
  intro a ha
  simp only [atoms, List.mem_singleton] at ha
  subst ha
  exact h

theorem fHead_from {E : GEnv} {t : Tree} {f : NFun} (h : E.fHead t = .ok f) : ∀ t ∈ f.terms, FromEnv E t := by
  unfold GEnv.fHead at h
  split at h
  · obtain ⟨_, rfl⟩ := mkNFun_ok.1 h
    simp
  · obtain ⟨ts, ht, h⟩ := bind_ok_iff.1 h
    obtain ⟨_, rfl⟩ := mkNFun_ok.1 h
    exact terms_from ht
  · simp at h

theorem FRel.from {E : GEnv} {t : Tree} {e : Expr} (h : FRel E t e) : AllFrom E e := by
  induction h with
  | num _ => intro a ha; simp [atoms] at ha
  | plus _ hl _ ih => exact .construct (.pairs hl ih)
  | times _ hl _ ih => exact .construct (.pairs hl ih)
  | divide _ _ h1 h2 => exact .construct (by simp [h1, h2])
  | minus _ h1 => exact .construct (by simp [h1])
  | fn0 h => obtain ⟨_, rfl⟩ := mkNFun_ok.1 h; exact .fn (by simp)
  | fn h h' => obtain ⟨_, rfl⟩ := mkNFun_ok.1 h'; exact .fn (terms_from h)

theorem AllFrom.pred {E : GEnv} {n : Str} {ts : List Term} {p : Pred} (h : ∀ t ∈ ts, FromEnv E t)
    (hp : mkPred n ts = .ok p) : AllFrom E (.pred p) := by
  obtain ⟨_, _, rfl⟩ := mkPred_ok.1 hp
  intro a ha
  simp only [atoms, List.mem_singleton] at ha
  subst ha
  exact h

theorem AllFrom.eq {E : GEnv} {l r : Term} {e : Expr} (h : ∀ t ∈ [l, r], FromEnv E t)
    (hp : mkEq l r = .ok e) : AllFrom E e := by
  obtain ⟨_, rfl⟩ := mkEq_ok.1 hp
  intro a ha
  simp only [atoms, List.mem_singleton] at ha
  subst ha
  exact h

theorem atomic_from {E : GEnv} {a : List Tree} {e : Expr} (h : E.atomic a = .ok e) : AllFrom E e := by
  match a, h with
  | .atom .eq :: args, h =>
    obtain ⟨l, r, h1, _, h2⟩ := atomic_eq_ok.1 h
    exact .eq (terms_from h1) h2
  | .atom (.name n) :: args, h =>
    obtain ⟨ts, p, h1, h2, rfl⟩ := atomic_name_ok.1 h
    exact .pred (terms_from h1) h2
  | [], h => simp [GEnv.atomic] at h
  | .node _ :: _, h => simp [GEnv.atomic] at h
  | .atom t :: _, h =>
    cases t with
    | eq =>
      obtain ⟨l, r, h1, _, h2⟩ := atomic_eq_ok.1 h
      exact .eq (terms_from h1) h2
    | name n =>
      obtain ⟨ts, p, h1, h2, rfl⟩ := atomic_name_ok.1 h
      exact .pred (terms_from h1) h2
    | _ => simp [GEnv.atomic] at h

theorem GRel.from {E : GEnv} {t : Tree} {e : Expr} (h : GRel E t e) : AllFrom E e := by
  induction h with
  | and hl _ ih => exact .construct (.pairs hl ih)
  | or hl _ _ ih => exact .construct (.pairs hl ih)
  | not _ ih => exact ih
  | imply _ _ _ h1 h2 => exact .construct (by simp [h1, h2])
  | quant _ _ _ _ _ ih => exact ih
  | atom _ h1 h2 => exact .pred (terms_from h1) h2
  | eq _ h1 _ h2 => exact .eq (terms_from h1) h2
  | comp _ _ h1 h2 => exact .construct (by simp [(fExp_rel h1).from, (fExp_rel h2).from])

theorem PRel.from {E : GEnv} {t : Tree} {e : Expr} (h : PRel E t e) : AllFrom E e := by
  cases h with
  | not h => intro a ha; exact atomic_from h a (by simpa [atoms] using ha)
  | assign _ h1 h2 =>
    exact .construct (by simp [(fExp_rel h2).from, AllFrom.fn (fHead_from h1)])
  | atom _ _ h => exact atomic_from h
  | eq h => exact atomic_from h

theorem CRel.from {E : GEnv} {t : Tree} {e : Expr} (h : CRel E t e) : AllFrom E e := by
  cases h with
  | and h => exact .construct (.pairs h.1 (fun p hp => (h.2 p hp).from))
  | one _ h => exact h.from

theorem ERel.from {E : GEnv} {top : Bool} {t : Tree} {e : Expr} (h : ERel E top t e) : AllFrom E e := by
  induction h with
  | and hl _ ih => exact .construct (.pairs hl ih)
  | fall _ _ _ _ ih => exact ih
  | when h1 h2 =>
    intro a ha
    simp only [atoms, List.mem_append] at ha
    rcases ha with ha | ha
    · exact (gd_rel h1).from a ha
    · exact (condEffect_iff.1 h2).from a ha
  | oneof _ hl _ _ ih => exact .construct (.pairs hl ih)
  | lit _ h => exact (pEffect_iff.1 h).from

theorem allFrom_or {E : GEnv} : AllFrom E (mkOr []) := .construct (by simp)

theorem preGd_from {E : GEnv} {t : Tree} {e : Expr} (h : E.preGd t = .ok e) : AllFrom E e := by
  unfold GEnv.preGd at h
  split at h
  · simp only [pure_ok, Except.ok.injEq] at h; subst h; exact allFrom_or
  · exact (gd_rel h).from

theorem effOpt_from {E : GEnv} {t : Tree} {e : Expr} (h : E.effOpt t = .ok e) : AllFrom E e := by
  unfold GEnv.effOpt at h
  split at h
  · simp only [pure_ok, Except.ok.injEq] at h; subst h; exact allFrom_or
  · exact (effect_iff.1 h).from

/-! ### Constants of the parser are constants -/

/-- The constants kept by the parser are constants. -/
def ConstsOk (σ : PState) : Prop := ∀ p ∈ σ.consts, ∃ t, p.2 = Term.const p.1 t

theorem mkConst_const {n : Str} {tag : Option Str} {t : Term} (h : mkConst n tag = .ok t) :
    t = .const n tag := by
  unfold mkConst at h
  obtain ⟨n', hn, h1⟩ := bind_ok_iff.1 h
  clear h
  obtain ⟨rfl, _⟩ := parseName_ok.1 hn
  cases tag with
  | none => simp only [pure_ok, Except.ok.injEq] at h1; exact h1.symm
  | some t' =>
    obtain ⟨t'', ht, h⟩ := bind_ok_iff.1 h1
    obtain ⟨rfl, _⟩ := parseType_ok.1 ht
    simp only [pure_ok, Except.ok.injEq] at h
    exact h.symm

theorem mkConsts_ok {l : List (Str × Option Str)} {r : List (Str × Term)} (h : mkConsts l = .ok r) :
    r = l.map (fun p => (p.1, .const p.1 p.2)) := by
  induction l generalizing r with
  | nil => simp [mkConsts] at h; subst h; rfl
  | cons p l ih =>
    obtain ⟨n, tag⟩ := p
    simp only [mkConsts, bind_ok_iff, pure_ok, Except.ok.injEq] at h
    obtain ⟨t, ht, r', hr, rfl⟩ := h
    rw [mkConst_const ht, ih hr]
    rfl

theorem dictSet_mem {β} {d : List (Str × β)} {k : Str} {v : β} {p : Str × β} (h : p ∈ dictSet d k v) :
    p = (k, v) ∨ p ∈ d := by
  unfold dictSet at h
  split at h
  · simp only [List.mem_map] at h
    obtain ⟨q, hq, rfl⟩ := h
    split
    · exact .inl rfl
    · exact .inr hq
  · simp only [List.mem_append, List.mem_singleton] at h
    tauto

theorem dictOf_concat {β} (items : List (Str × β)) (p : Str × β) :
    dictOf (items ++ [p]) = dictSet (dictOf items) p.1 p.2 := by
  simp [dictOf, List.foldl_append]

theorem dictOf_mem {β} {items : List (Str × β)} {p : Str × β} (h : p ∈ dictOf items) : p ∈ items := by
  induction items using List.reverseRecOn with
  | nil => simp [dictOf] at h
  | append_singleton items q ih =>
    rw [dictOf_concat] at h
    rcases dictSet_mem h with rfl | h
    · simp
    · simp [ih h]

theorem dictSet_keys {β} (d : List (Str × β)) (k : Str) (v : β) :
    (dictSet d k v).map Prod.fst = if k ∈ d.map Prod.fst then d.map Prod.fst else d.map Prod.fst ++ [k] := by
  unfold dictSet
  have : dictHas d k = true ↔ k ∈ d.map Prod.fst := by simp [dictHas]
  by_cases hk : k ∈ d.map Prod.fst
  · rw [if_pos hk, if_pos (this.2 hk), List.map_map]
    apply List.map_congr_left
    intro p _
    simp only [Function.comp_apply]
    split
    · rename_i h; exact h.symm
    · rfl
  · rw [if_neg hk, if_neg (fun h => hk (this.1 h))]
    simp

/-- The keys of a dictionary comprehension. -/
theorem dictOf_keys {β} (items : List (Str × β)) :
    ((dictOf items).map Prod.fst).Nodup ∧ List.Sublist ((dictOf items).map Prod.fst) (items.map Prod.fst) ∧
    ∀ k, k ∈ items.map Prod.fst → k ∈ (dictOf items).map Prod.fst := by
  induction items using List.reverseRecOn with
  | nil => simp [dictOf]
  | append_singleton items q ih =>
    obtain ⟨h1, h2, h3⟩ := ih
    rw [dictOf_concat, dictSet_keys, List.map_append]
    split
    · rename_i hk
      refine ⟨h1, h2.trans (List.sublist_append_left _ _), ?_⟩
      intro k hk'
      simp only [List.mem_append, List.map_cons, List.map_nil, List.mem_singleton] at hk'
      rcases hk' with h | rfl
      · exact h3 k h
      · exact hk
    · rename_i hk
      refine ⟨?_, ?_, ?_⟩
      · rw [List.nodup_append]
        refine ⟨h1, by simp, ?_⟩
        intro a ha b hb
        simp only [List.mem_singleton] at hb
        subst hb
        rintro rfl
        exact hk ha
      · exact h2.append (List.Sublist.refl _)
      · intro k hk'
        simp only [List.mem_append, List.map_cons, List.map_nil, List.mem_singleton] at hk' ⊢
        rcases hk' with h | rfl
        · exact .inl (h3 k h)
        · exact .inr rfl

theorem constsOk_section {σ σ' : PState} {body : List Tree} {cs : List Term}
    (h : sectionConstants σ body = .ok (cs, σ')) : ConstsOk σ' := by
  unfold sectionConstants at h
  obtain ⟨d, _, h⟩ := bind_ok_iff.1 h
  obtain ⟨c, hc, h⟩ := bind_ok_iff.1 h
  simp only [pure_ok, Except.ok.injEq, Prod.mk.injEq] at h
  obtain ⟨_, rfl⟩ := h
  intro p hp
  have := dictOf_mem hp
  rw [mkConsts_ok hc] at this
  simp only [List.mem_map] at this
  obtain ⟨q, _, rfl⟩ := this
  exact ⟨_, rfl⟩


theorem constsOk_domain {F : FloatOf} {σ σ' : PState} {ts : List Tree} {d : Domain}
    (P : DomainParse F σ ts d σ') (h : ConstsOk σ) : ConstsOk P.σ4 := by
  have h1 : P.σ1.consts = σ.consts := by
    rcases P.hreqs with ⟨_, _, h⟩ | ⟨b, _, _, h⟩ <;> rw [h]
  have h2 : P.σ2.consts = P.σ1.consts := by
    rcases P.htypes with ⟨_, _, h⟩ | ⟨b, _, h⟩
    · rw [h]
    · unfold sectionTypes at h
      obtain ⟨_, _, h⟩ := bind_ok_iff.1 h
      obtain ⟨_, _, h⟩ := bind_ok_iff.1 h
      obtain ⟨_, _, h⟩ := bind_ok_iff.1 h
      simp only [pure_ok, Except.ok.injEq, Prod.mk.injEq] at h
      rw [← h.2]
  have h3 : ConstsOk P.σ3 := by
    rcases P.hconsts with ⟨_, _, h⟩ | ⟨b, _, h⟩
    · rw [h]; unfold ConstsOk; rw [h2, h1]; assumption
    · exact constsOk_section h
  have h4 : P.σ4.consts = P.σ3.consts := by
    rcases P.hpreds with ⟨_, _, h⟩ | ⟨b, _, h⟩
    · rw [h]
    · unfold sectionPredicates at h
      obtain ⟨_, _, h⟩ := bind_ok_iff.1 h
      obtain ⟨_, _, h⟩ := bind_ok_iff.1 h
      simp only [pure_ok, Except.ok.injEq, Prod.mk.injEq] at h
      rw [← h.2]
  unfold ConstsOk
  rw [h4]
  exact h3

/-- Every action and derived predicate comes from a part of the text. -/
theorem structures_from {F : FloatOf} {σ σ' : PState} {ts : List Tree} {as : List Action}
    {ds : List Derived} (h : structures F σ ts = .ok (as, ds, σ')) :
    σ'.Same σ ∧
    (∀ a ∈ as, ∃ body σ1 σ2, .node (.atom (.kw s%"action") :: body) ∈ ts ∧ σ1.Same σ ∧
      actionDef F σ1 body = .ok (a, σ2)) ∧
    (∀ d ∈ ds, ∃ body σ1, .node (.atom (.kw s%"derived") :: body) ∈ ts ∧ σ1.Same σ ∧
      derivedDef F σ1 body = .ok d) := by
  induction ts generalizing σ as ds with
  | nil =>
    simp only [structures, pure_ok, Except.ok.injEq, Prod.mk.injEq] at h
    obtain ⟨rfl, rfl, rfl⟩ := h
    exact ⟨.refl _, by simp, by simp⟩
  | cons t' ts ih =>
    unfold structures at h
    split at h
    · simp at *
    · rename_i k body ts' heq
      injection heq with h1 h2
      subst h2
      subst h1
      split at h
      · rename_i hk
        subst hk
        obtain ⟨⟨a, σ1⟩, ha, h⟩ := bind_ok_iff.1 h
        obtain ⟨⟨as', ds', σ2⟩, hs, h⟩ := bind_ok_iff.1 h
        simp only [pure_ok, Except.ok.injEq, Prod.mk.injEq] at h
        obtain ⟨rfl, rfl, rfl⟩ := h
        have hsm := actionDef_same ha
        obtain ⟨i1, i2, i3⟩ := ih hs
        refine ⟨i1.trans hsm, ?_, ?_⟩
        · intro x hx
          rcases List.mem_cons.1 hx with rfl | hx
          · exact ⟨body, _, σ1, by simp, .refl _, ha⟩
          · obtain ⟨b, s1, s2, hb, hsame, hd⟩ := i2 x hx
            exact ⟨b, s1, s2, by simp [hb], hsame.trans hsm, hd⟩
        · intro x hx
          obtain ⟨b, s1, hb, hsame, hd⟩ := i3 x hx
          exact ⟨b, s1, by simp [hb], hsame.trans hsm, hd⟩
      · split at h
        · rename_i hk
          subst hk
          obtain ⟨d, hd, h⟩ := bind_ok_iff.1 h
          obtain ⟨⟨as', ds', σ2⟩, hs, h⟩ := bind_ok_iff.1 h
          simp only [pure_ok, Except.ok.injEq, Prod.mk.injEq] at h
          obtain ⟨rfl, rfl, rfl⟩ := h
          obtain ⟨i1, i2, i3⟩ := ih hs
          refine ⟨i1, ?_, ?_⟩
          · intro x hx
            obtain ⟨b, s1, s2, hb, hsame, hd⟩ := i2 x hx
            exact ⟨b, s1, s2, by simp [hb], hsame, hd⟩
          · intro x hx
            rcases List.mem_cons.1 hx with rfl | hx
            · exact ⟨body, _, by simp, .refl _, hd⟩
            · obtain ⟨b, s1, hb, hsame, hd⟩ := i3 x hx
              exact ⟨b, s1, by simp [hb], hsame, hd⟩
        · simp at h
    · simp at h


theorem DomainParse.sub {F σ ts d σ'} (P : DomainParse F σ ts d σ') {t : Tree} (ht : t ∈ P.ts5) : t ∈ ts := by
  obtain ⟨w, x, e, _⟩ := header_ok P.hheader
  have step : ∀ {k a b r}, takeSection k a = (r, b) → ∀ t ∈ b, t ∈ a := by
    intro k a b r h t ht
    cases r with
    | none => rw [takeSection_none h]; exact ht
    | some body => rw [takeSection_some h]; exact List.mem_cons_of_mem _ ht
  have := step P.h1 _ (step P.h2 _ (step P.h3 _ (step P.h4 _ (step P.h5 t ht))))
  rw [e]
  simp [this]

theorem mkDomain_actions {a : DomainArgs} {d : Domain} (h : mkDomain a = .ok d) :
    d.actions = dedupBy Action.pyEq a.actions ∧ d.derived = dedupBy Derived.pyEq a.derived := by
  unfold mkDomain at h
  obtain ⟨_, _, h⟩ := bind_ok_iff.1 h
  obtain ⟨_, _, h⟩ := bind_ok_iff.1 h
  obtain ⟨_, _, h⟩ := bind_ok_iff.1 h
  obtain ⟨_, _, h⟩ := bind_ok_iff.1 h
  simp only [pure_ok, Except.ok.injEq] at h
  rw [← h]
  exact ⟨rfl, rfl⟩

theorem mem_of_dictGet {β} {d : List (Str × β)} {k : Str} {v : β} (h : dictGet d k = some v) : (k, v) ∈ d := by
  unfold dictGet at h
  induction d with
  | nil => simp at h
  | cons p d ih =>
    obtain ⟨k', v'⟩ := p
    rw [List.lookup_cons] at h
    split at h
    · rename_i he
      rw [beq_iff_eq] at he
      injection h with h
      simp [he, h]
    · exact List.mem_cons_of_mem _ (ih h)

theorem dictGet_of_key {β} {d : List (Str × β)} {k : Str} (h : k ∈ d.map Prod.fst) : ∃ v, dictGet d k = some v := by
  unfold dictGet
  induction d with
  | nil => simp at h
  | cons p d ih =>
    obtain ⟨k', v'⟩ := p
    rw [List.lookup_cons]
    by_cases hk : k = k'
    · subst hk; exact ⟨v', by simp⟩
    · simp only [List.map_cons, List.mem_cons, hk, false_or] at h
      have : (k == k') = false := by simpa using hk
      rw [this]
      exact ih h

/-- The variables of an action with the name of a parameter are parameters. -/
theorem occurrence_param {E : GEnv} (hc : ∀ n t, E.constant n = .ok t → ∃ m tag, t = .const m tag)
    (hp : ∀ p ∈ E.params, ∃ v : Var, p = (v.name, .var v)) {e : Expr} (he : AllFrom E e) {v : Var}
    (hv : v ∈ occurrences e) (hn : v.name ∈ E.params.map Prod.fst) : (v.name, .var v) ∈ E.params := by
  simp only [occurrences, List.mem_flatMap] at hv
  obtain ⟨a, ha, t, ht, hv⟩ := hv
  have hf := he a ha t ht
  cases t with
  | const n tag => simp [varOf] at hv
  | var w =>
    simp only [varOf, List.mem_singleton] at hv
    subst hv
    rcases hf with ⟨n, h⟩ | ⟨n, h⟩
    · obtain ⟨m, tag, h⟩ := hc n _ h
      cases h
    · unfold GEnv.variable at h
      split at h
      · rename_i t hg
        simp only [pure_ok, Except.ok.injEq] at h
        subst h
        have := mem_of_dictGet hg
        obtain ⟨u, hu⟩ := hp _ this
        injection hu with h1 h2
        injection h2 with h2
        subst h2
        rw [h1] at this
        exact this
      · rename_i hg
        obtain ⟨u, hu, h⟩ := bind_ok_iff.1 h
        obtain ⟨_, _, rfl⟩ := mkVar_set_ok.1 hu
        simp only [pure_ok, Except.ok.injEq, Term.var.injEq] at h
        subst h
        obtain ⟨t, ht⟩ := dictGet_of_key hn
        simp only at ht
        rw [ht] at hg
        cases hg

theorem constant_const {σ : PState} {F : FloatOf} (h : ConstsOk σ) (n : Str) (t : Term)
    (ht : (σ.env F).constant n = .ok t) : ∃ tag, t = .const n tag := by
  change σ.constant n = .ok t at ht
  unfold PState.constant at ht
  split at ht
  · rename_i u hu
    simp only [pure_ok, Except.ok.injEq] at ht
    subst ht
    exact h _ (mem_of_dictGet hu)
  · simp at ht

end Pddl
