/-
The domain callback taken apart.
-/
import Verif.Proofs.ParseRel
import Verif.Spec.Parse

namespace Pddl
open Spec

/-- The intermediate results of a successful `domainDef`. -/
structure DomainParse (F : FloatOf) (σ : PState) (ts : List Tree) (d : Domain) (σ' : PState) where
  n : Str
  ts0 : List Tree
  hheader : header s%"domain" ts = .ok (n, ts0)
  r1 : Option (List Tree)
  ts1 : List Tree
  h1 : takeSection s%"requirements" ts0 = (r1, ts1)
  rs : List Req
  σ1 : PState
  hreqs : (r1 = none ∧ rs = [] ∧ σ1 = σ) ∨
    ∃ b, r1 = some b ∧ parseRequirements b = .ok rs ∧ σ1 = { σ with ext := extendReqs rs }
  r2 : Option (List Tree)
  ts2 : List Tree
  h2 : takeSection s%"types" ts1 = (r2, ts2)
  types : TypeDict
  σ2 : PState
  htypes : (r2 = none ∧ types = [] ∧ σ2 = σ1) ∨ ∃ b, r2 = some b ∧ sectionTypes σ1 b = .ok (types, σ2)
  r3 : Option (List Tree)
  ts3 : List Tree
  h3 : takeSection s%"constants" ts2 = (r3, ts3)
  consts : List Term
  σ3 : PState
  hconsts : (r3 = none ∧ consts = [] ∧ σ3 = σ2) ∨
    ∃ b, r3 = some b ∧ sectionConstants σ2 b = .ok (consts, σ3)
  r4 : Option (List Tree)
  ts4 : List Tree
  h4 : takeSection s%"predicates" ts3 = (r4, ts4)
  preds : List Pred
  σ4 : PState
  hpreds : (r4 = none ∧ preds = [] ∧ σ4 = σ3) ∨
    ∃ b, r4 = some b ∧ sectionPredicates σ3 b = .ok (preds, σ4)
  r5 : Option (List Tree)
  ts5 : List Tree
  h5 : takeSection s%"functions" ts4 = (r5, ts5)
  funs : FunDict
  hfuns : (r5 = none ∧ funs = []) ∨ ∃ b, r5 = some b ∧ sectionFunctions b = .ok funs
  as : List Action
  ds : List Derived
  σ5 : PState
  hstruct : structures F σ4 ts5 = .ok (as, ds, σ5)
  hdomain : mkDomain { name := n, reqs := rs, types := types, constants := consts,
                       predicates := preds, functions := funs, derived := ds, actions := as } = .ok d
  hσ' : σ' = { σ5 with types := none }

theorem optSection_ok {α : Type} {sec : Option (List Tree)} {dflt x : α}
    {f : List Tree → Except Exc α} (h : optSection sec dflt f = .ok x) :
    (sec = none ∧ x = dflt) ∨ ∃ b, sec = some b ∧ f b = .ok x := by
  unfold optSection at h
  split at h
  · left; simp at h; exact ⟨rfl, h.symm⟩
  · right; exact ⟨_, rfl, h⟩

theorem domainDef_ok {F : FloatOf} {σ : PState} {ts : List Tree} {d : Domain} {σ' : PState}
    (h : domainDef F σ ts = .ok (d, σ')) : Nonempty (DomainParse F σ ts d σ') := by
  unfold domainDef at h
  obtain ⟨⟨n, ts0⟩, hheader, h⟩ := bind_ok_iff.1 h
  simp only at h
  obtain ⟨⟨rs, σ1⟩, hreqs, h⟩ := bind_ok_iff.1 h
  obtain ⟨⟨types, σ2⟩, htypes, h⟩ := bind_ok_iff.1 h
  obtain ⟨⟨consts, σ3⟩, hconsts, h⟩ := bind_ok_iff.1 h
  obtain ⟨⟨preds, σ4⟩, hpreds, h⟩ := bind_ok_iff.1 h
  obtain ⟨funs, hfuns, h⟩ := bind_ok_iff.1 h
  obtain ⟨⟨as, ds, σ5⟩, hstruct, h⟩ := bind_ok_iff.1 h
  simp only at h
  obtain ⟨d', hdomain, h⟩ := bind_ok_iff.1 h
  simp only [pure_ok, Except.ok.injEq, Prod.mk.injEq] at h
  obtain ⟨rfl, rfl⟩ := h
  refine ⟨⟨n, ts0, hheader, _, _, rfl, rs, σ1, ?_, _, _, rfl, types, σ2, ?_, _, _, rfl, consts,
    σ3, ?_, _, _, rfl, preds, σ4, ?_, _, _, rfl, funs, ?_, as, ds, σ5, hstruct, hdomain, rfl⟩⟩
  · rcases optSection_ok hreqs with ⟨h, h'⟩ | ⟨b, h, h'⟩
    · injection h' with h1 h2; exact Or.inl ⟨h, h1, h2⟩
    · refine Or.inr ⟨b, h, ?_⟩
      unfold sectionRequirements at h'
      simp only [bind_ok_iff, pure_ok, Except.ok.injEq, Prod.mk.injEq] at h'
      obtain ⟨rs', h1, h2, h3⟩ := h'
      exact ⟨by rw [← h2]; exact h1, by rw [← h3, ← h2]⟩
  · rcases optSection_ok htypes with ⟨h, h'⟩ | h
    · injection h' with h1 h2; exact Or.inl ⟨h, h1, h2⟩
    · exact Or.inr h
  · rcases optSection_ok hconsts with ⟨h, h'⟩ | h
    · injection h' with h1 h2; exact Or.inl ⟨h, h1, h2⟩
    · exact Or.inr h
  · rcases optSection_ok hpreds with ⟨h, h'⟩ | h
    · injection h' with h1 h2; exact Or.inl ⟨h, h1, h2⟩
    · exact Or.inr h
  · exact optSection_ok hfuns

/-- The steps of a parse, put together. -/
theorem DomainParse.run {F : FloatOf} {σ : PState} {ts : List Tree} {d : Domain} {σ' : PState}
    (P : DomainParse F σ ts d σ') : domainDef F σ ts = .ok (d, σ') := by
  have e1 : optSection P.r1 ([], σ) (sectionRequirements σ) = .ok (P.rs, P.σ1) := by
    rcases P.hreqs with ⟨h, h1, h2⟩ | ⟨b, h, h1, h2⟩
    · rw [h, h1, h2]; rfl
    · rw [h, h2]; simp only [optSection, sectionRequirements, h1]; rfl
  have e2 : optSection P.r2 ([], P.σ1) (sectionTypes P.σ1) = .ok (P.types, P.σ2) := by
    rcases P.htypes with ⟨h, h1, h2⟩ | ⟨b, h, h1⟩
    · rw [h, h1, h2]; rfl
    · rw [h]; exact h1
  have e3 : optSection P.r3 ([], P.σ2) (sectionConstants P.σ2) = .ok (P.consts, P.σ3) := by
    rcases P.hconsts with ⟨h, h1, h2⟩ | ⟨b, h, h1⟩
    · rw [h, h1, h2]; rfl
    · rw [h]; exact h1
  have e4 : optSection P.r4 ([], P.σ3) (sectionPredicates P.σ3) = .ok (P.preds, P.σ4) := by
    rcases P.hpreds with ⟨h, h1, h2⟩ | ⟨b, h, h1⟩
    · rw [h, h1, h2]; rfl
    · rw [h]; exact h1
  have e5 : optSection P.r5 [] sectionFunctions = .ok P.funs := by
    rcases P.hfuns with ⟨h, h1⟩ | ⟨b, h, h1⟩
    · rw [h, h1]; rfl
    · rw [h]; exact h1
  unfold domainDef
  simp only [P.hheader, ok_bind, P.h1, e1, P.h2, e2, P.h3, e3, P.h4, e4, P.h5, e5, P.hstruct, P.hdomain, pure_ok, P.hσ']

theorem parseDomain_ok {F : FloatOf} {σ : PState} {t : Str} {d : Domain} {σ' : PState}
    (h : parseDomain F σ t = .ok (d, σ')) :
    ∃ ts, readText t = .ok [.node ts] ∧ domainDef F σ ts = .ok (d, σ') := by
  unfold parseDomain at h
  obtain ⟨trees, ht, h⟩ := bind_ok_iff.1 h
  split at h
  · rename_i ts
    exact ⟨ts, ht, h⟩
  · simp at h

/-- What `takeSection` takes. -/
theorem takeSection_some {k : Str} {ts b rest : List Tree} (h : takeSection k ts = (some b, rest)) :
    ts = .node (.atom (.kw k) :: b) :: rest := by
  unfold takeSection at h
  split at h
  · split at h
    · rename_i hk
      simp only [Prod.mk.injEq, Option.some.injEq] at h
      obtain ⟨rfl, rfl⟩ := h
      rw [hk]
    · simp at h
  · simp at h

theorem takeSection_none {k : Str} {ts rest : List Tree} (h : takeSection k ts = (none, rest)) :
    ts = rest := by
  unfold takeSection at h
  split at h
  · split at h
    · simp at h
    · simpa using h
  · simpa using h

theorem takeSection_mem {k : Str} {ts rest : List Tree} {b : Option (List Tree)}
    (h : takeSection k ts = (b, rest)) {t : Tree} (ht : t ∈ ts) :
    (∃ body, b = some body ∧ t = .node (.atom (.kw k) :: body)) ∨ t ∈ rest := by
  cases b with
  | none => right; rw [← takeSection_none h]; exact ht
  | some body =>
    rw [takeSection_some h] at ht
    rcases List.mem_cons.1 ht with rfl | ht
    · left; exact ⟨body, rfl, rfl⟩
    · right; exact ht

theorem dropKeyword_some {k : Str} {ts us : List Tree} (h : dropKeyword k ts = some us) :
    ∃ w rest, ts = .atom (.name w) :: rest ∧ k.isPrefixOf w = true ∧
      (us = rest ∧ w = k ∨ ∃ c cs, us = .atom (.name (c :: cs)) :: rest ∧ w = k ++ c :: cs ∧ isAlphaC c = true) := by
  unfold dropKeyword at h
  split at h
  · rename_i w rest
    split at h
    · rename_i hp
      obtain ⟨s, rfl⟩ := List.isPrefixOf_iff_prefix.1 hp
      simp only [List.drop_left] at h
      refine ⟨_, rest, rfl, hp, ?_⟩
      cases s with
      | nil => simp at h; left; exact ⟨h.symm, by simp⟩
      | cons c cs =>
        simp only at h
        split at h
        · rename_i hc
          simp at h; right; exact ⟨c, cs, h.symm, rfl, hc⟩
        · simp at h
    · simp at h
  · simp at h

theorem header_ok {k : Str} {ts rest : List Tree} {n : Str} (h : header k ts = .ok (n, rest)) :
    ∃ w x, ts = .atom (.name s%"define") :: .node x :: rest ∧ k.isPrefixOf w = true ∧
      (x = [.atom (.name w), .atom (.name n)] ∧ w = k ∨ x = [.atom (.name w)] ∧ w = k ++ n) := by
  unfold header at h
  split at h
  · rename_i hd rest' hdk
    split at h
    · rename_i n' hdk'
      simp only [pure_ok, Except.ok.injEq, Prod.mk.injEq] at h
      obtain ⟨rfl, rfl⟩ := h
      obtain ⟨w, r, rfl, _, hw⟩ := dropKeyword_some hdk
      obtain ⟨w', r', rfl, hp, hw'⟩ := dropKeyword_some hdk'
      rcases hw with ⟨rfl, rfl⟩ | ⟨c, cs, h, _⟩
      · refine ⟨w', _, rfl, hp, ?_⟩
        rcases hw' with ⟨rfl, rfl⟩ | ⟨c, cs, h, rfl, _⟩
        · left; exact ⟨rfl, rfl⟩
        · right; injection h with h1 h2; injection h1 with h1; injection h1 with h1
          subst h1; subst h2; exact ⟨rfl, rfl⟩
      · injection h with h1 _; exact absurd h1 (by simp)
    · simp at h
  · simp at h

/-- The sections a structure of the domain comes from: every bracket of the text is the header, one of
the sections, or one of the structures. -/
theorem DomainParse.mem {F σ ts d σ'} (P : DomainParse F σ ts d σ') {t : Tree} (ht : t ∈ P.ts0) :
    (∃ b, P.r1 = some b ∧ t = .node (.atom (.kw s%"requirements") :: b)) ∨
    (∃ b, P.r2 = some b ∧ t = .node (.atom (.kw s%"types") :: b)) ∨
    (∃ b, P.r3 = some b ∧ t = .node (.atom (.kw s%"constants") :: b)) ∨
    (∃ b, P.r4 = some b ∧ t = .node (.atom (.kw s%"predicates") :: b)) ∨
    (∃ b, P.r5 = some b ∧ t = .node (.atom (.kw s%"functions") :: b)) ∨ t ∈ P.ts5 := by
  rcases takeSection_mem P.h1 ht with h | ht
  · exact Or.inl h
  rcases takeSection_mem P.h2 ht with h | ht
  · exact Or.inr (Or.inl h)
  rcases takeSection_mem P.h3 ht with h | ht
  · exact Or.inr (Or.inr (Or.inl h))
  rcases takeSection_mem P.h4 ht with h | ht
  · exact Or.inr (Or.inr (Or.inr (Or.inl h)))
  rcases takeSection_mem P.h5 ht with h | ht
  · exact Or.inr (Or.inr (Or.inr (Or.inr (Or.inl h))))
  · exact Or.inr (Or.inr (Or.inr (Or.inr (Or.inr ht))))

/-! ### Structures -/

/-- States that differ at most in the current parameters. -/
def PState.Same (a b : PState) : Prop :=
  a.ext = b.ext ∧ a.consts = b.consts ∧ a.preds = b.preds ∧ a.types = b.types

theorem PState.Same.refl (a : PState) : a.Same a := ⟨rfl, rfl, rfl, rfl⟩
theorem PState.Same.trans {a b c : PState} (h : a.Same b) (h' : b.Same c) : a.Same c :=
  ⟨h.1.trans h'.1, h.2.1.trans h'.2.1, h.2.2.1.trans h'.2.2.1, h.2.2.2.trans h'.2.2.2⟩

/-- The parts of a successful `action_def`. -/
theorem actionDef_ok {F : FloatOf} {σ σ' : PState} {body : List Tree} {a : Action}
    (h : actionDef F σ body = .ok (a, σ')) :
    ∃ n ps t t' params p e,
      body = [.atom (.name n), .atom (.kw s%"parameters"), .node ps, .atom (.kw s%"precondition"), t,
        .atom (.kw s%"effect"), t'] ∧
      actionParameters ps = .ok params ∧ σ' = { σ with params := params } ∧
      (σ'.env F).preGd t = .ok p ∧ (σ'.env F).effOpt t' = .ok e ∧
      mkAction n (params.map Prod.snd) (some p) (some e) = .ok a := by
  unfold actionDef at h
  split at h
  · rename_i n k ps body
    obtain ⟨u, hk, h1⟩ := bind_ok_iff.1 h
    clear h
    rw [check_ok, decide_eq_true_eq] at hk
    subst hk
    obtain ⟨params, hparams, h⟩ := bind_ok_iff.1 h1
    clear h1
    obtain ⟨⟨pre, rest⟩, hpre, h⟩ := bind_ok_iff.1 h
    obtain ⟨eff, heff, h⟩ := bind_ok_iff.1 h
    split at h
    · rename_i p e
      obtain ⟨a', ha, h⟩ := bind_ok_iff.1 h
      simp only [pure_ok, Except.ok.injEq, Prod.mk.injEq] at h
      obtain ⟨rfl, rfl⟩ := h
      unfold actionPre at hpre
      split at hpre
      · rename_i k t rest'
        split at hpre
        · rename_i hk
          subst hk
          obtain ⟨p', hp, hpre⟩ := bind_ok_iff.1 hpre
          simp only [pure_ok, Except.ok.injEq, Prod.mk.injEq, Option.some.injEq] at hpre
          obtain ⟨rfl, rfl⟩ := hpre
          unfold actionEff at heff
          split at heff
          · simp at heff
          · rename_i k' t'
            obtain ⟨u', hk', heff1⟩ := bind_ok_iff.1 heff
            clear heff
            obtain ⟨e', he, heff⟩ := bind_ok_iff.1 heff1
            clear heff1
            rw [check_ok, decide_eq_true_eq] at hk'
            subst hk'
            simp only [pure_ok, Except.ok.injEq, Option.some.injEq] at heff
            subst heff
            exact ⟨n, ps, t, t', params, p', e', rfl, hparams, rfl, hp, he, ha⟩
          · simp at heff
        · simp at hpre
      · simp at hpre
    · simp at h
  · simp at h

theorem actionDef_same {F : FloatOf} {σ σ' : PState} {body : List Tree} {a : Action}
    (h : actionDef F σ body = .ok (a, σ')) : σ'.Same σ := by
  obtain ⟨_, _, _, _, _, _, _, _, _, rfl, _⟩ := actionDef_ok h
  exact ⟨rfl, rfl, rfl, rfl⟩

theorem structures_same {F : FloatOf} {σ σ' : PState} {ts : List Tree} {as : List Action}
    {ds : List Derived} (h : structures F σ ts = .ok (as, ds, σ')) : σ'.Same σ := by
  induction ts generalizing σ as ds with
  | nil =>
    simp [structures] at h
    obtain ⟨_, _, rfl⟩ := h
    exact .refl _
  | cons t ts ih =>
    unfold structures at h
    split at h
    · simp at *
    · rename_i heq
      injection heq with h1 h2
      subst h2
      split at h
      · obtain ⟨⟨a, σ1⟩, ha, h⟩ := bind_ok_iff.1 h
        obtain ⟨⟨as', ds', σ2⟩, hs, h⟩ := bind_ok_iff.1 h
        simp only [pure_ok, Except.ok.injEq, Prod.mk.injEq] at h
        obtain ⟨_, _, rfl⟩ := h
        exact (ih hs).trans (actionDef_same ha)
      · split at h
        · obtain ⟨dd, hd, h⟩ := bind_ok_iff.1 h
          obtain ⟨⟨as', ds', σ2⟩, hs, h⟩ := bind_ok_iff.1 h
          simp only [pure_ok, Except.ok.injEq, Prod.mk.injEq] at h
          obtain ⟨_, _, rfl⟩ := h
          exact ih hs
        · simp at h
    · simp at h

/-- Every structure is an action or a derived predicate, processed in a state that differs from the
initial one only in the parameters. -/
theorem structures_mem {F : FloatOf} {σ σ' : PState} {ts : List Tree} {as : List Action}
    {ds : List Derived} (h : structures F σ ts = .ok (as, ds, σ')) {t : Tree} (ht : t ∈ ts) :
    (∃ body σ1 a σ2, t = .node (.atom (.kw s%"action") :: body) ∧ σ1.Same σ ∧
      actionDef F σ1 body = .ok (a, σ2) ∧ a ∈ as) ∨
    (∃ body σ1 d, t = .node (.atom (.kw s%"derived") :: body) ∧ σ1.Same σ ∧
      derivedDef F σ1 body = .ok d ∧ d ∈ ds) := by
  induction ts generalizing σ as ds with
  | nil => simp at ht
  | cons t' ts ih =>
    unfold structures at h
    split at h
    · simp at *
    · rename_i k body ts' heq
      injection heq with h1 h2
      subst h2
      subst h1
      split at h
      · rename_i hk
        subst hk
        obtain ⟨⟨a, σ1⟩, ha, h⟩ := bind_ok_iff.1 h
        obtain ⟨⟨as', ds', σ2⟩, hs, h⟩ := bind_ok_iff.1 h
        simp only [pure_ok, Except.ok.injEq, Prod.mk.injEq] at h
        obtain ⟨rfl, rfl, rfl⟩ := h
        rcases List.mem_cons.1 ht with rfl | ht
        · left; exact ⟨body, _, a, _, rfl, .refl _, ha, by simp⟩
        · rcases ih hs ht with ⟨b, s1, a', s2, e, hsm, ha', hm⟩ | ⟨b, s1, d', e, hsm, hd', hm⟩
          · left; exact ⟨b, s1, a', s2, e, hsm.trans (actionDef_same ha), ha', by simp [hm]⟩
          · right; exact ⟨b, s1, d', e, hsm.trans (actionDef_same ha), hd', hm⟩
      · split at h
        · rename_i hk
          subst hk
          obtain ⟨dd, hd, h⟩ := bind_ok_iff.1 h
          obtain ⟨⟨as', ds', σ2⟩, hs, h⟩ := bind_ok_iff.1 h
          simp only [pure_ok, Except.ok.injEq, Prod.mk.injEq] at h
          obtain ⟨rfl, rfl, rfl⟩ := h
          rcases List.mem_cons.1 ht with rfl | ht
          · right; exact ⟨body, _, dd, rfl, .refl _, hd, by simp⟩
          · rcases ih hs ht with ⟨b, s1, a', s2, e, hsm, ha', hm⟩ | ⟨b, s1, d', e, hsm, hd', hm⟩
            · left; exact ⟨b, s1, a', s2, e, hsm, ha', hm⟩
            · right; exact ⟨b, s1, d', e, hsm, hd', by simp [hm]⟩
        · simp at h
    · simp at h

theorem derivedDef_ok {F : FloatOf} {σ : PState} {body : List Tree} {d : Derived}
    (h : derivedDef F σ body = .ok d) :
    ∃ t c head cond, body = [t, c] ∧ formulaSkeleton t = .ok head ∧ (σ.env F).gd c = .ok cond ∧
      derivedPredicate σ.types σ.preds head cond = .ok d := by
  unfold derivedDef at h
  split at h
  · rename_i t c
    obtain ⟨head, hh, h⟩ := bind_ok_iff.1 h
    obtain ⟨cond, hc, h⟩ := bind_ok_iff.1 h
    exact ⟨t, c, head, cond, rfl, hh, hc, h⟩
  · simp at h

end Pddl
