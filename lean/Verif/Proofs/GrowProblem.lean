/-
More objects and facts in a problem text.
-/
import Verif.Spec.GrowProblem
import Verif.Proofs.RulesProblem
import Verif.Proofs.Problem
import Verif.Proofs.WrittenProblem

namespace Pddl
open Spec Spec.Rules Spec.Grammar Rules

theorem initTerm_norm {σ σ' : List (Str × Term)} (hσ : OwnNames σ) (hσ' : OwnNames σ') {ns : List Str} {ts ts' : List Term}
    (h : ns.mapM (initTerm σ) = .ok ts) (h' : ns.mapM (initTerm σ') = .ok ts') : ts.map Term.norm = ts'.map Term.norm := by
  induction ns generalizing ts ts' with
  | nil => simp at h h'; subst h; subst h'; rfl
  | cons n ns ih =>
    rw [List.mapM_cons] at h h'
    obtain ⟨a, h1, h⟩ := bind_ok_iff.1 h
    obtain ⟨as, h2, h⟩ := bind_ok_iff.1 h
    obtain ⟨b, h1', h'⟩ := bind_ok_iff.1 h'
    obtain ⟨bs, h2', h'⟩ := bind_ok_iff.1 h'
    simp only [pure_ok, Except.ok.injEq] at h h'
    subst h; subst h'
    obtain ⟨_, x, rfl⟩ := initTerm_read hσ h1
    obtain ⟨_, y, rfl⟩ := initTerm_read hσ' h1'
    simp only [List.map_cons, ih h2 h2']
    rfl

theorem atomicName_norm {σ σ' : List (Str × Term)} (hσ : OwnNames σ) (hσ' : OwnNames σ') {ts : List Tree} {e e' : Expr}
    (h : atomicName σ ts = .ok e) (h' : atomicName σ' ts = .ok e') : e.norm = e'.norm := by
  unfold atomicName at h h'
  split at h
  · split at h
    · simp at h
    · rename_i p args _ ns hns
      simp only [hns] at h'
      obtain ⟨us, h1, h2⟩ := bind_ok_iff.1 h
      obtain ⟨q, h3, h4⟩ := bind_ok_iff.1 h2
      obtain ⟨us', h1', h2'⟩ := bind_ok_iff.1 h'
      obtain ⟨q', h3', h4'⟩ := bind_ok_iff.1 h2'
      simp only [pure_ok, Except.ok.injEq] at h4 h4'
      subst h4; subst h4'
      obtain ⟨_, _, rfl⟩ := mkPred_ok.1 h3
      obtain ⟨_, _, rfl⟩ := mkPred_ok.1 h3'
      simp only [Expr.norm, initTerm_norm hσ hσ' h1 h1']
  · simp at h

theorem initEl_norm {F : FloatOf} {σ σ' : List (Str × Term)} (hσ : OwnNames σ) (hσ' : OwnNames σ') {t : Tree} {e e' : Expr}
    (h : initEl F σ t = .ok e) (h' : initEl F σ' t = .ok e') : e.norm = e'.norm := by
  unfold initEl at h h'
  split at h
  · simp only at h'
    rw [h] at h'
    simp only [Except.ok.injEq] at h'
    rw [h']
  · split at h
    · rename_i hw
      simp only [hw, if_true] at h'
      split at h
      · obtain ⟨a, h1, h2⟩ := bind_ok_iff.1 h
        obtain ⟨b, h1', h2'⟩ := bind_ok_iff.1 h'
        simp only [pure_ok, Except.ok.injEq] at h2 h2'
        subst h2; subst h2'
        simp only [Expr.norm, atomicName_norm hσ hσ' h1 h1']
      · simp at h
    · rename_i hw
      simp only [hw, if_false] at h'
      exact atomicName_norm hσ hσ' h h'
  · simp at h

/-- The terms of an initial fact are objects of the problem or constants without a type. -/
def ObjectOrBare (σ : List (Str × Term)) (t : Term) : Prop := t ∈ σ.map Prod.snd ∨ t.tags = []

theorem initTerm_bare {σ : List (Str × Term)} {n : Str} {t : Term} (h : initTerm σ n = .ok t) : ObjectOrBare σ t := by
  unfold initTerm at h
  split at h
  · rename_i u hu
    simp only [pure_ok, Except.ok.injEq] at h
    subst h
    exact .inl (List.mem_map.2 ⟨_, mem_of_dictGet hu, rfl⟩)
  · obtain ⟨_, _, rfl⟩ := mkConst_ok h
    exact .inr rfl

theorem atomicName_bare {σ : List (Str × Term)} {ts : List Tree} {e : Expr} (h : atomicName σ ts = .ok e) :
    ∀ t ∈ terms e, ObjectOrBare σ t := by
  unfold atomicName at h
  split at h
  · split at h
    · simp at h
    · obtain ⟨us, h1, h2⟩ := bind_ok_iff.1 h
      obtain ⟨q, h3, h4⟩ := bind_ok_iff.1 h2
      simp only [pure_ok, Except.ok.injEq] at h4
      subst h4
      obtain ⟨_, _, rfl⟩ := mkPred_ok.1 h3
      intro t ht
      obtain ⟨n, _, hn⟩ := forall₂_right (mapM_ok_iff.1 h1) t ht
      exact initTerm_bare hn
  · simp at h

theorem basicFunction_untyped {t : Tree} {f : NFun} (h : basicFunction t = .ok f) : ∀ u ∈ f.terms, u.tags = [] := by
  unfold basicFunction at h
  split at h
  · obtain ⟨_, rfl⟩ := mkNFun_ok.1 h
    simp
  · split at h
    · simp at h
    · obtain ⟨us, h1, h2⟩ := bind_ok_iff.1 h
      obtain ⟨_, rfl⟩ := mkNFun_ok.1 h2
      intro t ht
      obtain ⟨n, _, hn⟩ := forall₂_right (mapM_ok_iff.1 h1) t ht
      obtain ⟨_, _, rfl⟩ := mkConst_ok hn
      rfl
  · simp at h

theorem initEl_bare {F : FloatOf} {σ : List (Str × Term)} {t : Tree} {e : Expr} (h : initEl F σ t = .ok e) :
    ∀ u ∈ terms e, ObjectOrBare σ u := by
  unfold initEl at h
  split at h
  · split at h
    · obtain ⟨f, h1, h2⟩ := bind_ok_iff.1 h
      obtain ⟨n, h3, h4⟩ := bind_ok_iff.1 h2
      simp only [pure_ok, Except.ok.injEq] at h4
      subst h4
      intro u hu
      have : u ∈ f.terms := by
        rw [construct_eq_value] at hu
        simpa [terms, termsAll] using hu
      exact .inr (basicFunction_untyped h1 u this)
    · simp at h
  · split at h
    · split at h
      · obtain ⟨a, h1, h2⟩ := bind_ok_iff.1 h
        simp only [pure_ok, Except.ok.injEq] at h2
        subst h2
        simp only [terms]
        exact atomicName_bare h1
      · simp at h
    · exact atomicName_bare h
  · simp at h

theorem objects_text {s : ProblemSections} {l : NameList} (h : s.Declares l) :
    optSection s.objects ([], []) problemObjects = .ok ((constsOf l).map Prod.snd, constsOf l) := by
  have := problemObjects_text h.2
  rw [← h.1] at this
  cases hs : s.objects with
  | some b => rw [hs] at this; exact this
  | none =>
    rw [hs] at this
    have e : problemObjects [] = .ok ([], []) := rfl
    exact e.symm.trans this

theorem constsOf_dedup {l : NameList} (h : l.Ok) : dedupBy Term.pyEq ((constsOf l).map Prod.snd) = (constsOf l).map Prod.snd := by
  apply dedupBy_eq_self
  have := h.nodup
  rw [List.Nodup, List.pairwise_map] at this
  unfold constsOf
  rw [List.map_map, List.pairwise_map]
  refine this.imp ?_
  intro a b hab
  simp only [Function.comp, Term.pyEq]
  simpa using fun e => hab e.symm

/-- What is read from the sections. -/
theorem problemDef_declares {F : FloatOf} {ts : List Tree} {s : ProblemSections} {l : NameList} {p : Problem}
    {σ : List (Str × Term)} (hs : s.Of (.node ts)) (hl : s.Declares l) (h : problemDef F [] ts = .ok (p, σ)) :
    ∃ reqs init goal metric, optSection s.reqs none problemRequirements = .ok reqs ∧
      s.init.mapM (initEl F (constsOf l)) = .ok init ∧ (goalEnv F).gd s.goal = .ok goal ∧
      problemMetric (optText s%"metric" s.metric) = .ok metric ∧
      ProblemArgsOk ⟨s.name, none, some s.domain, reqs, (constsOf l).map Prod.snd, init, some goal, metric⟩ ∧
      p = Props.problemOf ⟨s.name, none, some s.domain, reqs, (constsOf l).map Prod.snd, init, some goal, metric⟩ := by
  rw [problemDef_sections hs] at h
  obtain ⟨reqs, h1, h⟩ := bind_ok_iff.1 h
  obtain ⟨⟨objs, σo⟩, h2, h⟩ := bind_ok_iff.1 h
  rw [objects_text hl] at h2
  simp only [Except.ok.injEq, Prod.mk.injEq] at h2
  obtain ⟨rfl, rfl⟩ := h2
  obtain ⟨init, h3, h⟩ := bind_ok_iff.1 h
  obtain ⟨goal, h4, h⟩ := bind_ok_iff.1 h
  obtain ⟨metric, h5, h⟩ := bind_ok_iff.1 h
  obtain ⟨p', h6, h⟩ := bind_ok_iff.1 h
  simp only [pure_ok, Except.ok.injEq, Prod.mk.injEq] at h
  obtain ⟨rfl, _⟩ := h
  obtain ⟨h7, h8⟩ := (Props.mkProblem_ok (fun d hd => by cases hd)).1 h6
  exact ⟨reqs, init, goal, metric, h1, h3, h4, h5, h7, h8⟩

theorem problemDef_grow {F : FloatOf} {ts ts' : List Tree} {s s' : ProblemSections} {l l' : NameList} {p : Problem}
    {σ : List (Str × Term)} (hs : s.Of (.node ts)) (hs' : s'.Of (.node ts')) (hl : s.Declares l) (hl' : s'.Declares l')
    (H : AddsTo F s s' l l') (h : problemDef F [] ts = .ok (p, σ)) :
    ∃ p' σ', problemDef F [] ts' = .ok (p', σ') ∧ ProblemContains p' p := by
  obtain ⟨reqs, init, goal, metric, h1, h3, h4, h5, h7, rfl⟩ := problemDef_declares hs hl h
  have ho := constsOf_own hl.2
  have ho' := constsOf_own hl'.2
  obtain ⟨init', g3⟩ := mapM_total (f := initEl F (constsOf l')) (l := s'.init) (fun t ht => (initIn_iff ho').2 (H.facts t ht))
  have hlit : ∀ e ∈ init', Literal e := by
    intro e he
    obtain ⟨t, _, h⟩ := forall₂_right (mapM_ok_iff.1 g3) e he
    exact literal_iff.1 (initEl_literal h)
  have hok : ProblemArgsOk ⟨s.name, none, some s.domain, reqs, (constsOf l').map Prod.snd, init', some goal, metric⟩ :=
    ⟨h7.name, .inr (by simp), (fun n h => h7.domainName n h), (fun _ _ h => nomatch h), (fun _ _ h => nomatch h), hlit,
      (fun _ h => nomatch h)⟩
  have h6 := (Props.mkProblem_ok (fun d hd => by cases hd)).2 ⟨hok, rfl⟩
  refine ⟨Props.problemOf ⟨s.name, none, some s.domain, reqs, (constsOf l').map Prod.snd, init', some goal, metric⟩, constsOf l', ?_, ?_⟩
  · rw [problemDef_sections hs', H.reqs, H.goal, H.metric, H.name, H.domain, h1, ok_bind, objects_text hl', ok_bind]
    simp only
    rw [g3, ok_bind, h4, ok_bind, h5, ok_bind, h6, ok_bind]
    rfl
  · refine ⟨rfl, rfl, rfl, rfl, ?_, ?_, rfl, rfl⟩
    · intro o h
      simp only [Props.problemOf] at h ⊢
      rw [constsOf_dedup hl.2] at h
      rw [constsOf_dedup hl'.2]
      simp only [constsOf, List.map_map, List.mem_map] at h ⊢
      obtain ⟨x, hx, e⟩ := h
      exact ⟨x, H.objects x hx, e⟩
    · intro e he
      simp only [Props.problemOf] at he ⊢
      obtain ⟨t, ht, h⟩ := forall₂_right (mapM_ok_iff.1 h3) e (dedupBy_subset he)
      obtain ⟨e', he', h'⟩ := forall2_mem' (mapM_forall₂.1 g3) t (H.init t ht)
      obtain ⟨e2, h2, hq⟩ := memBy_iff.mp (dedupBy_cover (eq := Expr.pyEq) Expr.pyEq_refl he')
      refine ⟨e2, h2, ?_⟩
      have q := (Expr.pyEq_iff _ _).1 hq
      rw [Expr.pyEq_iff]
      rw [initEl_norm ho ho' h h']
      first | exact q | exact q.symm

end Pddl
