/-
C106: an accepted problem uses only what it and its domain declare.
-/
import Verif.Spec.ArgTypes
import Verif.Proofs.WriteBack
import Verif.Props.Problem
import Verif.Props.Parser

namespace Pddl.Props
open Pddl Pddl.Spec

/-- C106. A problem that a new parser read and that fits the domain which a new parser read uses only declared
objects, predicates and functions, with the declared number and types of arguments, and no variables. -/
def C106_full : Prop :=
  ∀ (F : FloatOf) (dtext ptext : Str) (d : Domain) (σ : PState) (pr : Pddl.Problem) (τ : List (Str × Term)),
    parseDomain F .fresh dtext = .ok (d, σ) → parseProblem F [] ptext = .ok (pr, τ) → pr.check d = .ok () →
    (∀ e ∈ pr.init, ProblemUses d pr e) ∧ ProblemUses d pr pr.goal

/-- What a fact that was read looks like. -/
theorem initEl_shape {F : FloatOf} {σ : List (Str × Term)} {t : Tree} {e : Expr} (h : initEl F σ t = .ok e) :
    (∃ p, (e = .pred p ∨ e = .not (.pred p)) ∧ ∀ u ∈ p.terms, ∃ n, initTerm σ n = .ok u) ∨
    ∃ f n, e = .bfun .eq [.nfun f, .num n] ∧ ∀ u ∈ f.terms, ∃ n, u = .const n none := by
  have hatom : ∀ {l : List Tree} {e}, atomicName σ l = .ok e → ∃ p, e = .pred p ∧ ∀ u ∈ p.terms, ∃ n, initTerm σ n = .ok u := by
    intro l e h
    unfold atomicName at h
    split at h
    · split at h
      · simp at h
      · obtain ⟨ts, h1, h2⟩ := bind_ok_iff.1 h
        obtain ⟨q, h3, h4⟩ := bind_ok_iff.1 h2
        simp only [pure_ok, Except.ok.injEq] at h4
        obtain ⟨_, _, rfl⟩ := mkPred_ok.1 h3
        exact ⟨_, h4.symm, mapM_terms (fun n t h => ⟨n, h⟩) h1⟩
    · simp at h
  unfold initEl at h
  split at h
  · split at h
    · obtain ⟨f, h1, h2⟩ := bind_ok_iff.1 h
      obtain ⟨n, h3, h4⟩ := bind_ok_iff.1 h2
      simp only [pure_ok, Except.ok.injEq] at h4
      have he : construct (.fop .eq) [.nfun f, .num n] = .bfun .eq [.nfun f, .num n] := by
        simp [construct, simplOperands, Cls.idempotent, simplLoop, Expr.operandsIf, memBy, Expr.pyEq, Expr.ofCls]
      rw [he] at h4
      refine .inr ⟨f, n, h4.symm, ?_⟩
      unfold basicFunction at h1
      split at h1
      · obtain ⟨_, rfl⟩ := mkNFun_ok.1 h1
        simp
      · split at h1
        · simp at h1
        · obtain ⟨ts, h5, h6⟩ := bind_ok_iff.1 h1
          obtain ⟨_, rfl⟩ := mkNFun_ok.1 h6
          exact mapM_terms (fun n t h => ⟨n, mkConst_const h⟩) h5
      · simp at h1
    · simp at h
  · split at h
    · split at h
      · obtain ⟨a, h1, h2⟩ := bind_ok_iff.1 h
        simp only [pure_ok, Except.ok.injEq] at h2
        obtain ⟨p, rfl, hp⟩ := hatom h1
        exact .inl ⟨p, .inr h2.symm, hp⟩
      · simp at h
    · obtain ⟨p, rfl, hp⟩ := hatom h
      exact .inl ⟨p, .inl rfl, hp⟩
  · simp at h

theorem object_unique {l : List Term} {n : Str} {x y : Option Str} (ha : .const n x ∈ dedupBy Term.pyEq l)
    (hb : .const n y ∈ dedupBy Term.pyEq l) : Term.const n x = .const n y := by
  by_contra hne
  have hs : Std.Symm (fun a b : Term => b.pyEq a = false) := ⟨fun a b h => by
    cases e : a.pyEq b with
    | false => rfl
    | true => rw [Term.pyEq_iff.2 (Term.pyEq_iff.1 e).symm] at h; cases h⟩
  have := (dedupBy_pairwise (eq := Term.pyEq) l).forall ha hb hne
  simp [Term.pyEq] at this

theorem objects_const {F : FloatOf} {ts : List Tree} {pr : Pddl.Problem} {τ : List (Str × Term)}
    (P : ProblemParse F [] ts pr τ) : ∀ o ∈ pr.objects, ∃ n x, o = .const n x := by
  intro o ho
  rw [show pr.objects = dedupBy Term.pyEq P.objs from (mkProblem_fields P.hproblem).2.2.1] at ho
  have ho := dedupBy_subset ho
  rcases P.hobjs with ⟨_, h, _⟩ | ⟨b, _, h⟩
  · rw [h] at ho; cases ho
  · unfold problemObjects at h
    obtain ⟨d, _, h⟩ := bind_ok_iff.1 h
    obtain ⟨cs, h1, h⟩ := bind_ok_iff.1 h
    simp only [pure_ok, Except.ok.injEq, Prod.mk.injEq] at h
    rw [← h.1] at ho
    obtain ⟨q, hq, rfl⟩ := List.mem_map.1 ho
    have hq := dictOf_mem hq
    rw [mkConsts_ok h1] at hq
    obtain ⟨c, _, rfl⟩ := List.mem_map.1 hq
    exact ⟨_, _, rfl⟩

/-- Facts contain no variables, and an argument of a predicate that has the name of an object is this object, with its
types. Other constants of the facts and all terms of the goal have no types. -/
theorem C106_partial {F : FloatOf} {text : Str} {pr : Pddl.Problem} {τ : List (Str × Term)}
    (h : parseProblem F [] text = .ok (pr, τ)) :
    (∀ e ∈ pr.init, freeVars e = []) ∧
    (∀ e ∈ pr.init, ∀ p ∈ predsIn e, ∀ t ∈ p.terms, (t ∈ pr.objects ∨ t.tags = []) ∧
      ∀ o ∈ pr.objects, o.name = t.name → t = o) ∧
    (∀ e ∈ pr.init, ∀ f ∈ funsIn e, ∀ t ∈ f.terms, t.tags = []) ∧
    (∀ t ∈ terms pr.goal, t.tags = []) := by
  obtain ⟨ts, hr, ⟨P⟩⟩ := parseProblem_ok h
  obtain ⟨_, _, hobj, hinit, hgoal, _, _⟩ := mkProblem_fields P.hproblem
  obtain ⟨K, _⟩ := P.knows (by intro n t h; simp [dictGet] at h)
    (fun w hw => readText_words hr (t := .node ts) (by simp) hw)
  have hterm : ∀ {n u}, initTerm τ n = .ok u → ∃ x, u = .const n x ∧ (u ∈ pr.objects ∨ x = none) ∧
      ∀ o ∈ pr.objects, o.name = n → u = o := by
    intro n u hu
    unfold initTerm at hu
    split at hu
    · rename_i t ht
      simp only [pure_ok, Except.ok.injEq] at hu
      subst hu
      obtain ⟨x, rfl⟩ := K.name _ _ ht
      have hin := K.type (.inl rfl) _ _ ht
      refine ⟨x, rfl, .inl hin, ?_⟩
      intro o ho hn
      obtain ⟨m, y, rfl⟩ := objects_const P o ho
      obtain rfl : m = n := hn
      rw [hobj] at hin ho
      exact object_unique hin ho
    · rename_i ht
      refine ⟨none, mkConst_const hu, .inr rfl, ?_⟩
      intro o ho hn
      obtain ⟨m, y, rfl⟩ := objects_const P o ho
      obtain rfl : m = n := hn
      exact absurd ho (K.all (.inl rfl) _ ht y)
  have hshape : ∀ e ∈ pr.init, (∃ p, (e = .pred p ∨ e = .not (.pred p)) ∧ ∀ u ∈ p.terms, ∃ n, initTerm τ n = .ok u) ∨
      ∃ f n, e = .bfun .eq [.nfun f, .num n] ∧ ∀ u ∈ f.terms, ∃ n, u = .const n none := by
    intro e he
    rw [hinit] at he
    obtain ⟨x, _, hx⟩ := mapM_from P.hinit (dedupBy_subset he)
    exact initEl_shape hx
  refine ⟨?_, ?_, ?_, ?_⟩
  · intro e he
    rcases hshape e he with ⟨p, he, hp⟩ | ⟨f, n, rfl, hf⟩
    · have : p.terms.flatMap varOf = [] := by
        rw [List.flatMap_eq_nil_iff]
        intro u hu
        obtain ⟨n, hn⟩ := hp u hu
        obtain ⟨x, rfl, _⟩ := hterm hn
        rfl
      rcases he with rfl | rfl <;> simpa [freeVars] using this
    · have : f.terms.flatMap varOf = [] := by
        rw [List.flatMap_eq_nil_iff]
        intro u hu
        obtain ⟨n, rfl⟩ := hf u hu
        rfl
      simpa [freeVars, freeVarsAll] using this
  · intro e he q hq t ht
    rcases hshape e he with ⟨p, he, hp⟩ | ⟨f, n, rfl, hf⟩
    · have : q = p := by rcases he with rfl | rfl <;> simpa [predsIn] using hq
      subst this
      obtain ⟨n, hn⟩ := hp t ht
      obtain ⟨x, rfl, h1, h2⟩ := hterm hn
      refine ⟨h1.imp id ?_, h2⟩
      rintro rfl
      rfl
    · simp [predsIn] at hq
  · intro e he g hg t ht
    rcases hshape e he with ⟨p, he, hp⟩ | ⟨f, n, rfl, hf⟩
    · rcases he with rfl | rfl <;> simp [funsIn] at hg
    · have : g = f := by simpa [funsIn, funsInAll] using hg
      subst this
      obtain ⟨n, rfl⟩ := hf t ht
      rfl
  · intro t ht
    have hg : pr.goal = P.goal := hgoal
    rw [hg] at ht
    exact ((gd_rel P.hgoal).read (goal_scope F)).untyped t ht

/-- Which problems that were read pass the check: only the name of the domain, the requirements and the types of the
objects count. -/
theorem C106_check {F : FloatOf} {text : Str} {pr : Pddl.Problem} {τ : List (Str × Term)} {d : Domain}
    (hd : ExistsDomain d) (h : parseProblem F [] text = .ok (pr, τ)) :
    pr.check d = .ok () ↔ SameIgnoringCase pr.domainName d.name ∧ (∀ r ∈ pr.reqs, r ∈ d.reqs) ∧
      ∀ t ∈ pr.objects, WellTypedTerm (Declared d.types) d.reqs t :=
  (problemCheck_ok hd).trans (parsed_fits h d)

/-- A domain with two types, one predicate and one function. -/
def declText : Str := s%"(define (domain d) (:requirements :typing :numeric-fluents) (:types t u)
  (:predicates (p ?x - t)) (:functions (f ?x - t)))"

/-- A problem with an object of each type, one fact and a goal. -/
def usesText (fact goal : Str) : Str :=
  s%"(define (problem q) (:domain d) (:objects a - t b - u) (:init " ++ fact ++ s%") (:goal " ++ goal ++ s%"))"

/-- The problem with this fact and goal is accepted for the domain. -/
theorem uses_accepted {fact goal : Str} {e g : Expr}
    (h0 : (match parseDomain (fun _ => none) .fresh declText, parseProblem (fun _ => none) [] (usesText fact goal) with
      | .ok (d, _), .ok (pr, _) => decide (pr.check d = .ok () ∧ pr.init = [e] ∧ pr.goal = g ∧
          pr.objects.map (fun o => (o.name, o.tags)) = [(s%"a", [s%"t"]), (s%"b", [s%"u"])] ∧ d.constants = [] ∧
          d.types = [(s%"t", none), (s%"u", none)] ∧
          d.predicates = [⟨s%"p", [.var ⟨s%"x", [s%"t"]⟩]⟩] ∧
          d.functions.map (fun f => (f.1.name, f.1.terms.length)) = [(s%"f", 1)])
      | _, _ => false) = true) :
    ∃ d σ pr τ, parseDomain (fun _ => none) .fresh declText = .ok (d, σ) ∧
      parseProblem (fun _ => none) [] (usesText fact goal) = .ok (pr, τ) ∧ pr.check d = .ok () ∧
      pr.init = [e] ∧ pr.goal = g ∧
      pr.objects.map (fun o => (o.name, o.tags)) = [(s%"a", [s%"t"]), (s%"b", [s%"u"])] ∧ d.constants = [] ∧
      d.types = [(s%"t", none), (s%"u", none)] ∧
      d.predicates = [⟨s%"p", [.var ⟨s%"x", [s%"t"]⟩]⟩] ∧
      d.functions.map (fun f => (f.1.name, f.1.terms.length)) = [(s%"f", 1)] := by
  cases h1 : parseDomain (fun _ => none) .fresh declText with
  | error e => rw [h1] at h0; cases h0
  | ok r =>
    cases h2 : parseProblem (fun _ => none) [] (usesText fact goal) with
    | error e => rw [h1, h2] at h0; cases h0
    | ok q =>
      rw [h1, h2] at h0
      exact ⟨r.1, r.2, q.1, q.2, rfl, rfl, of_decide_eq_true h0⟩

/-- `(r a)` is accepted though no predicate `r` is declared: C106 is false. -/
theorem C106_fails : ¬ C106_full := by
  intro hf
  obtain ⟨d, σ, pr, τ, h1, h2, h3, hi, hg, ho, hc, ht, hp, hn⟩ := uses_accepted (fact := s%"(r a)") (goal := s%"(p a)")
    (e := .pred ⟨s%"r", [.const s%"a" (some s%"t")]⟩) (g := .pred ⟨s%"p", [.const s%"a" none]⟩) (by decide +kernel)
  obtain ⟨q, hq, e, _⟩ := ((hf _ _ _ _ _ _ _ h1 h2 h3).1 _ (by rw [hi]; exact List.mem_singleton.2 rfl)).preds _
    (List.mem_singleton.2 rfl)
  rw [hp, List.mem_singleton] at hq
  subst hq
  exact absurd e (by decide)

/-- `(p b)` is accepted though `b` has another type. -/
theorem C106_types_fails : ∃ d σ pr τ e p, parseDomain (fun _ => none) .fresh declText = .ok (d, σ) ∧
    parseProblem (fun _ => none) [] (usesText s%"(p b)" s%"(p a)") = .ok (pr, τ) ∧ pr.check d = .ok () ∧
    e ∈ pr.init ∧ p ∈ predsIn e ∧ ¬ FactSuits d pr p := by
  obtain ⟨d, σ, pr, τ, h1, h2, h3, hi, hg, ho, hc, ht, hp, hn⟩ := uses_accepted (fact := s%"(p b)") (goal := s%"(p a)")
    (e := .pred ⟨s%"p", [.const s%"b" (some s%"u")]⟩) (g := .pred ⟨s%"p", [.const s%"a" none]⟩) (by decide +kernel)
  refine ⟨d, σ, pr, τ, _, _, h1, h2, h3, by rw [hi]; exact List.mem_singleton.2 rfl, List.mem_singleton.2 rfl, ?_⟩
  rintro ⟨q, hq, _, hs⟩
  rw [hp, List.mem_singleton] at hq
  subst hq
  rcases hs with _ | ⟨⟨o, hin, hname, hs⟩, _⟩
  rw [hc, List.append_nil] at hin
  have := List.mem_map_of_mem (f := fun o : Term => (o.name, o.tags)) hin
  rw [ho, show o.name = s%"b" from hname] at this
  have htag : o.tags = [s%"u"] := by simpa using this
  rcases hs with hs | ⟨a, ha, b, hb, hab⟩
  · cases hs
  · rw [htag, List.mem_singleton] at ha
    obtain rfl : b = s%"t" := by simpa [Term.tags] using hb
    subst ha
    rcases hab.cases_head with h | ⟨c, ⟨h, _⟩, _⟩
    · exact absurd h (by decide)
    · rw [ht, show List.lookup s%"u" [(s%"t", none), (s%"u", none)] = some (none : Option Str) by decide] at h
      cases h

/-- `(p a a)` and `(p c)` with an undeclared `c` are accepted, the function `g` with `(= (g a) 1)` too, and variables in
goals. -/
theorem C106_more_fails : ∀ x ∈ [(s%"(p a a)", s%"(p a)"), (s%"(p c)", s%"(p a)"), (s%"(= (g a) 1)", s%"(p a)"),
      (s%"(p a)", s%"(p ?x)")],
    ∃ d σ pr τ, parseDomain (fun _ => none) .fresh declText = .ok (d, σ) ∧
      parseProblem (fun _ => none) [] (usesText x.1 x.2) = .ok (pr, τ) ∧ pr.check d = .ok () ∧
      ¬ ((∀ e ∈ pr.init, ProblemUses d pr e) ∧ ProblemUses d pr pr.goal) := by
  intro x hx
  simp only [List.mem_cons, List.not_mem_nil, or_false] at hx
  rcases hx with rfl | rfl | rfl | rfl
  · obtain ⟨d, σ, pr, τ, h1, h2, h3, hi, hg, ho, hc, ht, hp, hn⟩ := uses_accepted (fact := s%"(p a a)") (goal := s%"(p a)")
      (e := .pred ⟨s%"p", [.const s%"a" (some s%"t"), .const s%"a" (some s%"t")]⟩) (g := .pred ⟨s%"p", [.const s%"a" none]⟩)
      (by decide +kernel)
    refine ⟨d, σ, pr, τ, h1, h2, h3, fun hf => ?_⟩
    obtain ⟨q, hq, _, e⟩ := (hf.1 _ (by rw [hi]; exact List.mem_singleton.2 rfl)).preds _ (List.mem_singleton.2 rfl)
    rw [hp, List.mem_singleton] at hq
    subst hq
    exact absurd e (by decide)
  · obtain ⟨d, σ, pr, τ, h1, h2, h3, hi, hg, ho, hc, ht, hp, hn⟩ := uses_accepted (fact := s%"(p c)") (goal := s%"(p a)")
      (e := .pred ⟨s%"p", [.const s%"c" none]⟩) (g := .pred ⟨s%"p", [.const s%"a" none]⟩) (by decide +kernel)
    refine ⟨d, σ, pr, τ, h1, h2, h3, fun hf => ?_⟩
    obtain ⟨o, hin, hname⟩ := (hf.1 _ (by rw [hi]; exact List.mem_singleton.2 rfl)).consts s%"c" none
      ⟨_, List.mem_singleton.2 rfl, List.mem_singleton.2 rfl⟩
    rw [hc, List.append_nil] at hin
    have := List.mem_map_of_mem (f := fun o : Term => (o.name, o.tags)) hin
    rw [ho, hname] at this
    simp at this
  · obtain ⟨d, σ, pr, τ, h1, h2, h3, hi, hg, ho, hc, ht, hp, hn⟩ := uses_accepted (fact := s%"(= (g a) 1)") (goal := s%"(p a)")
      (e := .bfun .eq [.nfun ⟨s%"g", [.const s%"a" none]⟩, .num (.int 1)]) (g := .pred ⟨s%"p", [.const s%"a" none]⟩)
      (by decide +kernel)
    refine ⟨d, σ, pr, τ, h1, h2, h3, fun hf => ?_⟩
    obtain ⟨q, hq, e, _⟩ := (hf.1 _ (by rw [hi]; exact List.mem_singleton.2 rfl)).funs ⟨s%"g", [.const s%"a" none]⟩
      (by simp [funsIn, funsInAll])
    have := List.mem_map_of_mem (f := fun p : NFun × Option Str => (p.1.name, p.1.terms.length)) hq
    rw [hn, e] at this
    simp at this
  · obtain ⟨d, σ, pr, τ, h1, h2, h3, hi, hg, ho, hc, ht, hp, hn⟩ := uses_accepted (fact := s%"(p a)") (goal := s%"(p ?x)")
      (e := .pred ⟨s%"p", [.const s%"a" (some s%"t")]⟩) (g := .pred ⟨s%"p", [.var ⟨s%"x", []⟩]⟩) (by decide +kernel)
    refine ⟨d, σ, pr, τ, h1, h2, h3, fun hf => ?_⟩
    have := hf.2.vars
    rw [hg] at this
    simp [freeVars, varOf] at this

/-- The hypotheses of `C106_partial` and `C106_check` hold, and the fact has the type of the object. -/
example : ∃ d σ pr τ, parseDomain (fun _ => none) .fresh declText = .ok (d, σ) ∧
    parseProblem (fun _ => none) [] (usesText s%"(p a)" s%"(p a)") = .ok (pr, τ) ∧ pr.check d = .ok () ∧
    pr.init = [.pred ⟨s%"p", [.const s%"a" (some s%"t")]⟩] := by
  obtain ⟨d, σ, pr, τ, h1, h2, h3, hi, -⟩ := uses_accepted (fact := s%"(p a)") (goal := s%"(p a)")
    (e := .pred ⟨s%"p", [.const s%"a" (some s%"t")]⟩) (g := .pred ⟨s%"p", [.const s%"a" none]⟩) (by decide +kernel)
  exact ⟨d, σ, pr, τ, h1, h2, h3, hi⟩

end Pddl.Props
