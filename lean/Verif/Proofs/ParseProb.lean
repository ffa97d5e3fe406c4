/-
The parts of a successfully parsed problem.
-/
import Verif.Proofs.Keeps
import Verif.Model.ParseProblem

namespace Pddl
open Spec

/-- What the sections of an accepted problem are. -/
structure ProblemParse (F : FloatOf) (σ : List (Str × Term)) (ts : List Tree) (p : Problem) (σ' : List (Str × Term)) where
  n : Str
  dn : Str
  ts1 : List Tree
  hheader : header s%"problem" ts = .ok (n, .node [.atom (.kw s%"domain"), .atom (.name dn)] :: ts1)
  r1 : Option (List Tree)
  ts2 : List Tree
  htake1 : takeSection s%"requirements" ts1 = (r1, ts2)
  reqs : Option (List Req)
  hreqs : (r1 = none ∧ reqs = none) ∨ ∃ b rs, r1 = some b ∧ parseRequirements b = .ok rs ∧ reqs = some rs
  r2 : Option (List Tree)
  ib : List Tree
  ts4 : List Tree
  htake2 : takeSection s%"objects" ts2 = (r2, .node (.atom (.kw s%"init") :: ib) :: ts4)
  objs : List Term
  hobjs : (r2 = none ∧ objs = [] ∧ σ' = σ) ∨ ∃ b, r2 = some b ∧ problemObjects b = .ok (objs, σ')
  init : List Expr
  hinit : ib.mapM (initEl F σ') = .ok init
  g : Tree
  ts5 : List Tree
  hts4 : ts4 = .node [.atom (.kw s%"goal"), g] :: ts5
  goal : Expr
  hgoal : (goalEnv F).gd g = .ok goal
  metric : Option Metric
  hmetric : problemMetric ts5 = .ok metric
  hproblem : mkProblem { name := n, domain := none, domainName := some dn, reqs := reqs,
                         objects := objs, init := init, goal := some goal, metric := metric } = .ok p

theorem problemDomain_ok {ts rest : List Tree} {dn : Str} (h : problemDomain ts = .ok (dn, rest)) :
    ts = .node [.atom (.kw s%"domain"), .atom (.name dn)] :: rest := by
  unfold problemDomain at h
  split at h
  · rename_i dn' ts' heq
    simp only [pure_ok, Except.ok.injEq, Prod.mk.injEq] at h
    obtain ⟨rfl, rfl⟩ := h
    exact takeSection_some heq
  · simp at h

theorem problemInit_ok {F : FloatOf} {σ : List (Str × Term)} {ts rest : List Tree} {es : List Expr}
    (h : problemInit F σ ts = .ok (es, rest)) :
    ∃ b, ts = .node (.atom (.kw s%"init") :: b) :: rest ∧ b.mapM (initEl F σ) = .ok es := by
  unfold problemInit at h
  split at h
  · rename_i b ts' heq
    obtain ⟨es', h1, h2⟩ := bind_ok_iff.1 h
    simp only [pure_ok, Except.ok.injEq, Prod.mk.injEq] at h2
    obtain ⟨rfl, rfl⟩ := h2
    exact ⟨b, takeSection_some heq, h1⟩
  · simp at h

theorem problemGoal_ok {F : FloatOf} {ts rest : List Tree} {e : Expr}
    (h : problemGoal F ts = .ok (e, rest)) :
    ∃ g, ts = .node [.atom (.kw s%"goal"), g] :: rest ∧ (goalEnv F).gd g = .ok e := by
  unfold problemGoal at h
  split at h
  · rename_i g ts' heq
    obtain ⟨e', h1, h2⟩ := bind_ok_iff.1 h
    simp only [pure_ok, Except.ok.injEq, Prod.mk.injEq] at h2
    obtain ⟨rfl, rfl⟩ := h2
    exact ⟨g, takeSection_some heq, h1⟩
  · simp at h

theorem problemDef_ok {F : FloatOf} {σ : List (Str × Term)} {ts : List Tree} {p : Problem} {σ' : List (Str × Term)}
    (h : problemDef F σ ts = .ok (p, σ')) : Nonempty (ProblemParse F σ ts p σ') := by
  unfold problemDef at h
  obtain ⟨⟨n, ts0⟩, hheader, h1⟩ := bind_ok_iff.1 h
  clear h
  obtain ⟨⟨dn, ts1⟩, hdom, h2⟩ := bind_ok_iff.1 h1
  clear h1
  simp only at h2
  obtain ⟨reqs, hreqs, h3⟩ := bind_ok_iff.1 h2
  clear h2
  obtain ⟨⟨objs, σ1⟩, hobjs, h4⟩ := bind_ok_iff.1 h3
  clear h3
  obtain ⟨⟨init, ts4⟩, hinit, h5⟩ := bind_ok_iff.1 h4
  clear h4
  obtain ⟨⟨goal, ts5⟩, hgoal, h6⟩ := bind_ok_iff.1 h5
  clear h5
  obtain ⟨metric, hmetric, h7⟩ := bind_ok_iff.1 h6
  clear h6
  obtain ⟨p', hp, h8⟩ := bind_ok_iff.1 h7
  clear h7
  simp only [pure_ok, Except.ok.injEq, Prod.mk.injEq] at h8
  obtain ⟨rfl, rfl⟩ := h8
  have hdom := problemDomain_ok hdom
  obtain ⟨ib, hib, hinit⟩ := problemInit_ok hinit
  obtain ⟨g, hg, hgoal⟩ := problemGoal_ok hgoal
  simp only at *
  subst hdom
  refine ⟨⟨n, dn, ts1, hheader, _, _, rfl, reqs, ?_, _, ib, ts4, Prod.ext rfl hib, objs, ?_, init, hinit, g, ts5, hg,
    goal, hgoal, metric, hmetric, hp⟩⟩
  · rcases optSection_ok hreqs with h | ⟨b, h, h'⟩
    · exact .inl h
    · unfold problemRequirements at h'
      obtain ⟨rs, h1, h2⟩ := bind_ok_iff.1 h'
      simp only [pure_ok, Except.ok.injEq] at h2
      exact .inr ⟨b, rs, h, h1, h2.symm⟩
  · rcases optSection_ok hobjs with ⟨h, h'⟩ | h
    · injection h' with h1 h2; exact .inl ⟨h, h1, h2⟩
    · exact .inr h

theorem parseProblem_ok {F : FloatOf} {σ : List (Str × Term)} {t : Str} {p : Problem} {σ' : List (Str × Term)}
    (h : parseProblem F σ t = .ok (p, σ')) :
    ∃ ts, readText t = .ok [.node ts] ∧ Nonempty (ProblemParse F σ ts p σ') := by
  unfold parseProblem at h
  obtain ⟨trees, ht, h⟩ := bind_ok_iff.1 h
  split at h
  · rename_i ts
    exact ⟨ts, ht, problemDef_ok h⟩
  · simp at h

/-- The steps of a parse, put together. -/
theorem ProblemParse.run {F : FloatOf} {σ σ' : List (Str × Term)} {ts : List Tree} {p : Problem}
    (P : ProblemParse F σ ts p σ') : problemDef F σ ts = .ok (p, σ') := by
  have e1 : optSection P.r1 none problemRequirements = .ok P.reqs := by
    rcases P.hreqs with ⟨h, h1⟩ | ⟨b, rs, h, h1, h2⟩
    · rw [h, h1]; rfl
    · rw [h, h2]; simp only [optSection, problemRequirements, h1]; rfl
  have e2 : optSection P.r2 ([], σ) problemObjects = .ok (P.objs, σ') := by
    rcases P.hobjs with ⟨h, h1, h2⟩ | ⟨b, h, h1⟩
    · rw [h, h1, h2]; rfl
    · rw [h]; exact h1
  have e3 : problemDomain (.node [.atom (.kw s%"domain"), .atom (.name P.dn)] :: P.ts1) = .ok (P.dn, P.ts1) := rfl
  have e4 : problemInit F σ' (.node (.atom (.kw s%"init") :: P.ib) :: P.ts4) = .ok (P.init, P.ts4) := by
    have : takeSection s%"init" (.node (.atom (.kw s%"init") :: P.ib) :: P.ts4) = (some P.ib, P.ts4) := rfl
    simp only [problemInit, this, P.hinit]; rfl
  have e5 : problemGoal F P.ts4 = .ok (P.goal, P.ts5) := by
    rw [P.hts4]
    have : takeSection s%"goal" (.node [.atom (.kw s%"goal"), P.g] :: P.ts5) = (some [P.g], P.ts5) := rfl
    simp only [problemGoal, this, P.hgoal]; rfl
  unfold problemDef
  simp only [P.hheader, ok_bind, e3, P.htake1, e1, P.htake2, e2, e4, e5, P.hmetric, P.hproblem, pure_ok]

theorem takeSection_sub {k : Str} {ts rest : List Tree} {b : Option (List Tree)}
    (h : takeSection k ts = (b, rest)) {t : Tree} (ht : t ∈ rest) : t ∈ ts := by
  cases b with
  | none => rw [takeSection_none h]; exact ht
  | some b => rw [takeSection_some h]; exact List.mem_cons_of_mem _ ht

theorem ProblemParse.sub {F σ ts p σ'} (P : ProblemParse F σ ts p σ') {t : Tree}
    (h : t ∈ Tree.node (.atom (.kw s%"init") :: P.ib) :: P.ts4) : t ∈ ts := by
  have h1 := takeSection_sub P.htake1 (takeSection_sub P.htake2 h)
  obtain ⟨w, x, hts, _⟩ := header_ok P.hheader
  rw [hts]
  simp only [List.mem_cons]
  exact .inr (.inr (.inr h1))

theorem ProblemParse.goal_mem {F σ ts p σ'} (P : ProblemParse F σ ts p σ') :
    .node [.atom (.kw s%"goal"), P.g] ∈ ts := P.sub (by rw [P.hts4]; simp)

theorem ProblemParse.init_mem {F σ ts p σ'} (P : ProblemParse F σ ts p σ') :
    .node (.atom (.kw s%"init") :: P.ib) ∈ ts := P.sub (by simp)

theorem mkProblem_fields {a : ProblemArgs} {p : Problem} (h : mkProblem a = .ok p) :
    p.name = a.name ∧ p.domain = a.domain ∧ p.objects = dedupBy Term.pyEq a.objects ∧ p.init = dedupBy Expr.pyEq a.init ∧
    p.goal = a.goal.getD (mkAnd []) ∧ p.metric = a.metric ∧ p.init.all isLiteral = true := by
  unfold mkProblem at h
  obtain ⟨n, h1, h⟩ := bind_ok_iff.1 h
  obtain ⟨dn, _, h⟩ := bind_ok_iff.1 h
  obtain ⟨rs, _, h⟩ := bind_ok_iff.1 h
  obtain ⟨_, h2, h⟩ := bind_ok_iff.1 h
  obtain ⟨_, _, h⟩ := bind_ok_iff.1 h
  simp only [pure_ok, Except.ok.injEq] at h
  subst h
  exact ⟨(parseName_ok.1 h1).1, rfl, rfl, rfl, rfl, rfl, check_ok.1 h2⟩

end Pddl
