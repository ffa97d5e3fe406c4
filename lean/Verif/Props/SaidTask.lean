/-
C116: the texts of a domain, a problem and a plan say what the objects say.
-/
import Verif.Proofs.SaidTask
import Verif.Props.DomainRoundTrip

namespace Pddl.Props
open Spec Spec.Grammar

/-- The full claim: the texts of a domain, a problem and a plan are a task with the same solutions. -/
def C116_full : Prop := ∀ (F : FloatOf) (d : Domain) (p : Pddl.Problem) (plan : Plan) (dtext : Str), BuiltDomain d → BuiltProblem p →
  p.domain = none → SaidPlan plan → d.str = .ok dtext →
  ∃ ts t s us, Brackets (lex dtext) [.node ts] ∧ Brackets (lex p.str) [t] ∧ s.Of t ∧ Brackets (lex plan.str) us ∧
    ∀ (D : Type) (I : Interp D) lit ρ, LitOk lit F → (TaskSolves ρ d p plan I ↔ TextSolves lit ts s us ρ I)

/-- The texts of a domain and a problem, and what they say about any plan. -/
theorem task_text {F : FloatOf} {d : Domain} {p : Pddl.Problem} (hb : BuiltDomain d) (hd : SaidDomain F d)
    (hp : BuiltProblem p) (hq : SaidProblem F p) :
    ∃ dtext ts t s, d.str = .ok dtext ∧ Brackets (lex dtext) [.node ts] ∧ Brackets (lex p.str) [t] ∧ s.Of t ∧
      (∀ plan, SaidPlan plan → Brackets (lex plan.str) (plan.steps.map stepTree) ∧
        ∀ (D : Type) (I : Interp D) lit ρ, LitOk lit F → (TaskSolves ρ d p plan I ↔ TextSolves lit ts s (plan.steps.map stepTree) ρ I) ∧
          (TaskMaySolve ρ d p plan I ↔ TextMaySolve lit ts s (plan.steps.map stepTree) ρ I)) ∧
      (p.metric = none ↔ s.metric = none) ∧
      ∀ m, p.metric = some m → ∃ b u, s.metric = some b ∧ WrittenMetric m.max b u ∧
        ∀ plan, SaidPlan plan → ∀ (D : Type) (I : Interp D) lit ρ v, LitOk lit F →
          (TaskSolvesFor lit ρ d p m plan I v ↔ TextSolvesFor lit ts s u (plan.steps.map stepTree) ρ I v) := by
  have hfull : ∀ a ∈ d.actions, a.pre ≠ none ∧ a.eff ≠ none := by
    obtain ⟨a, ha, hmk⟩ := hb
    have hc := checked_of_mk ha.types hmk
    exact fun x hx => ⟨(hc.actions x hx).1, (hc.actions x hx).2.1⟩
  obtain ⟨dtext, ts, h1, h2, h3⟩ := domain_text hb hd
  obtain ⟨t, s, k1, k2, k3, k4, k5⟩ := problem_text hp hq
  have hruns : ∀ plan, SaidPlan plan → ∀ (D : Type) lit (ρ : Str → D), LitOk lit F → ∀ I J, StepByStep (Performs d ρ) plan.steps I J ↔
      TextRuns lit ts ρ (plan.steps.map stepTree) I J := fun plan hl D lit ρ hlit I J =>
    stepByStep_runs fun st hst I J => performs_iff hd hfull h3 (hl st hst).2 hlit
  have hmay : ∀ plan, SaidPlan plan → ∀ (D : Type) lit (ρ : Str → D), LitOk lit F → ∀ I J, StepByStep (MayPerform d ρ) plan.steps I J ↔
      TextMayRun lit ts ρ (plan.steps.map stepTree) I J := fun plan hl D lit ρ hlit I J =>
    stepByStep_mayRun fun st hst I J => mayPerform_iff hd hfull h3 (hl st hst).2 hlit
  have hstart : ∀ (D : Type) lit (ρ : Str → D), LitOk lit F → ∀ I, StartsIn ρ p.init I ↔ TextStarts lit s.init I := fun D lit ρ hlit I =>
    starts_iff (T := False) (objs := []) (fun e he => ⟨e.tree, (k3 _).2 ⟨e, he, rfl⟩, init_written (hq.init e he)⟩)
      (fun u hu => by obtain ⟨e, he, rfl⟩ := (k3 u).1 hu; exact ⟨e, he, init_written (hq.init e he)⟩) hlit ρ I
  have hgoal : ∀ (D : Type) lit (ρ : Str → D), LitOk lit F → ∀ J, holds J p.goal ρ ↔ treeHolds J lit s.goal ρ := fun D lit ρ hlit J => by
    rw [k4]; exact hq.goal.says J lit hlit ρ
  refine ⟨dtext, ts, t, s, h1, readText_brackets.1 h2, readText_brackets.1 k1, k2, ?_, ?_, ?_⟩
  · refine fun plan hl => ⟨readText_brackets.1 (plan_text hl), ?_⟩
    intro D I lit ρ hlit
    unfold TaskSolves TextSolves TaskMaySolve TextMaySolve
    simp only [hruns plan hl D lit ρ hlit, hmay plan hl D lit ρ hlit, hstart D lit ρ hlit, hgoal D lit ρ hlit, and_self]
  · rw [k5]; simp
  · intro m hm
    rw [hm] at k5
    refine ⟨_, m.expr.tree, k5, ?_, ?_⟩
    · unfold WrittenMetric Metric.optimization
      cases hx : m.max
      · simp only [hx, Bool.false_eq_true, if_false]; exact .word _
      · simp only [hx, if_true]; exact .word _
    · intro plan hl D I lit ρ v hlit
      unfold TaskSolvesFor TextSolvesFor
      simp only [hruns plan hl D lit ρ hlit, hstart D lit ρ hlit, hgoal D lit ρ hlit, (hq.metric m hm).value]

/-- C116, for formulas as in C115, parameters with at most one type, ground initial facts and numbers that the grammar writes: from
every state, the printed plan solves the printed problem in the printed domain exactly if the plan solves the problem; with
choices it may solve it exactly if the plan may; and it costs what the plan costs. -/
theorem C116_partial {F : FloatOf} {d : Domain} {p : Pddl.Problem} {plan : Plan} (hb : BuiltDomain d) (hd : SaidDomain F d)
    (hp : BuiltProblem p) (hq : SaidProblem F p) (hl : SaidPlan plan) :
    ∃ dtext ts t s us, d.str = .ok dtext ∧ Brackets (lex dtext) [.node ts] ∧ Brackets (lex p.str) [t] ∧ s.Of t ∧
      Brackets (lex plan.str) us ∧
      (∀ (D : Type) (I : Interp D) lit ρ, LitOk lit F → (TaskSolves ρ d p plan I ↔ TextSolves lit ts s us ρ I) ∧
        (TaskMaySolve ρ d p plan I ↔ TextMaySolve lit ts s us ρ I)) ∧
      (p.metric = none ↔ s.metric = none) ∧
      ∀ m, p.metric = some m → ∃ b u, s.metric = some b ∧ WrittenMetric m.max b u ∧
        ∀ (D : Type) (I : Interp D) lit ρ v, LitOk lit F →
          (TaskSolvesFor lit ρ d p m plan I v ↔ TextSolvesFor lit ts s u us ρ I v) := by
  obtain ⟨dtext, ts, t, s, h1, h2, h3, h4, h5, h6, h7⟩ := task_text hb hd hp hq
  refine ⟨dtext, ts, t, s, _, h1, h2, h3, h4, (h5 plan hl).1, (h5 plan hl).2, h6, fun m hm => ?_⟩
  obtain ⟨b, u, k1, k2, k3⟩ := h7 m hm
  exact ⟨b, u, k1, k2, k3 plan hl⟩

/-! ### What is false -/

/-- The domain without anything. -/
def bareArgs : DomainArgs := { name := s%"d" }

theorem bare_ok : ∃ d, mkDomain bareArgs = .ok d ∧ BuiltDomain d ∧ ∃ text, d.str = .ok text := by
  have hd : (match mkDomain bareArgs with | .ok d => (match d.str with | .ok _ => true | .error _ => false) | .error _ => false) = true := by
    decide +kernel
  have hb : BuiltDomainArgs bareArgs := ⟨by simp [IsDict, bareArgs], by simp [bareArgs], by simp [IsFunDict, bareArgs], by simp [bareArgs],
    by simp [bareArgs], by simp [bareArgs], by simp [bareArgs]⟩
  cases h : mkDomain bareArgs with
  | error e => rw [h] at hd; simp at hd
  | ok d =>
    rw [h] at hd
    cases ht : d.str with
    | error e => simp [ht] at hd
    | ok text => exact ⟨d, rfl, ⟨_, hb, h⟩, text, ht⟩

/-- A problem that starts with `f` at `-1` and has nothing to do. -/
def debtArgs : ProblemArgs where
  name := s%"p"
  domainName := some s%"d"
  init := [.bfun .eq [.nfun ⟨s%"f", []⟩, .num (.int (-1))]]

/-- The text of the start is `(= (f) -1)`, which gives `f` no value. -/
theorem C116_fails : ¬ C116_full := by
  intro hfull
  obtain ⟨d, hmk, hbd, dtext, hstr⟩ := bare_ok
  have hp : (match mkProblem debtArgs with | .ok p => decide (p.domain.isNone = true ∧ p.init = debtArgs.init ∧ p.goal = .bin .and [] ∧
    p.str = s%"(define (problem p)\n    (:domain d)\n    (:init (= (f) -1))\n    (:goal (and ))\n)") | .error _ => false) = true := by
    decide +kernel
  cases h : mkProblem debtArgs with
  | error e => rw [h] at hp; simp at hp
  | ok p =>
    rw [h] at hp
    simp only [decide_eq_true_eq] at hp
    obtain ⟨h1, h2, h3, h4⟩ := hp
    have hbp : BuiltProblem p := by
      refine ⟨debtArgs, ⟨?_, by simp [debtArgs], by simp [debtArgs]⟩, h⟩
      intro e he
      rw [List.mem_singleton.1 he]
      exact built_fop (by decide +kernel) (.nfun (n := s%"f") (ts := []) (by decide +kernel)) (.num _)
    obtain ⟨ts, t, s, us, _, k2, k3, _, k5⟩ := hfull (fun _ => none) d p ⟨[]⟩ dtext hbd hbp (by simpa using h1) (by simp [SaidPlan]) hstr
    have hlit : LitOk (fun s => (numLiteral (fun _ => none) s).toOption.bind numVal) (fun _ => none) := by
      intro s n h; simp [h, Except.toOption]
    let I : Interp Unit := ⟨fun _ => (), fun _ _ => True, fun _ _ => False, fun f ds => if f = s%"f" ∧ ds = [] then some (-1) else none⟩
    have hs : TaskSolves (fun _ => ()) d p ⟨[]⟩ I := by
      refine ⟨⟨?_, ?_, ?_, ?_⟩, I, .nil, by rw [h3]; simp [holds, holdsAll]⟩
      · intro n ds; rw [h2]; simp [I, debtArgs]
      · intro q hq; rw [h2] at hq; simp [debtArgs] at hq
      · intro f v hv
        rw [h2] at hv
        simp only [debtArgs, List.mem_singleton, Expr.bfun.injEq, List.cons.injEq, Expr.nfun.injEq, Expr.num.injEq, true_and, and_true] at hv
        obtain ⟨rfl, rfl⟩ := hv
        simp [I, numVal]
      · intro n ds hn
        by_cases hc : n = s%"f" ∧ ds = []
        · obtain ⟨rfl, rfl⟩ := hc
          exact ⟨[], .int (-1), by rw [h2]; simp [debtArgs], rfl⟩
        · simp only [I, if_neg hc] at hn
          exact absurd rfl hn
    obtain ⟨⟨_, _, _, hother⟩, _⟩ := (k5 Unit I _ (fun _ => ()) hlit).1 hs
    obtain ⟨u, ns, w, hin, _, _⟩ := hother s%"f" [] (by simp [I])
    rw [h4] at k2
    have k2 := readText_brackets.2 k2
    rw [show readText s%"(define (problem p)\n    (:domain d)\n    (:init (= (f) -1))\n    (:goal (and ))\n)" =
      .ok [.node [.atom (.name s%"define"), .node [.atom (.name s%"problem"), .atom (.name s%"p")],
        .node [.atom (.kw s%"domain"), .atom (.name s%"d")],
        .node [.atom (.kw s%"init"), .node [.atom .eq, .node [.atom (.name s%"f")], .atom .minus, .atom (.num s%"1")]],
        .node [.atom (.kw s%"goal"), .node [.atom (.name s%"and")]]]] by decide +kernel] at k2
    simp only [Except.ok.injEq, List.cons.injEq, and_true] at k2
    subst k2
    obtain ⟨_, _, e⟩ := k3
    cases hr : s.reqs <;> cases ho : s.objects <;>
      simp [hr, ho, optText, section_, word] at e
    rw [← e.2.2.1] at hin
    simp at hin

/-! ### A task that meets the hypotheses -/

/-- `(p t)` -/
def tokenOf (t : Term) : Expr := .pred ⟨s%"p", [t]⟩

/-- The precondition `(forall (?y) (or (p ?x) (not (p ?y))))`. -/
def printPre : Expr := .quant .all [⟨s%"y", []⟩] (.bin .or [tokenOf (.var ⟨s%"x", []⟩), .not (tokenOf (.var ⟨s%"y", []⟩))])

/-- The effect `(and (not (p ?x)) (when (p ?x) (increase (total-cost) 2)))`. -/
def printEff : Expr := .bin .and [.not (tokenOf (.var ⟨s%"x", []⟩)),
  .when (tokenOf (.var ⟨s%"x", []⟩)) (.bfun .increase [.nfun ⟨s%"total-cost", []⟩, .num (.int 2)])]

/-- A domain with one action. -/
def printArgs : DomainArgs where
  name := s%"d"
  reqs := [.actionCosts, .fluents]
  predicates := [⟨s%"p", [.var ⟨s%"x", []⟩]⟩]
  functions := [(⟨s%"total-cost", []⟩, none)]
  actions := [⟨s%"go", [.var ⟨s%"x", []⟩], some printPre, some printEff⟩]

/-- A problem of the domain. -/
def printTask : ProblemArgs where
  name := s%"q"
  domainName := some s%"d"
  objects := [.const s%"a" none]
  init := [tokenOf (.const s%"a" none), .bfun .eq [.nfun ⟨s%"total-cost", []⟩, .num (.int 0)]]
  goal := some (.not (tokenOf (.const s%"a" none)))
  metric := some ⟨.nfun ⟨s%"total-cost", []⟩, false⟩

theorem printPre_ok : Built printPre ∧ SaidCond (fun _ => none) printPre := by
  have hb : ∀ n ∈ [s%"x", s%"y"], Built (tokenOf (.var ⟨n, []⟩)) := by
    intro n hn
    have : ∀ n ∈ [s%"x", s%"y"], mkPred s%"p" [.var ⟨n, []⟩] = .ok ⟨s%"p", [.var ⟨n, []⟩]⟩ := by decide +kernel
    exact .pred (this n hn)
  have hs : ∀ n ∈ [s%"x", s%"y"], SaidCond (fun _ => none) (tokenOf (.var ⟨n, []⟩)) := by
    intro n hn
    have : ∀ n ∈ [s%"x", s%"y"], ValidName n := by decide +kernel
    exact .pred (show ValidName s%"p" by decide +kernel) (by simpa [Term.name] using this n hn)
  constructor
  · have e : printPre = mkQuant .all (construct (.bop .or) [tokenOf (.var ⟨s%"x", []⟩), .not (tokenOf (.var ⟨s%"y", []⟩))]) [⟨s%"y", []⟩] := by
      decide +kernel
    rw [e]
    refine .quant _ _ (.op _ ?_)
    simp only [List.forall_mem_cons, List.not_mem_nil, false_imp_iff, implies_true, and_true]
    exact ⟨hb _ (by simp), .not (hb _ (by simp))⟩
  · refine .quant ⟨by decide +kernel, by simp, by simp⟩ (.or ?_)
    simp only [List.forall_mem_cons, List.not_mem_nil, false_imp_iff, implies_true, and_true]
    exact ⟨hs _ (by simp), .not (hs _ (by simp))⟩

theorem printEff_ok : Built printEff ∧ SaidEff (fun _ => none) printEff := by
  have hb : Built (tokenOf (.var ⟨s%"x", []⟩)) := .pred (n := s%"p") (ts := [.var ⟨s%"x", []⟩]) (by decide +kernel)
  constructor
  · refine built_and (by decide +kernel) ?_
    simp only [List.forall_mem_cons, List.not_mem_nil, false_imp_iff, implies_true, and_true]
    exact ⟨.not hb, .when hb (built_fop (by decide +kernel) (.nfun (n := s%"total-cost") (ts := []) (by decide +kernel)) (.num _))⟩
  · refine .and ?_
    simp only [List.forall_mem_cons, List.not_mem_nil, false_imp_iff, implies_true, and_true]
    exact ⟨.not (by decide +kernel) (by decide +kernel), .when (.pred (by decide +kernel) (by decide +kernel))
      (.update trivial (.inr rfl) (by simp) (.num (.int 2)))⟩

example : ∃ d p, mkDomain printArgs = .ok d ∧ BuiltDomain d ∧ SaidDomain (fun _ => none) d ∧ mkProblem printTask = .ok p ∧ BuiltProblem p ∧
    SaidProblem (fun _ => none) p ∧ SaidPlan ⟨[(s%"go", [.const s%"a" none])]⟩ := by
  have hd : (match mkDomain printArgs with | .ok _ => true | .error _ => false) = true := by decide +kernel
  have hp : (match mkProblem printTask with | .ok _ => true | .error _ => false) = true := by decide +kernel
  have hx : ValidName s%"x" := by decide +kernel
  have ha : ValidName s%"a" := by decide +kernel
  have ht : Built (tokenOf (.const s%"a" none)) := .pred (n := s%"p") (ts := [.const s%"a" none]) (by decide +kernel)
  have hc : Built (.nfun ⟨s%"total-cost", []⟩) := .nfun (n := s%"total-cost") (ts := []) (by decide +kernel)
  have hb : BuiltDomainArgs printArgs := by
    refine ⟨by simp [IsDict, printArgs], ?_, by unfold IsFunDict; decide +kernel, ?_, ?_, by simp [printArgs], by decide +kernel⟩
    · intro p hp
      rw [List.mem_singleton.1 hp]
      exact ⟨s%"p", [.var ⟨s%"x", []⟩], by decide +kernel⟩
    · intro p hp
      rw [List.mem_singleton.1 hp]
      exact ⟨s%"total-cost", [], by decide +kernel⟩
    · intro x hx
      rw [List.mem_singleton.1 hx]
      exact ⟨printPre_ok.1, printEff_ok.1, ⟨_, (by decide +kernel : parseName s%"go" = .ok s%"go")⟩⟩
  cases h : mkDomain printArgs with
  | error e => rw [h] at hd; simp at hd
  | ok d =>
  cases h' : mkProblem printTask with
  | error e => rw [h'] at hp; simp at hp
  | ok p =>
    obtain ⟨_, _, _, _, _, _, _, _, hd⟩ := (mkDomain_ok hb.types).1 h
    have e1 : d.reqs = printArgs.reqs := by rw [hd]; decide +kernel
    have e2 : d.types = [] := by rw [hd]; decide +kernel
    have e3 : d.constants = [] := by rw [hd]; decide +kernel
    have e4 : d.predicates = printArgs.predicates := by rw [hd]; decide +kernel
    have e5 : d.functions = printArgs.functions := by rw [hd]; decide +kernel
    have e6 : d.actions = printArgs.actions := by rw [hd]; decide +kernel
    have e7 : d.derived = [] := by rw [hd]; decide +kernel
    have hone : DeclVars [⟨s%"x", []⟩] := by
      refine ⟨by simpa using hx, by simp, by simp, ?_⟩
      intro v hv w hw _
      rw [List.mem_singleton.1 hv, List.mem_singleton.1 hw]
      exact fun _ => Iff.rfl
    obtain ⟨_, k2, k3, k4, k5, k6, _⟩ := mkProblem_fields h'
    have er := mkProblem_reqs h' rfl
    rw [show dedupBy Term.pyEq printTask.objects = printTask.objects by decide +kernel] at k3
    rw [show dedupBy Expr.pyEq printTask.init = printTask.init by decide +kernel] at k4
    refine ⟨d, p, rfl, ⟨printArgs, hb, h⟩, ⟨?_, ⟨?_, ?_, ?_⟩, ?_, ?_, ?_, ?_, ?_⟩, rfl, ⟨printTask, ⟨?_, ?_, ?_⟩, h'⟩,
      ⟨k2, ?_, ?_, ?_, ?_, ?_⟩, ?_⟩
    · rw [e1]; decide
    · simp [e2]
    · simp [e2]
    · simp [e2]
    · simp [e3]
    · intro q hq
      rw [e4] at hq
      rw [List.mem_singleton.1 hq]
      exact ⟨_, rfl, hone⟩
    · intro q hq
      rw [e5] at hq
      rw [List.mem_singleton.1 hq]
      exact ⟨⟨[], rfl, ⟨by simp, by simp, by simp, by simp⟩, by simp⟩, fun _ => rfl, .inl rfl⟩
    · simp [e7]
    · intro q hq
      rw [e6] at hq
      rw [List.mem_singleton.1 hq]
      refine ⟨⟨[⟨s%"x", []⟩], rfl, ?_⟩, ?_, ?_⟩
      · constructor <;> simp [hx]
      · rintro _ ⟨rfl⟩; exact printPre_ok.2
      · rintro _ ⟨rfl⟩; exact printEff_ok.2
    · simp only [printTask, List.forall_mem_cons, List.not_mem_nil, false_imp_iff, implies_true, and_true]
      exact ⟨ht, built_fop (by decide +kernel) hc (.num _)⟩
    · rintro _ ⟨rfl⟩; exact .not ht
    · rintro _ ⟨rfl⟩; exact hc
    · unfold Problem.reqs
      rw [k2, er]
      decide +kernel
    · rw [k3]
      intro o ho
      rw [List.mem_singleton.1 ho]
      exact ⟨ha, by simp⟩
    · rw [k4]
      simp only [printTask, List.forall_mem_cons, List.not_mem_nil, false_imp_iff, implies_true, and_true]
      exact ⟨.pred (by simpa [IsConstant] using ha), .value (by simp) (.int 0)⟩
    · rw [k5]
      exact .not (.pred (by decide +kernel) (by simpa [Term.name] using ha))
    · intro m hm
      rw [k6] at hm
      cases hm
      exact .fn (.inr rfl) (by simp)
    · intro st hst
      rw [List.mem_singleton.1 hst]
      exact ⟨(show ValidName s%"go" by decide +kernel).1, by simpa [IsConstant] using ha⟩

end Pddl.Props
