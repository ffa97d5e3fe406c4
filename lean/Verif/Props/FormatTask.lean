/-
C118: formatting a task keeps its solutions.
-/
import Verif.Proofs.OutcomeCheck
import Verif.Proofs.FormatTask
import Verif.Props.SaidTask
import Verif.Props.WriteBack
import Verif.Props.Execute
import Verif.Props.Cost
import Verif.Proofs.FormatExact
import Verif.Props.ReadMetric

namespace Pddl.Props
open Spec Spec.Grammar

/-- The full claim. Texts of a domain, a problem and a plan are read, and what is read is written: the plan solves the task
of the texts exactly if the written plan solves the written task. -/
def C118_full : Prop := ∀ (F : FloatOf) (dt pt lt : Str) (d : Domain) (p : Pddl.Problem) (plan : Plan) (σ : PState) (τ : List (Str × Term))
  (dtext : Str), parseDomain F .fresh dt = .ok (d, σ) → parseProblem F [] pt = .ok (p, τ) → parsePlan lt = .ok plan → d.str = .ok dtext →
  ∃ ts t s us ts' t' s' us', Brackets (lex dt) [.node ts] ∧ Brackets (lex pt) [t] ∧ s.Of t ∧ Brackets (lex lt) us ∧
    Brackets (lex dtext) [.node ts'] ∧ Brackets (lex p.str) [t'] ∧ s'.Of t' ∧ Brackets (lex plan.str) us' ∧
    ∀ (D : Type) (I : Interp D) lit ρ, LitOk lit F → (TextSolves lit ts s us ρ I ↔ TextSolves lit ts' s' us' ρ I)

/-- Reading alone, by any parser: the plan solves the task that was read exactly if it solves the task of the texts. Actions
are not instantiated, so conditional effects and quantifiers that bind a parameter again are allowed, and so are two actions
with the same name. -/
theorem C118_read_partial {F : FloatOf} {σ : PState} {dt : Str} {d : Domain} {σ' : PState} {τ : List (Str × Term)} {pt : Str}
    {p : Pddl.Problem} {τ' : List (Str × Term)} {lt : Str} {plan : Plan} (hσ : ParserState F σ) (hτ : OwnNames τ)
    (hd : parseDomain F σ dt = .ok (d, σ')) (hp : parseProblem F τ pt = .ok (p, τ')) (hl : parsePlan lt = .ok plan) :
    ∃ ts t s us, Brackets (lex dt) [.node ts] ∧ Brackets (lex pt) [t] ∧ s.Of t ∧ Brackets (lex lt) us ∧
      (PlainSchemas F ts → KeepsOperands (goalEnv F) s.goal → ∀ (D : Type) (I : Interp D) lit ρ, LitOk lit F →
        (TaskSolves ρ d p plan I ↔ TextSolves lit ts s us ρ I)) := by
  obtain ⟨u, q, hu, ⟨h, hk, rfl⟩, hw⟩ := C57_partial hσ hd
  obtain ⟨t, s, ht, hs, hv⟩ := C58_partial hτ hp
  obtain ⟨us, hus, hsteps, hvalid⟩ := C59_steps.1 hl
  refine ⟨_, t, s, us, hu, ht, hs, hus, ?_⟩
  intro hpl hgoal D I lit ρ hlit
  unfold TaskSolves TextSolves
  rw [starts_iff hv.init hv.allInit hlit ρ I]
  simp only [read_steps ⟨h, hk, rfl⟩ hw hpl hsteps hvalid hlit, hv.goal hgoal D _ lit ρ hlit]

/-- Plans that are read can be said. -/
theorem parsedPlan_said {lt : Str} {plan : Plan} (hl : parsePlan lt = .ok plan) : SaidPlan plan := by
  obtain ⟨us', hus, hsteps, hvalid⟩ := C59_steps.1 hl
  intro st hst
  obtain ⟨u, hu, ns, rfl, hns⟩ := zipped_right hsteps hst
  refine ⟨(nameRegex_iff _).1 (readText_words (readText_brackets.2 hus) hu (.node List.mem_cons_self .refl)), fun c hc => ?_⟩
  have := hvalid st hst c hc
  rw [hns] at hc
  obtain ⟨m, _, rfl⟩ := List.mem_map.1 hc
  exact this

/-- C118 for texts without the obstacles of C42 and C43, whose actions have different parameters, no precondition `()` and no
choices, and with operands that the parser keeps. Missing: the rest, of which it is false. -/
theorem C118_partial {F : FloatOf} {dt pt lt : Str} {d : Domain} {p : Pddl.Problem} {plan : Plan} {σ : PState} {τ : List (Str × Term)}
    (hd : parseDomain F .fresh dt = .ok (d, σ)) (hp : parseProblem F [] pt = .ok (p, τ)) (hl : parsePlan lt = .ok plan)
    (ho : DerivedFirst dt) (hnd : DomainNoObstacle F d) (hnp : ProblemNoObstacle F p) :
    ∃ dtext ts t s us ts' t' s' us', d.str = .ok dtext ∧ Brackets (lex dt) [.node ts] ∧ Brackets (lex pt) [t] ∧ s.Of t ∧
      Brackets (lex lt) us ∧ Brackets (lex dtext) [.node ts'] ∧ Brackets (lex p.str) [t'] ∧ s'.Of t' ∧ Brackets (lex plan.str) us' ∧
      (PlainSchemas F ts → KeepsOperands (goalEnv F) s.goal → ∀ (D : Type) (I : Interp D) lit ρ, LitOk lit F →
        (TextSolves lit ts s us ρ I ↔ TextSolves lit ts' s' us' ρ I)) := by
  obtain ⟨hb, hpr⟩ := domain_reread hd ho hnd
  obtain ⟨hb', hpr', _⟩ := problem_reread C58_parser.1 hp hnp
  obtain ⟨ts, t, s, us, h1, h2, h3, h4, h5⟩ := C118_read_partial .fresh C58_parser.1 hd hp hl
  obtain ⟨dtext, ts', t', s', us', k0, k1, k2, k3, k4, k5, _⟩ := C116_partial hb (hpr.said hb) hb' (hpr'.said hb') (parsedPlan_said hl)
  refine ⟨dtext, ts, t, s, us, ts', t', s', us', k0, h1, h2, h3, h4, k1, k2, k3, k4, ?_⟩
  intro hpl hg D I lit ρ hlit
  rw [← h5 hpl hg D I lit ρ hlit, (k5 D I lit ρ hlit).1]

/-- Formatting keeps the costs of the solutions, if the parser keeps the operands of the metric too, and whether the metric is
to be maximized. -/
theorem C118_cost_partial {F : FloatOf} {dt pt lt : Str} {d : Domain} {p : Pddl.Problem} {plan : Plan} {σ : PState} {τ : List (Str × Term)}
    {m : Pddl.Metric} (hd : parseDomain F .fresh dt = .ok (d, σ)) (hp : parseProblem F [] pt = .ok (p, τ)) (hl : parsePlan lt = .ok plan)
    (ho : DerivedFirst dt) (hnd : DomainNoObstacle F d) (hnp : ProblemNoObstacle F p) (hm : p.metric = some m) :
    ∃ dtext ts t s us b u ts' t' s' us' b' u', d.str = .ok dtext ∧ Brackets (lex dt) [.node ts] ∧ Brackets (lex pt) [t] ∧ s.Of t ∧
      Brackets (lex lt) us ∧ s.metric = some b ∧ WrittenMetric m.max b u ∧
      Brackets (lex dtext) [.node ts'] ∧ Brackets (lex p.str) [t'] ∧ s'.Of t' ∧ Brackets (lex plan.str) us' ∧ s'.metric = some b' ∧
      WrittenMetric m.max b' u' ∧
      (PlainSchemas F ts → KeepsOperands (goalEnv F) s.goal → KeepsMetric u → ∀ (D : Type) (I : Interp D) lit ρ v, LitOk lit F →
        (TextSolvesFor lit ts s u us ρ I v ↔ TextSolvesFor lit ts' s' u' us' ρ I v)) := by
  obtain ⟨hb, hpr⟩ := domain_reread hd ho hnd
  obtain ⟨hb', hpr', _⟩ := problem_reread C58_parser.1 hp hnp
  obtain ⟨x, q, hx, ⟨h, hk, rfl⟩, hw⟩ := C57_partial .fresh hd
  obtain ⟨t, s, b, u, _, _, ht, hs, hv, hmb, hmu, he⟩ := metric_sections C58_parser.1 hp hm
  obtain ⟨us, hus, hsteps, hvalid⟩ := C59_steps.1 hl
  obtain ⟨dtext, ts', t', s', us', k0, k1, k2, k3, k4, _, _, k7⟩ := C116_partial hb (hpr.said hb) hb' (hpr'.said hb') (parsedPlan_said hl)
  obtain ⟨b', u', k8, k9, k10⟩ := k7 m hm
  refine ⟨dtext, _, t, s, us, b, u, ts', t', s', us', b', u', k0, hx, ht, hs, hus, hmb, hmu, k1, k2, k3, k4, k8, k9, ?_⟩
  intro hpl hgoal hkm D I lit ρ v hlit
  rw [← k10 D I lit ρ v hlit]
  unfold TaskSolvesFor TextSolvesFor
  rw [starts_iff hv.init hv.allInit hlit ρ I]
  simp only [read_steps ⟨h, hk, rfl⟩ hw hpl hsteps hvalid hlit, hv.goal hgoal D _ lit ρ hlit, metricExp_cost _ lit he hkm]

/-- C118, exactly, whatever operands are lost: the formatted task has the solutions of the task as it is read, and they cost what
the metric as it is read says. A precondition `()` is read as the empty disjunction. -/
theorem C118_exact {F : FloatOf} {dt pt lt : Str} {d : Domain} {p : Pddl.Problem} {plan : Plan} {σ : PState} {τ : List (Str × Term)}
    (hd : parseDomain F .fresh dt = .ok (d, σ)) (hp : parseProblem F [] pt = .ok (p, τ)) (hl : parsePlan lt = .ok plan)
    (ho : DerivedFirst dt) (hnd : DomainNoObstacle F d) (hnp : ProblemNoObstacle F p) :
    ∃ dtext ts t s us ts' t' s' us', d.str = .ok dtext ∧ Brackets (lex dt) [.node ts] ∧ Brackets (lex pt) [t] ∧ s.Of t ∧
      Brackets (lex lt) us ∧ Brackets (lex dtext) [.node ts'] ∧ Brackets (lex p.str) [t'] ∧ s'.Of t' ∧ Brackets (lex plan.str) us' ∧
      (ClearSchemas ts → ∀ (D : Type) (I : Interp D) lit ρ, LitOk lit F →
        (ReadTaskSolves F lit ts s us ρ I ↔ TextSolves lit ts' s' us' ρ I)) ∧
      (p.metric = none ↔ s.metric = none) ∧ (p.metric = none ↔ s'.metric = none) ∧
      ∀ m, p.metric = some m → ∃ b u b' u', s.metric = some b ∧ WrittenMetric m.max b u ∧ s'.metric = some b' ∧
        WrittenMetric m.max b' u' ∧ (ClearSchemas ts → ∀ (D : Type) (I : Interp D) lit ρ v, LitOk lit F →
          (ReadTaskSolvesFor F lit ts s u us ρ I v ↔ TextSolvesFor lit ts' s' u' us' ρ I v)) := by
  obtain ⟨hb, hpr⟩ := domain_reread hd ho hnd
  obtain ⟨hb', hpr', _⟩ := problem_reread C58_parser.1 hp hnp
  obtain ⟨ts, hts, ha1, ha2⟩ := actions_exact .fresh hd
  obtain ⟨t, s, ht, hs, hv, hgoal, hnone, hmet⟩ := C58_exact C58_parser.1 hp
  obtain ⟨us, hus, hsteps, hvalid⟩ := C59_steps.1 hl
  obtain ⟨dtext, ts', t', s', us', k0, k1, k2, k3, k4, k5, k6, k7⟩ := C116_partial hb (hpr.said hb) hb' (hpr'.said hb') (parsedPlan_said hl)
  have hruns : ClearSchemas ts → ∀ (D : Type) lit (ρ : Str → D), LitOk lit F → ∀ I J, StepByStep (Performs d ρ) plan.steps I J ↔
      StepByStep (ReadSchema F lit ts ρ) us I J := fun hcl D lit ρ hlit I J =>
    stepByStep_rel (by
      clear * - hsteps hvalid ha1 ha2 hcl hlit
      generalize plan.steps = steps at hsteps hvalid
      induction hsteps with
      | nil => exact .nil
      | cons hw _ ih =>
        exact .cons (fun I J => read_schema ha1 ha2 hcl hw (hvalid _ List.mem_cons_self) hlit) (ih fun st hst => hvalid st (.tail _ hst)))
  refine ⟨dtext, ts, t, s, us, ts', t', s', us', k0, hts, ht, hs, hus, k1, k2, k3, k4, ?_, hnone, k6, ?_⟩
  · intro hcl D I lit ρ hlit
    rw [← (k5 D I lit ρ hlit).1]
    unfold ReadTaskSolves TaskSolves
    simp only [hruns hcl D lit ρ hlit, starts_iff hv.init hv.allInit hlit ρ, hgoal D _ lit ρ hlit]
  · intro m hm
    obtain ⟨b, u, h1, h2, h3⟩ := hmet m hm
    obtain ⟨b', u', h4, h5, h6⟩ := k7 m hm
    refine ⟨b, u, b', u', h1, h2, h4, h5, fun hcl D I lit ρ v hlit => ?_⟩
    rw [← h6 D I lit ρ v hlit]
    unfold ReadTaskSolvesFor TaskSolvesFor
    simp only [hruns hcl D lit ρ hlit, starts_iff hv.init hv.allInit hlit ρ, hgoal D _ lit ρ hlit, h3]

/-- The conditions of `C118_partial` are more than those of `C118_exact`. -/
theorem C118_exact_plain {F : FloatOf} {ts : List Tree} (h : PlainSchemas F ts) : ClearSchemas ts :=
  ⟨h.params, fun n ps pre eff hin => (h.eff n ps pre eff hin).1⟩

/-- Formatting keeps the best plans. Among plan texts `L` that can be read, the best for the formatted task, once formatted, are the
best for the task as it is read; and for the task as it is written if the parser keeps the operands. -/
theorem C118_best_exact {F : FloatOf} {dt pt : Str} {d : Domain} {p : Pddl.Problem} {σ : PState} {τ : List (Str × Term)}
    {m : Pddl.Metric} {L : Str → Prop} (hd : parseDomain F .fresh dt = .ok (d, σ)) (hp : parseProblem F [] pt = .ok (p, τ))
    (hL : ∀ l, L l → ∃ plan, parsePlan l = .ok plan) (ho : DerivedFirst dt) (hnd : DomainNoObstacle F d) (hnp : ProblemNoObstacle F p)
    (hm : p.metric = some m) :
    ∃ dtext ts t s b u ts' t' s' b' u', d.str = .ok dtext ∧ Brackets (lex dt) [.node ts] ∧ Brackets (lex pt) [t] ∧ s.Of t ∧
      s.metric = some b ∧ WrittenMetric m.max b u ∧ Brackets (lex dtext) [.node ts'] ∧ Brackets (lex p.str) [t'] ∧ s'.Of t' ∧
      s'.metric = some b' ∧ WrittenMetric m.max b' u' ∧ ∀ (D : Type) (I : Interp D) lit ρ, LitOk lit F → ∀ lt,
        (ClearSchemas ts →
          (BestOf m.max L (fun l v => ∃ us, Brackets (lex l) us ∧ ReadTaskSolvesFor F lit ts s u us ρ I v) lt ↔
            BestOf m.max L (fun l v => ∃ plan us', parsePlan l = .ok plan ∧ Brackets (lex plan.str) us' ∧
              TextSolvesFor lit ts' s' u' us' ρ I v) lt)) ∧
        (PlainSchemas F ts → KeepsOperands (goalEnv F) s.goal → KeepsMetric u →
          (BestOf m.max L (fun l v => ∃ us, Brackets (lex l) us ∧ TextSolvesFor lit ts s u us ρ I v) lt ↔
            BestOf m.max L (fun l v => ∃ plan us', parsePlan l = .ok plan ∧ Brackets (lex plan.str) us' ∧
              TextSolvesFor lit ts' s' u' us' ρ I v) lt)) := by
  obtain ⟨hb, hpr⟩ := domain_reread hd ho hnd
  obtain ⟨hb', hpr', _⟩ := problem_reread C58_parser.1 hp hnp
  obtain ⟨dtext, ts', t', s', k0, k1, k2, k3, k4, _, k5⟩ := task_text hb (hpr.said hb) hb' (hpr'.said hb')
  obtain ⟨b', u', k6, k7, k8⟩ := k5 m hm
  obtain ⟨ts, hts, ha1, ha2⟩ := actions_exact .fresh hd
  obtain ⟨x, q, hx, hq, hw⟩ := C57_partial .fresh hd
  have hx' := readText_brackets.2 hx
  rw [readText_brackets.2 hts] at hx'
  injection hx' with hx'
  injection hx' with hx'
  subst hx'
  obtain ⟨tp, hr, ⟨P⟩⟩ := parseProblem_ok hp
  have hwords : ∀ w, Inside (.atom (.name w)) (.node tp) → nameRegex w = true :=
    fun w hw => readText_words hr (t := .node tp) (by simp) hw
  have hv := P.written (fun n x hx => ((C58_parser.1 : OwnNames []) n x hx).2) hwords
  obtain ⟨b, u, hmb, hmu, he⟩ := P.metric_cost hm
  refine ⟨dtext, ts, .node tp, P.sections, b, u, ts', t', s', b', u', k0, hts, readText_brackets.1 hr, P.sections_of, hmb, hmu, k1, k2, k3,
    k6, k7, ?_⟩
  intro D I lit ρ hlit lt
  have hgoal : ∀ J, holds J p.goal ρ ↔ treeHolds J lit (readCond F P.sections.goal) ρ := by
    intro J
    rw [(mkProblem_fields P.hproblem).2.2.2.2.1]
    exact (gd_iff.1 P.hgoal).exact J lit (goalEnv_ok F) hlit
      (fun w hi => hwords w (hi.trans (.node P.goal_mem (.node (by simp) .refl)))) ρ
  have hbest : ∀ {C : List Tree → Rat → Prop},
      (∀ plan us, List.Forall₂ StepWritten us plan.steps → (∀ st ∈ plan.steps, ∀ c ∈ st.2, ValidName c.name) → ∀ v,
        TaskSolvesFor lit ρ d p m plan I v ↔ C us v) →
      (BestOf m.max L (fun l v => ∃ us, Brackets (lex l) us ∧ C us v) lt ↔
        BestOf m.max L (fun l v => ∃ plan us', parsePlan l = .ok plan ∧ Brackets (lex plan.str) us' ∧
          TextSolvesFor lit ts' s' u' us' ρ I v) lt) := by
    intro C hC
    have key : ∀ l, L l → ∀ v, (∃ us, Brackets (lex l) us ∧ C us v) ↔ ∃ plan us', parsePlan l = .ok plan ∧
        Brackets (lex plan.str) us' ∧ TextSolvesFor lit ts' s' u' us' ρ I v := by
      intro l hl v
      obtain ⟨plan, h1⟩ := hL l hl
      obtain ⟨us, hus, hsteps, hvalid⟩ := C59_steps.1 h1
      have e := hC plan us hsteps hvalid v
      have hsaid := parsedPlan_said h1
      rw [k8 plan hsaid D I lit ρ v hlit] at e
      constructor
      · rintro ⟨us', hus', hc⟩
        have := readText_brackets.2 hus'
        rw [readText_brackets.2 hus, Except.ok.injEq] at this
        subst this
        exact ⟨plan, _, h1, (k4 plan hsaid).1, e.2 hc⟩
      · rintro ⟨plan', us', h1', h2', hc⟩
        rw [h1, Except.ok.injEq] at h1'
        subst h1'
        have := readText_brackets.2 h2'
        rw [readText_brackets.2 (k4 plan hsaid).1, Except.ok.injEq] at this
        subst this
        exact ⟨us, hus, e.1 hc⟩
    unfold BestOf
    refine and_congr_right fun hl => exists_congr fun v => and_congr (key lt hl v) ?_
    exact forall_congr' fun l => forall_congr' fun w => forall_congr' fun hl' => imp_congr_left (key l hl' w)
  constructor
  · intro hcl
    refine hbest fun plan us hsteps hvalid v => ?_
    have hruns : ∀ I J, StepByStep (Performs d ρ) plan.steps I J ↔ StepByStep (ReadSchema F lit ts ρ) us I J := fun I J =>
      stepByStep_rel (by
        clear * - hsteps hvalid ha1 ha2 hcl hlit
        generalize plan.steps = steps at hsteps hvalid
        induction hsteps with
        | nil => exact .nil
        | cons hw _ ih =>
          exact .cons (fun I J => read_schema ha1 ha2 hcl hw (hvalid _ List.mem_cons_self) hlit) (ih fun st hst => hvalid st (.tail _ hst)))
    unfold ReadTaskSolvesFor TaskSolvesFor
    simp only [hruns, starts_iff hv.init hv.allInit hlit ρ, hgoal, mrel_value _ lit (metricExp_asRead he)]
  · intro hpl hg hkm
    refine hbest fun plan us hsteps hvalid v => ?_
    unfold TaskSolvesFor TextSolvesFor
    rw [starts_iff hv.init hv.allInit hlit ρ I]
    simp only [read_steps hq hw hpl hsteps hvalid hlit, hv.goal hg D _ lit ρ hlit, metricExp_cost _ lit he hkm]

/-- C118 with choices: a formatted plan that may solve the formatted task may solve the task as it is read, and as it is written if
no operands are lost; and conversely if no choice is written twice in an `and`. -/
theorem C118_may_exact {F : FloatOf} {dt pt lt : Str} {d : Domain} {p : Pddl.Problem} {plan : Plan} {σ : PState} {τ : List (Str × Term)}
    (hd : parseDomain F .fresh dt = .ok (d, σ)) (hp : parseProblem F [] pt = .ok (p, τ)) (hl : parsePlan lt = .ok plan)
    (ho : DerivedFirst dt) (hnd : DomainNoObstacle F d) (hnp : ProblemNoObstacle F p) :
    ∃ dtext ts t s us ts' t' s' us', d.str = .ok dtext ∧ Brackets (lex dt) [.node ts] ∧ Brackets (lex pt) [t] ∧ s.Of t ∧
      Brackets (lex lt) us ∧ Brackets (lex dtext) [.node ts'] ∧ Brackets (lex p.str) [t'] ∧ s'.Of t' ∧ Brackets (lex plan.str) us' ∧
      (NamedParams ts → ∀ (D : Type) (I : Interp D) lit ρ, LitOk lit F →
        (TextMaySolve lit ts' s' us' ρ I → ReadTaskMaySolve F lit ts s us ρ I) ∧
        (EachChoiceOnce F ts → (TextMaySolve lit ts' s' us' ρ I ↔ ReadTaskMaySolve F lit ts s us ρ I)) ∧
        (KeptSchemas F ts → KeepsOperands (goalEnv F) s.goal → (TextMaySolve lit ts' s' us' ρ I → TextMaySolve lit ts s us ρ I) ∧
          (EachChoiceOnce F ts → (TextMaySolve lit ts' s' us' ρ I ↔ TextMaySolve lit ts s us ρ I)))) := by
  obtain ⟨hb, hpr⟩ := domain_reread hd ho hnd
  obtain ⟨hb', hpr', _⟩ := problem_reread C58_parser.1 hp hnp
  obtain ⟨ts, hts, ha1, ha2⟩ := actions_exact .fresh hd
  obtain ⟨t, s, ht, hs, hv, hgoal, _, _⟩ := C58_exact C58_parser.1 hp
  obtain ⟨us, hus, hsteps, hvalid⟩ := C59_steps.1 hl
  obtain ⟨dtext, ts', t', s', us', k0, k1, k2, k3, k4, k5, _, _⟩ := C116_partial hb (hpr.said hb) hb' (hpr'.said hb') (parsedPlan_said hl)
  refine ⟨dtext, ts, t, s, us, ts', t', s', us', k0, hts, ht, hs, hus, k1, k2, k3, k4, ?_⟩
  intro hn D I lit ρ hlit
  have heach : ∀ {P : Tree → Str × List Term → Prop}, (∀ u st, StepWritten u st → (∀ c ∈ st.2, ValidName c.name) → P u st) →
      List.Forall₂ P us plan.steps := by
    intro P hP
    clear * - hsteps hvalid hP
    generalize plan.steps = steps at hsteps hvalid
    induction hsteps with
    | nil => exact .nil
    | cons hw _ ih => exact .cons (hP _ _ hw (hvalid _ List.mem_cons_self)) (ih fun st hst => hvalid st (.tail _ hst))
  have hread : ∀ {I J}, StepByStep (MayPerform d ρ) plan.steps I J → StepByStep (ReadMaySchema F lit ts ρ) us I J :=
    fun {I J} h => stepByStep_imp (R := MayPerform d ρ) (S := ReadMaySchema F lit ts ρ)
      (heach fun u st h1 h2 I J => (read_maySchema ha1 ha2 hn h1 h2 hlit).1) h
  have hread' : EachChoiceOnce F ts → ∀ {I J}, StepByStep (MayPerform d ρ) plan.steps I J ↔ StepByStep (ReadMaySchema F lit ts ρ) us I J :=
    fun hc {I J} => stepByStep_rel (R := MayPerform d ρ) (S := ReadMaySchema F lit ts ρ)
      (heach fun u st h1 h2 I J => ⟨(read_maySchema ha1 ha2 hn h1 h2 hlit).1, (read_maySchema ha1 ha2 hn h1 h2 hlit).2 hc⟩)
  have htext : ∀ {I J}, StepByStep (TextMayAct lit ts ρ) us I J ↔ TextMayRun lit ts ρ us I J := by
    intro I J
    have := stepByStep_mayRun (R := TextMayAct lit ts ρ) (f := id) (as := us) (I := I) (J := J) (lit := lit) (ts := ts) (ρ := ρ)
      (fun _ _ _ _ => Iff.rfl)
    rwa [List.map_id] at this
  have hwrit : KeptSchemas F ts → ∀ {I J}, StepByStep (MayPerform d ρ) plan.steps I J → TextMayRun lit ts ρ us I J := fun hk I J h =>
    htext.1 (stepByStep_imp (R := MayPerform d ρ) (S := TextMayAct lit ts ρ) (heach fun u st h1 h2 I J => (written_mayPerform ha1 ha2 hn hk h1 h2 hlit).1) h)
  have hwrit' : KeptSchemas F ts → EachChoiceOnce F ts → ∀ {I J}, StepByStep (MayPerform d ρ) plan.steps I J ↔ TextMayRun lit ts ρ us I J :=
    fun hk hc I J => (stepByStep_rel (R := MayPerform d ρ) (S := TextMayAct lit ts ρ) (heach fun u st h1 h2 I J => ⟨(written_mayPerform ha1 ha2 hn hk h1 h2 hlit).1,
      (written_mayPerform ha1 ha2 hn hk h1 h2 hlit).2 hc⟩)).trans htext
  rw [← (k5 D I lit ρ hlit).2]
  unfold TaskMaySolve ReadTaskMaySolve TextMaySolve
  rw [starts_iff hv.init hv.allInit hlit ρ I]
  refine ⟨?_, ?_, fun hk hg => ⟨?_, ?_⟩⟩
  · rintro ⟨h1, J, h2, h3⟩
    exact ⟨h1, J, hread h2, (hgoal D J lit ρ hlit).1 h3⟩
  · intro hc
    simp only [hread' hc, hgoal D _ lit ρ hlit]
  · rintro ⟨h1, J, h2, h3⟩
    exact ⟨h1, J, hwrit hk h2, (hv.goal hg D J lit ρ hlit).1 h3⟩
  · intro hc
    simp only [hwrit' hk hc, hv.goal hg D _ lit ρ hlit]

/-! ### The full statement is false -/

/-- The goal `(> (+ 1 1) 1)`. -/
def sumGoal : Str := s%"(define (problem p) (:domain d) (:init) (:goal (> (+ 1 1) 1)))"

/-- C118 is false: the goal `(> (+ 1 1) 1)` is written as `(> (+ 1) 1)`. -/
theorem C118_fails : ¬ C118_full := by
  intro H
  have h0 : (match parseDomain (fun _ => none) .fresh s%"(define (domain d))", parseProblem (fun _ => none) [] sumGoal, parsePlan [] with
    | .ok (d, _), .ok (p, _), .ok plan => match d.str with
      | .ok _ => decide (p.str = s%"(define (problem p)\n    (:domain d)\n    (:init )\n    (:goal (> (+ 1) 1))\n)" ∧ plan.str = [])
      | _ => false
    | _, _, _ => false) = true := by decide +kernel
  cases h1 : parseDomain (fun _ => none) .fresh s%"(define (domain d))" with
  | error e => rw [h1] at h0; cases h0
  | ok r =>
  cases h2 : parseProblem (fun _ => none) [] sumGoal with
  | error e => rw [h1, h2] at h0; cases h0
  | ok r2 =>
  cases h3 : parsePlan [] with
  | error e => rw [h1, h2, h3] at h0; cases h0
  | ok plan =>
  cases h4 : r.1.str with
  | error e => rw [h1, h2, h3] at h0; simp [h4] at h0
  | ok dtext =>
    rw [h1, h2, h3] at h0
    simp only [h4, decide_eq_true_eq] at h0
    obtain ⟨ts, t, s, us, ts', t', s', us', _, b2, hs, b3, _, b5, hs', b6, h⟩ := H _ _ _ _ _ _ _ _ _ dtext h1 h2 h3 h4
    rw [h0.1] at b5
    rw [h0.2] at b6
    have e2 := readText_brackets.2 b2
    have e3 := readText_brackets.2 b3
    have e5 := readText_brackets.2 b5
    have e6 := readText_brackets.2 b6
    rw [show readText sumGoal = .ok [.node [word s%"define", .node [word s%"problem", word s%"p"], section_ s%"domain" [word s%"d"],
      section_ s%"init" [], section_ s%"goal" [.node [.atom .gt, .node [.atom .plus, .atom (.num s%"1"), .atom (.num s%"1")],
        .atom (.num s%"1")]]]] by decide +kernel] at e2
    rw [show readText s%"(define (problem p)\n    (:domain d)\n    (:init )\n    (:goal (> (+ 1) 1))\n)" =
      .ok [.node [word s%"define", .node [word s%"problem", word s%"p"], section_ s%"domain" [word s%"d"],
      section_ s%"init" [], section_ s%"goal" [.node [.atom .gt, .node [.atom .plus, .atom (.num s%"1")],
        .atom (.num s%"1")]]]] by decide +kernel] at e5
    rw [show readText [] = .ok [] by decide +kernel] at e3 e6
    simp only [Except.ok.injEq, List.cons.injEq, and_true] at e2 e3 e5 e6
    subst e2 e3 e5 e6
    obtain ⟨_, _, e2⟩ := hs
    obtain ⟨_, _, e5⟩ := hs'
    have g1 : s.init = [] ∧ s.goal = .node [.atom .gt, .node [.atom .plus, .atom (.num s%"1"), .atom (.num s%"1")], .atom (.num s%"1")] := by
      obtain ⟨n, dn, rq, os, is, g, ms⟩ := s
      cases rq <;> cases os <;> cases ms <;> simp [optText, section_, word] at e2
      exact ⟨e2.2.2.1, e2.2.2.2.symm⟩
    have g2 : s'.goal = .node [.atom .gt, .node [.atom .plus, .atom (.num s%"1")], .atom (.num s%"1")] := by
      obtain ⟨n, dn, rq, os, is, g, ms⟩ := s'
      cases rq <;> cases os <;> cases ms <;> simp [optText, section_, word] at e5
      exact e5.2.2.2.symm
    let I : Interp Unit := ⟨fun _ => (), fun _ _ => True, fun _ _ => False, fun _ _ => none⟩
    let lit : Str → Option Rat := fun s => (numLiteral (fun _ => none) s).toOption.bind numVal
    have hlit : LitOk lit (fun _ => none) := by
      intro s n h
      simp [lit, h, Except.toOption]
    have h1 : lit s%"1" = some 1 := hlit s%"1" (.int 1) (by decide +kernel)
    have hsol : TextSolves lit ts s [] (fun _ => ()) I := by
      refine ⟨⟨?_, ?_, ?_, ?_⟩, I, .nil, ?_⟩
      · intro n ds; rw [g1.1]; simp [I]
      · intro n ns h; rw [g1.1] at h; simp at h
      · intro t f ns s' h; rw [g1.1] at h; simp at h
      · intro n ds h; simp [I] at h
      · rw [g1.2]
        simp [treeHolds, treeCompare, compareSign, treeValues, treeValue, h1, arith, compareVals]
        try norm_num
    obtain ⟨_, J, hr, hg⟩ := (h Unit I lit (fun _ => ()) hlit).1 hsol
    rw [g2] at hg
    simp [treeHolds, treeCompare, compareSign, treeValues, treeValue, h1, arith, compareVals] at hg

/-! ### A text that meets the conditions -/

/-- The parameters `?v - truck ?from ?to - place`. -/
def drivePs : List Tree := varTrees s%"v" ++ [.atom .minus, word s%"truck"] ++ varTrees s%"from" ++ varTrees s%"to" ++
  [.atom .minus, word s%"place"]

def drivePre : Tree := .node [word s%"and", .node (word s%"at" :: (varTrees s%"v" ++ varTrees s%"from")),
  .node [word s%"not", .node (.atom .eq :: (varTrees s%"from" ++ varTrees s%"to"))],
  .node [.atom .ge, .node (word s%"fuel" :: varTrees s%"v"), .atom (.num s%"1")]]

def driveEff : Tree := .node [word s%"and", .node (word s%"at" :: (varTrees s%"v" ++ varTrees s%"to")),
  .node [word s%"not", .node (word s%"at" :: (varTrees s%"v" ++ varTrees s%"from"))],
  .node [word s%"increase", .node [word s%"total-cost"], .atom (.num s%"2")]]

/-- The only action of the text. -/
theorem drive_action {ts : List Tree} (h : Brackets (lex readSample) [.node ts]) {n ps pre eff} (ha : actionText n ps pre eff ∈ ts) :
    ps = drivePs ∧ pre = drivePre ∧ eff = driveEff := by
  have key : (match readText readSample with
      | .ok [.node ts] => decide (ts.filter (sectionIs s%"action") = [actionText s%"drive" drivePs drivePre driveEff])
      | _ => false) = true := by decide +kernel
  rw [readText_brackets.2 h] at key
  simp only [decide_eq_true_eq] at key
  have hm : actionText n ps pre eff ∈ ts.filter (sectionIs s%"action") := List.mem_filter.2 ⟨ha, by simp [sectionIs, actionText]⟩
  rw [key] at hm
  exact (actionText_inj (List.mem_singleton.1 hm)).2

/-- The hypotheses of `C118_partial` hold of the texts of C90. -/
example : ∃ d σ p τ plan, parseDomain (fun _ => none) .fresh readSample = .ok (d, σ) ∧
    parseProblem (fun _ => none) [] driveProblem = .ok (p, τ) ∧ parsePlan s%"(drive t1 home depot)" = .ok plan ∧ DerivedFirst readSample ∧
    DomainNoObstacle (fun _ => none) d ∧ ProblemNoObstacle (fun _ => none) p ∧
    (∀ ts, Brackets (lex readSample) [.node ts] → PlainSchemas (fun _ => none) ts) ∧
    ∀ (t : Tree) (s : ProblemSections), Brackets (lex driveProblem) [t] → s.Of t → KeepsOperands (goalEnv (fun _ => none)) s.goal := by
  obtain ⟨d, σ, p, τ, plan, _, h1, h2, h3, h4, h5, h6, _⟩ := driveTask_ok
  refine ⟨d, σ, p, τ, plan, h1, h2, h3, h4, h5, h6, fun ts hts => ⟨?_, ?_, ?_⟩, ?_⟩
  · intro n ps pre eff l h hv
    obtain ⟨rfl, rfl, rfl⟩ := drive_action hts h
    rw [hv.names]
    decide +kernel
  · intro n ps pre eff h
    obtain ⟨rfl, rfl, rfl⟩ := drive_action hts h
    exact ⟨by simp [drivePre], keeps_of_check (by decide +kernel)⟩
  · intro n ps pre eff h
    obtain ⟨rfl, rfl, rfl⟩ := drive_action hts h
    exact ⟨noOneof_of_check (by decide +kernel), keeps_of_check (by decide +kernel)⟩
  · intro t s hb hs
    have e := readText_brackets.2 hb
    have key : (match readText driveProblem with
        | .ok [.node ts] => decide (ts.getLast? = some (section_ s%"goal" [applied s%"at" [s%"t1", s%"depot"]]))
        | _ => false) = true := by decide +kernel
    obtain ⟨u, hu, rfl⟩ := hs
    rw [e] at key
    simp only [decide_eq_true_eq] at key
    have hg : s.goal = applied s%"at" [s%"t1", s%"depot"] := by
      obtain ⟨n, dn, rq, os, is, g, ms⟩ := s
      cases ms <;> simp [optText, section_, List.getLast?_cons, List.getLast?_append] at key
      exact key
    rw [hg]
    exact keeps_of_check (by decide +kernel)

/-- The same problem with a metric. -/
def driveCostProblem : Str := s%"(define (problem trip) (:domain logistics) (:requirements :typing) (:objects t1 - truck home - place)
  (:init (at t1 home) (= (fuel t1) 3)) (:goal (at t1 depot)) (:metric minimize (+ 1 (total-cost))))"

/-- The hypotheses of `C118_cost_partial` about problems hold of it. -/
example : ∃ p τ m, parseProblem (fun _ => none) [] driveCostProblem = .ok (p, τ) ∧ ProblemNoObstacle (fun _ => none) p ∧
    p.metric = some m ∧ KeepsMetric (.node [.atom .plus, .atom (.num s%"1"), .node [word s%"total-cost"]]) := by
  have key : (match parseProblem (fun _ => none) [] driveCostProblem with
      | .ok (p, _) => decide (p.init = [.pred ⟨s%"at", [.const s%"t1" (some s%"truck"), .const s%"home" (some s%"place")]⟩,
            .bfun .eq [.nfun ⟨s%"fuel", [.const s%"t1" none]⟩, .num (.int 3)]] ∧
          p.goal = .pred ⟨s%"at", [.const s%"t1" none, .const s%"depot" none]⟩ ∧
          p.metric.map Metric.expr = some (.bfun .plus [.num (.str s%"1"), .nfun ⟨s%"total-cost", []⟩]))
      | _ => false) = true := by decide +kernel
  cases hp : parseProblem (fun _ => none) [] driveCostProblem with
  | error e => rw [hp] at key; simp at key
  | ok r =>
    rw [hp] at key
    simp only [decide_eq_true_eq] at key
    obtain ⟨k1, k2, k3⟩ := key
    cases hm : r.1.metric with
    | none => rw [hm] at k3; simp at k3
    | some m =>
      rw [hm] at k3
      simp only [Option.map_some, Option.some.injEq] at k3
      refine ⟨r.1, r.2, m, rfl, ⟨?_, ?_, ?_⟩, hm, keepsMetric_of_check (by decide +kernel)⟩
      · rw [k1]
        intro e he
        simp only [List.mem_cons, List.not_mem_nil, or_false] at he
        rcases he with rfl | rfl
        · trivial
        · exact ⟨rfl, trivial, .int 3, trivial⟩
      · rw [k2]; trivial
      · intro m' hm'
        rw [hm] at hm'
        cases hm'
        rw [k3]
        simp [AritiesWritten, AllAritiesWritten, WrittenArity]

/-- The hypothesis of `C118_best_exact` about plans holds of these two. -/
example : ∀ l, l = s%"(drive t1 home depot)" ∨ l = s%"(drive t1 home home) (drive t1 home depot)" → ∃ plan, parsePlan l = .ok plan := by
  have key : (match parsePlan s%"(drive t1 home depot)", parsePlan s%"(drive t1 home home) (drive t1 home depot)" with
    | .ok _, .ok _ => true | _, _ => false) = true := by decide +kernel
  rintro l (rfl | rfl)
  · cases h : parsePlan s%"(drive t1 home depot)" with
    | error e => rw [h] at key; simp at key
    | ok plan => exact ⟨plan, rfl⟩
  · cases h : parsePlan s%"(drive t1 home home) (drive t1 home depot)" with
    | error e => rw [h] at key; cases h' : parsePlan s%"(drive t1 home depot)" <;> simp [h'] at key
    | ok plan => exact ⟨plan, rfl⟩

/-- The problem with a goal from which an operand is lost. -/
def driveLostProblem : Str := s%"(define (problem trip) (:domain logistics) (:requirements :typing) (:objects t1 - truck home - place)
  (:init (at t1 home)) (:goal (> (+ (fuel t1) 1 1) 2)))"

/-- The hypotheses of `C118_exact` hold of it, and those of `C118_partial` do not. -/
example : ∃ p τ t s, parseProblem (fun _ => none) [] driveLostProblem = .ok (p, τ) ∧ ProblemNoObstacle (fun _ => none) p ∧
    Brackets (lex driveLostProblem) [t] ∧ ProblemSections.Of t s ∧ ¬ KeepsOperands (goalEnv (fun _ => none)) s.goal := by
  have key : (match parseProblem (fun _ => none) [] driveLostProblem with
      | .ok (p, _) => decide (p.init = [.pred ⟨s%"at", [.const s%"t1" (some s%"truck"), .const s%"home" (some s%"place")]⟩] ∧
          p.goal = .bfun .gt [.bfun .plus [.nfun ⟨s%"fuel", [.const s%"t1" none]⟩, .num (.int 1)], .num (.int 2)] ∧ p.metric.isNone = true)
      | _ => false) = true := by decide +kernel
  cases hp : parseProblem (fun _ => none) [] driveLostProblem with
  | error e => rw [hp] at key; simp at key
  | ok r =>
    rw [hp] at key
    simp only [decide_eq_true_eq] at key
    obtain ⟨k1, k2, k3⟩ := key
    let goal : Tree := .node [.atom .gt, .node [.atom .plus, applied s%"fuel" [s%"t1"], .atom (.num s%"1"), .atom (.num s%"1")],
      .atom (.num s%"2")]
    let s : ProblemSections := ⟨s%"trip", s%"logistics", some [.atom (.kw s%"typing")],
      some [word s%"t1", .atom .minus, word s%"truck", word s%"home", .atom .minus, word s%"place"], [applied s%"at" [s%"t1", s%"home"]], goal, none⟩
    refine ⟨r.1, r.2, .node (word s%"define" :: .node [word s%"problem", word s%"trip"] :: section_ s%"domain" [word s.domain] ::
      (optText s%"requirements" s.reqs ++ optText s%"objects" s.objects ++
        section_ s%"init" s.init :: section_ s%"goal" [s.goal] :: optText s%"metric" s.metric)), s, rfl, ⟨?_, ?_, ?_⟩,
      readText_brackets.1 (by decide +kernel), ⟨_, ⟨_, rfl, .word _⟩, rfl⟩, ?_⟩
    · rw [k1]
      intro e he
      rw [List.mem_singleton.1 he]
      trivial
    · rw [k2]
      exact ⟨rfl, ⟨by simp [WrittenArity], trivial, .int 1, trivial⟩, .int 2, trivial⟩
    · intro m hm; rw [hm] at k3; simp at k3
    · intro hk
      have e : (goalEnv (fun _ => none)).fExps [applied s%"fuel" [s%"t1"], .atom (.num s%"1"), .atom (.num s%"1")] =
        .ok [.nfun ⟨s%"fuel", [.const s%"t1" none]⟩, .num (.int 1), .num (.int 1)] := by decide +kernel
      have := hk.plus _ _ (.node (t := .node [.atom .plus, applied s%"fuel" [s%"t1"], .atom (.num s%"1"), .atom (.num s%"1")])
        (by simp) .refl) e
      revert this
      unfold Distinct
      decide +kernel

/-- A domain with a choice. -/
def flipDomain : Str := s%"(define (domain d) (:requirements :non-deterministic) (:predicates (p) (q))
  (:action flip :parameters () :precondition (p) :effect (oneof (p) (q))))"

def flipEff : Tree := .node [word s%"oneof", .node [word s%"p"], .node [word s%"q"]]

/-- The hypotheses of `C118_may_exact` about domains hold of it. -/
example : ∃ d σ, parseDomain (fun _ => none) .fresh flipDomain = .ok (d, σ) ∧ DerivedFirst flipDomain ∧ DomainNoObstacle (fun _ => none) d ∧
    ∀ ts, Brackets (lex flipDomain) [.node ts] → NamedParams ts ∧ EachChoiceOnce (fun _ => none) ts ∧ KeptSchemas (fun _ => none) ts := by
  have key : (match parseDomain (fun _ => none) .fresh flipDomain with
      | .ok (d, _) => decide (d.types = [] ∧ d.functions = [] ∧ d.derived = [] ∧
          d.actions = [⟨s%"flip", [], some (.pred ⟨s%"p", []⟩), some (.bin .oneof [.pred ⟨s%"p", []⟩, .pred ⟨s%"q", []⟩])⟩])
      | .error _ => false) = true := by decide +kernel
  cases h : parseDomain (fun _ => none) .fresh flipDomain with
  | error e => rw [h] at key; simp at key
  | ok r =>
    obtain ⟨d, σ⟩ := r
    rw [h] at key
    simp only [decide_eq_true_eq] at key
    obtain ⟨h1, h2, h3, h4⟩ := key
    refine ⟨d, σ, rfl, derivedFirst_test (by decide +kernel), ⟨?_, ?_, ?_, ?_, ?_, ?_, ?_, ?_, ?_⟩, fun ts hts => ?_⟩
    · exact fun h => absurd h1 h
    · rw [h1]; simp
    · rw [h2]; simp
    · rw [h4]; simp
    · rw [h4]
      intro a ha e he
      rw [List.mem_singleton.1 ha] at he
      cases he
      exact ⟨trivial, by simp⟩
    · rw [h4]
      intro a ha e he
      rw [List.mem_singleton.1 ha] at he
      cases he
      exact ⟨⟨trivial, trivial, trivial⟩, by simp⟩
    · rw [h3]; simp
    · rw [h3]; simp
    · rw [h3]; simp
    · have hact : ∀ n ps pre eff, actionText n ps pre eff ∈ ts → ps = [] ∧ pre = .node [word s%"p"] ∧ eff = flipEff := by
        intro n ps pre eff ha
        have key : (match readText flipDomain with
            | .ok [.node ts] => decide (ts.filter (sectionIs s%"action") = [actionText s%"flip" [] (.node [word s%"p"]) flipEff])
            | _ => false) = true := by decide +kernel
        rw [readText_brackets.2 hts] at key
        simp only [decide_eq_true_eq] at key
        have hm : actionText n ps pre eff ∈ ts.filter (sectionIs s%"action") := List.mem_filter.2 ⟨ha, by simp [sectionIs, actionText]⟩
        rw [key] at hm
        exact (actionText_inj (List.mem_singleton.1 hm)).2
      refine ⟨?_, ?_, ?_⟩
      · intro n ps pre eff l ha hv
        obtain ⟨rfl, _, _⟩ := hact _ _ _ _ ha
        rw [hv.names]
        decide +kernel
      · intro n ps pre eff ha
        obtain ⟨_, _, rfl⟩ := hact _ _ _ _ ha
        exact once_of_check (by decide +kernel)
      · intro n ps pre eff ha
        obtain ⟨_, rfl, rfl⟩ := hact _ _ _ _ ha
        exact ⟨by simp, keeps_of_check (by decide +kernel), keeps_of_check (by decide +kernel)⟩

end Pddl.Props
