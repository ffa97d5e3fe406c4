/-
C104, exactly: what plans cost, whatever operands are lost.
-/
import Verif.Proofs.ReadMetric
import Verif.Props.ReadExecute
import Verif.Props.Cost

namespace Pddl.Props
open Spec Spec.Grammar

/-- The goal that is read says what the written one says as it is read. -/
theorem goal_reads {F : FloatOf} {τ τ' : List (Str × Term)} {ptext : Str} {p : Pddl.Problem} {m : Pddl.Metric}
    (hτ : OwnNames τ) (hp : parseProblem F τ ptext = .ok (p, τ')) (hm : p.metric = some m) :
    ∃ t s b u T C, Brackets (lex ptext) [t] ∧ s.Of t ∧ ProblemWritten F T C s p ∧ s.metric = some b ∧ WrittenMetric m.max b u ∧
      metricExp u = .ok m.expr ∧ ∀ (D : Type) (J : Interp D) lit ρ, LitOk lit F → (holds J p.goal ρ ↔ treeHolds J lit (readCond F s.goal) ρ) := by
  obtain ⟨ts, hr, ⟨P⟩⟩ := parseProblem_ok hp
  obtain ⟨b, u, h1, h2, h3⟩ := P.metric_cost hm
  have hwords : ∀ w, Inside (.atom (.name w)) (.node ts) → nameRegex w = true :=
    fun w hw => readText_words hr (t := .node ts) (by simp) hw
  refine ⟨.node ts, P.sections, b, u, _, _, readText_brackets.1 hr, P.sections_of,
    P.written (fun n x hx => (hτ n x hx).2) hwords, h1, h2, h3, ?_⟩
  intro D J lit ρ hlit
  rw [(mkProblem_fields P.hproblem).2.2.2.2.1]
  exact (gd_iff.1 P.hgoal).exact J lit (goalEnv_ok F) hlit
    (fun w hi => hwords w (hi.trans (.node P.goal_mem (.node (by simp) .refl)))) ρ

/-- The metric that is read has, in every state, the value of the written one as it is read. -/
theorem C104_metric_exact {F : FloatOf} {τ τ' : List (Str × Term)} {ptext : Str} {p : Pddl.Problem} {m : Pddl.Metric}
    (hτ : OwnNames τ) (hp : parseProblem F τ ptext = .ok (p, τ')) (hm : p.metric = some m) :
    ∃ (t : Tree) (s : ProblemSections) (b : List Tree) (u : Tree), Brackets (lex ptext) [t] ∧ s.Of t ∧ s.metric = some b ∧
      WrittenMetric m.max b u ∧
      ∀ (D : Type) (I : Interp D) lit ρ, metricValue I lit ρ m.expr = treeValue I lit ρ (readMetric u) := by
  obtain ⟨t, s, b, u, _, _, h1, h2, _, h4, h5, h6⟩ := metric_sections hτ hp hm
  exact ⟨t, s, b, u, h1, h2, h4, h5, fun D I lit ρ => mrel_value I lit (metricExp_asRead h6)⟩

/-- C58, exactly in the goal and the metric: an accepted problem contains what is written, its goal says what the written goal says
as it is read, and it has a metric exactly if one is written, with the same direction and in every state with the value of
the written one as it is read. -/
theorem C58_exact {F : FloatOf} {τ τ' : List (Str × Term)} {ptext : Str} {p : Pddl.Problem}
    (hτ : OwnNames τ) (hp : parseProblem F τ ptext = .ok (p, τ')) :
    ∃ t s, Brackets (lex ptext) [t] ∧ s.Of t ∧
      ProblemWritten F (τ = [] ∨ s.objects ≠ none) (fun t => NoNumbers t ∧ KeepsOperands (goalEnv F) t) s p ∧
      (∀ (D : Type) (J : Interp D) lit ρ, LitOk lit F → (holds J p.goal ρ ↔ treeHolds J lit (readCond F s.goal) ρ)) ∧
      (p.metric = none ↔ s.metric = none) ∧
      ∀ m, p.metric = some m → ∃ b u, s.metric = some b ∧ WrittenMetric m.max b u ∧
        ∀ (D : Type) (I : Interp D) lit ρ, metricValue I lit ρ m.expr = treeValue I lit ρ (readMetric u) := by
  obtain ⟨ts, hr, ⟨P⟩⟩ := parseProblem_ok hp
  have hwords : ∀ w, Inside (.atom (.name w)) (.node ts) → nameRegex w = true :=
    fun w hw => readText_words hr (t := .node ts) (by simp) hw
  have hw := P.written (fun n x hx => (hτ n x hx).2) hwords
  refine ⟨.node ts, P.sections, readText_brackets.1 hr, P.sections_of, hw, ?_, ?_, ?_⟩
  · intro D J lit ρ hlit
    rw [(mkProblem_fields P.hproblem).2.2.2.2.1]
    exact (gd_iff.1 P.hgoal).exact J lit (goalEnv_ok F) hlit
      (fun w hi => hwords w (hi.trans (.node P.goal_mem (.node (by simp) .refl)))) ρ
  · have := hw.metric
    constructor
    · intro h
      rw [h] at this
      cases hs : P.sections.metric with
      | none => rfl
      | some b => rw [hs] at this; exact this.elim
    · intro h
      rw [h] at this
      cases hs : p.metric with
      | none => rfl
      | some b => rw [hs] at this; exact this.elim
  · intro m hm
    obtain ⟨b, u, h1, h2, h3⟩ := P.metric_cost hm
    exact ⟨b, u, h1, h2, fun D I lit ρ => mrel_value I lit (metricExp_asRead h3)⟩

/-- C104, exactly: the ground actions reach the goal with the value `v` of the metric exactly if the written steps do with all texts
taken as they are read. -/
theorem C104_exact {F : FloatOf} {σ : PState} {dtext : Str} {d : Domain} {σ' : PState} {τ : List (Str × Term)} {ptext : Str}
    {p : Pddl.Problem} {τ' : List (Str × Term)} {ltext : Str} {gs : List Action} {m : Pddl.Metric}
    (hσ : ParserState F σ) (hτ : OwnNames τ) (hd : parseDomain F σ dtext = .ok (d, σ')) (hp : parseProblem F τ ptext = .ok (p, τ'))
    (hg : GroundPlan d ltext gs) (hm : p.metric = some m) :
    ∃ ts t s us b u, Brackets (lex dtext) [.node ts] ∧ Brackets (lex ptext) [t] ∧ s.Of t ∧ Brackets (lex ltext) us ∧
      s.metric = some b ∧ WrittenMetric m.max b u ∧
      (ClearActions ts →
        ∀ (D : Type) (I : Interp D) ρ lit v, LitOk lit F → (SolvesFor lit ρ p m gs I v ↔ ReadSolvesFor F lit ts s u us ρ I v)) := by
  obtain ⟨plan, hl, hg⟩ := hg
  obtain ⟨ts, hts, _⟩ := parseDomain_ok hd
  obtain ⟨t, s, b, u, _, _, ht, hs, hw, hb, hu, he, hgoal⟩ := goal_reads hτ hp hm
  obtain ⟨us, hus, hsteps, hvalid⟩ := C59_steps.1 hl
  refine ⟨ts, t, s, us, b, u, readText_brackets.1 hts, ht, hs, hus, hb, hu, ?_⟩
  intro hpl D I ρ lit v hlit
  unfold SolvesFor ReadSolvesFor
  rw [starts_iff hw.init hw.allInit hlit ρ I]
  simp only [reads_runs hσ hd hts hpl hsteps hvalid hg hlit ρ I, hgoal D _ lit ρ hlit, mrel_value _ lit (metricExp_asRead he)]

/-- The best plans, exactly: among plan texts `L` that can be read and grounded, the best by what was read are the best by what is
written, with all texts taken as they are read. -/
theorem C104_best_exact {F : FloatOf} {σ : PState} {dtext : Str} {d : Domain} {σ' : PState} {τ : List (Str × Term)} {ptext : Str}
    {p : Pddl.Problem} {τ' : List (Str × Term)} {m : Pddl.Metric} {L : Str → Prop}
    (hσ : ParserState F σ) (hτ : OwnNames τ) (hd : parseDomain F σ dtext = .ok (d, σ')) (hp : parseProblem F τ ptext = .ok (p, τ'))
    (hL : ∀ l, L l → ∃ gs, GroundPlan d l gs) (hm : p.metric = some m) :
    ∃ ts t s b u, Brackets (lex dtext) [.node ts] ∧ Brackets (lex ptext) [t] ∧ s.Of t ∧ s.metric = some b ∧
      WrittenMetric m.max b u ∧
      (ClearActions ts → ∀ (D : Type) (I : Interp D) ρ lit, LitOk lit F → ∀ ltext,
        (BestOf m.max L (fun l v => ∃ gs, GroundPlan d l gs ∧ SolvesFor lit ρ p m gs I v) ltext ↔
          BestOf m.max L (fun l v => ∃ us, Brackets (lex l) us ∧ ReadSolvesFor F lit ts s u us ρ I v) ltext)) := by
  obtain ⟨ts, hts, _⟩ := parseDomain_ok hd
  obtain ⟨t, s, b, u, _, _, ht, hs, hw, hb, hu, he, hgoal⟩ := goal_reads hτ hp hm
  refine ⟨ts, t, s, b, u, readText_brackets.1 hts, ht, hs, hb, hu, ?_⟩
  intro hpl D I ρ lit hlit ltext
  have key : ∀ l, L l → ∀ v, (∃ gs, GroundPlan d l gs ∧ SolvesFor lit ρ p m gs I v) ↔
      ∃ us, Brackets (lex l) us ∧ ReadSolvesFor F lit ts s u us ρ I v := by
    intro l hl v
    obtain ⟨gs, plan, h1, h2⟩ := hL l hl
    obtain ⟨us, hus, hsteps, hvalid⟩ := C59_steps.1 h1
    have e : SolvesFor lit ρ p m gs I v ↔ ReadSolvesFor F lit ts s u us ρ I v := by
      unfold SolvesFor ReadSolvesFor
      rw [starts_iff hw.init hw.allInit hlit ρ I]
      simp only [reads_runs hσ hd hts hpl hsteps hvalid h2 hlit ρ I, hgoal D _ lit ρ hlit, mrel_value _ lit (metricExp_asRead he)]
    constructor
    · rintro ⟨gs', ⟨plan', h1', h2'⟩, h⟩
      rw [h1, Except.ok.injEq] at h1'
      subst h1'
      rw [h2, Except.ok.injEq] at h2'
      subst h2'
      exact ⟨us, hus, e.1 h⟩
    · rintro ⟨us', hus', h⟩
      have := readText_brackets.2 hus'
      rw [readText_brackets.2 hus, Except.ok.injEq] at this
      subst this
      exact ⟨gs, ⟨plan, h1, h2⟩, e.2 h⟩
  unfold BestOf
  refine and_congr_right fun hl => exists_congr fun v => and_congr (key ltext hl v) ?_
  exact forall_congr' fun l => forall_congr' fun w => forall_congr' fun hl' => imp_congr_left (key l hl' w)

/-- What is read of metrics: repeated operands are dropped, but `1` and `1.0` are different numbers here. -/
example : (readText s%"(+ (f) (f) (g))").map (List.map readMetric) = readText s%"(+ (f) (g))" ∧
    (readText s%"(* 2 (* g 2 (+ 1 1.0 1)))").map (List.map readMetric) = readText s%"(* 2 (g) (+ 1 1.0))" ∧
    (readText s%"(+ 1 1.0)").map (List.map (readNum (fun _ => some (.fin 1, s%"1.0")))) ≠ readText s%"(+ 1 1.0)" := by decide +kernel

/-- The problem `payProblem` of C104 is read, and has a metric that loses an operand. -/
example : (match parseProblem (fun _ => none) [] payProblem with
    | .ok (p, _) => p.metric.isSome
    | .error _ => false) = true := by decide +kernel

end Pddl.Props
