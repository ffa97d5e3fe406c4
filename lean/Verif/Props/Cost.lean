/-
C104: plans cost what the written metric says.
-/
import Verif.Proofs.Cost
import Verif.Props.Execute
import Verif.Props.Share

namespace Pddl.Props
open Spec Spec.Grammar

/-- C104. A domain, a problem with a metric and a plan are read, and the plan is grounded. Whatever the objects and the first
state, the ground actions reach the goal with the value `v` of the metric exactly if the written steps reach the written goal
with the value `v` of the written metric, which is to be maximized exactly if the text says so. -/
def C104_full : Prop :=
  ∀ (F : FloatOf) (σ : PState) (dtext : Str) (d : Domain) (σ' : PState) (τ : List (Str × Term)) (ptext : Str) (p : Pddl.Problem)
    (τ' : List (Str × Term)) (ltext : Str) (gs : List Action) (m : Pddl.Metric),
    ParserState F σ → OwnNames τ → parseDomain F σ dtext = .ok (d, σ') → parseProblem F τ ptext = .ok (p, τ') →
    GroundPlan d ltext gs → p.metric = some m →
    ∃ ts t s us b u, Brackets (lex dtext) [.node ts] ∧ Brackets (lex ptext) [t] ∧ s.Of t ∧ Brackets (lex ltext) us ∧
      s.metric = some b ∧ WrittenMetric m.max b u ∧
      ∀ (D : Type) (I : Interp D) ρ lit v, LitOk lit F → (SolvesFor lit ρ p m gs I v ↔ TextSolvesFor lit ts s u us ρ I v)

/-- The sections of a problem with a metric, and what was read from them. -/
theorem metric_sections {F : FloatOf} {τ τ' : List (Str × Term)} {ptext : Str} {p : Pddl.Problem} {m : Pddl.Metric}
    (hτ : OwnNames τ) (hp : parseProblem F τ ptext = .ok (p, τ')) (hm : p.metric = some m) :
    ∃ t s b u T C, Brackets (lex ptext) [t] ∧ s.Of t ∧ ProblemWritten F T C s p ∧ s.metric = some b ∧ WrittenMetric m.max b u ∧
      metricExp u = .ok m.expr := by
  obtain ⟨ts, hr, ⟨P⟩⟩ := parseProblem_ok hp
  obtain ⟨b, u, h1, h2, h3⟩ := P.metric_cost hm
  exact ⟨.node ts, P.sections, b, u, _, _, readText_brackets.1 hr, P.sections_of,
    P.written (fun n x hx => (hτ n x hx).2) (fun w hw => readText_words hr (t := .node ts) (by simp) hw), h1, h2, h3⟩

/-- The metric that is read has the written value in every state, numbers included, where the parser keeps the operands. -/
theorem C104_metric_partial {F : FloatOf} {τ τ' : List (Str × Term)} {ptext : Str} {p : Pddl.Problem} {m : Pddl.Metric}
    (hτ : OwnNames τ) (hp : parseProblem F τ ptext = .ok (p, τ')) (hm : p.metric = some m) :
    ∃ (t : Tree) (s : ProblemSections) (b : List Tree) (u : Tree), Brackets (lex ptext) [t] ∧ s.Of t ∧ s.metric = some b ∧
      WrittenMetric m.max b u ∧
      (KeepsMetric u → ∀ (D : Type) (I : Interp D) lit ρ, metricValue I lit ρ m.expr = treeValue I lit ρ u) := by
  obtain ⟨t, s, b, u, _, _, h1, h2, _, h4, h5, h6⟩ := metric_sections hτ hp hm
  exact ⟨t, s, b, u, h1, h2, h4, h5, fun hk D I lit ρ => metricExp_cost I lit h6 hk⟩

/-- What holds: the conditions of C81, and the parser keeps the operands of the metric. -/
theorem C104_partial {F : FloatOf} {σ : PState} {dtext : Str} {d : Domain} {σ' : PState} {τ : List (Str × Term)} {ptext : Str}
    {p : Pddl.Problem} {τ' : List (Str × Term)} {ltext : Str} {gs : List Action} {m : Pddl.Metric}
    (hσ : ParserState F σ) (hτ : OwnNames τ) (hd : parseDomain F σ dtext = .ok (d, σ')) (hp : parseProblem F τ ptext = .ok (p, τ'))
    (hg : GroundPlan d ltext gs) (hm : p.metric = some m) :
    ∃ ts t s us b u, Brackets (lex dtext) [.node ts] ∧ Brackets (lex ptext) [t] ∧ s.Of t ∧ Brackets (lex ltext) us ∧
      s.metric = some b ∧ WrittenMetric m.max b u ∧
      (PlainActions ts → OperandsStay F ts us → KeepsOperands (goalEnv F) s.goal → KeepsMetric u →
        ∀ (D : Type) (I : Interp D) ρ lit v, LitOk lit F → (SolvesFor lit ρ p m gs I v ↔ TextSolvesFor lit ts s u us ρ I v)) := by
  obtain ⟨plan, hl, hg⟩ := hg
  obtain ⟨ts, hts, _⟩ := parseDomain_ok hd
  obtain ⟨t, s, b, u, _, _, ht, hs, hw, hb, hu, he⟩ := metric_sections hτ hp hm
  obtain ⟨us, hus, hsteps, hvalid⟩ := C59_steps.1 hl
  refine ⟨ts, t, s, us, b, u, readText_brackets.1 hts, ht, hs, hus, hb, hu, ?_⟩
  intro hpl hk hgoal hkm D I ρ lit v hlit
  unfold SolvesFor TextSolvesFor
  rw [starts_iff hw.init hw.allInit hlit ρ I]
  simp only [runs_iff hσ hd hts hpl hk hsteps hvalid hg hlit ρ I, hw.goal hgoal D _ lit ρ hlit, metricExp_cost _ lit he hkm]

/-- Among plan texts `L` that can be read and grounded, the best by what was read are the best by what is written. -/
theorem C104_best_partial {F : FloatOf} {σ : PState} {dtext : Str} {d : Domain} {σ' : PState} {τ : List (Str × Term)} {ptext : Str}
    {p : Pddl.Problem} {τ' : List (Str × Term)} {m : Pddl.Metric} {L : Str → Prop}
    (hσ : ParserState F σ) (hτ : OwnNames τ) (hd : parseDomain F σ dtext = .ok (d, σ')) (hp : parseProblem F τ ptext = .ok (p, τ'))
    (hL : ∀ l, L l → ∃ gs, GroundPlan d l gs) (hm : p.metric = some m) :
    ∃ ts t s b u, Brackets (lex dtext) [.node ts] ∧ Brackets (lex ptext) [t] ∧ s.Of t ∧ s.metric = some b ∧
      WrittenMetric m.max b u ∧
      (PlainActions ts → (∀ l us, L l → Brackets (lex l) us → OperandsStay F ts us) → KeepsOperands (goalEnv F) s.goal →
        KeepsMetric u → ∀ (D : Type) (I : Interp D) ρ lit, LitOk lit F → ∀ ltext,
        (BestOf m.max L (fun l v => ∃ gs, GroundPlan d l gs ∧ SolvesFor lit ρ p m gs I v) ltext ↔
          BestOf m.max L (fun l v => ∃ us, Brackets (lex l) us ∧ TextSolvesFor lit ts s u us ρ I v) ltext)) := by
  obtain ⟨ts, hts, _⟩ := parseDomain_ok hd
  obtain ⟨t, s, b, u, _, _, ht, hs, hw, hb, hu, he⟩ := metric_sections hτ hp hm
  refine ⟨ts, t, s, b, u, readText_brackets.1 hts, ht, hs, hb, hu, ?_⟩
  intro hpl hk hgoal hkm D I ρ lit hlit ltext
  have key : ∀ l, L l → ∀ v, (∃ gs, GroundPlan d l gs ∧ SolvesFor lit ρ p m gs I v) ↔
      ∃ us, Brackets (lex l) us ∧ TextSolvesFor lit ts s u us ρ I v := by
    intro l hl v
    obtain ⟨gs, plan, h1, h2⟩ := hL l hl
    obtain ⟨us, hus, hsteps, hvalid⟩ := C59_steps.1 h1
    have e : SolvesFor lit ρ p m gs I v ↔ TextSolvesFor lit ts s u us ρ I v := by
      unfold SolvesFor TextSolvesFor
      rw [starts_iff hw.init hw.allInit hlit ρ I]
      simp only [runs_iff hσ hd hts hpl (hk l us hl hus) hsteps hvalid h2 hlit ρ I, hw.goal hgoal D _ lit ρ hlit,
        metricExp_cost _ lit he hkm]
    constructor
    · rintro ⟨gs', ⟨plan', h1', h2'⟩, h⟩
      rw [h1, Except.ok.injEq] at h1'
      subst h1'
      rw [h2, Except.ok.injEq] at h2'
      subst h2'
      exact ⟨us, hus, e.1 h⟩
    · rintro ⟨us', hus', h⟩
      have := readText_brackets.2 hus'
      rw [readText_brackets.2 hus, Except.ok.injEq] at this
      subst this
      exact ⟨gs, ⟨plan, h1, h2⟩, e.2 h⟩
  unfold BestOf
  refine and_congr_right fun hl => exists_congr fun v => and_congr (key ltext hl v) ?_
  exact forall_congr' fun l => forall_congr' fun w => forall_congr' fun hl' => imp_congr_left (key l hl' w)

/-! ### The full statement is false, and the order of plans changes -/

/-- Two actions, the first for `(f)` and the second for `(g)`. -/
def payDomain : Str := s%"(define (domain d) (:requirements :strips :numeric-fluents) (:predicates (q)) (:functions (f) (g))
  (:action a :parameters () :precondition (q) :effect (increase (f) 2))
  (:action b :parameters () :precondition (q) :effect (increase (g) 3)))"
/-- The metric counts `(f)` twice. -/
def payProblem : Str := s%"(define (problem p) (:domain d) (:init (q) (= (f) 0) (= (g) 0)) (:goal (q)) (:metric minimize (+ (f) (f) (g))))"

def payF : Expr := .nfun ⟨s%"f", []⟩
def payG : Expr := .nfun ⟨s%"g", []⟩
def payQ : Expr := .pred ⟨s%"q", []⟩

theorem payParsed : ∃ d σ' p τ', parseDomain (fun _ => none) .fresh payDomain = .ok (d, σ') ∧
    parseProblem (fun _ => none) [] payProblem = .ok (p, τ') ∧ p.metric = some ⟨.bfun .plus [payF, payG], false⟩ ∧
    p.init = [payQ, .bfun .eq [payF, .num (.int 0)], .bfun .eq [payG, .num (.int 0)]] ∧ p.goal = payQ ∧
    GroundPlan d s%"(a)" [⟨s%"a", [], some payQ, some (.bfun .increase [payF, .num (.int 2)])⟩] ∧
    GroundPlan d s%"(b)" [⟨s%"b", [], some payQ, some (.bfun .increase [payG, .num (.int 3)])⟩] := by
  have h0 : (match parseDomain (fun _ => none) .fresh payDomain, parseProblem (fun _ => none) [] payProblem,
      parsePlan s%"(a)", parsePlan s%"(b)" with
    | .ok (d, _), .ok (p, _), .ok pa, .ok pb => match pa.inst d, pb.inst d with
      | .ok ga, .ok gb => decide (p.metric = some ⟨.bfun .plus [payF, payG], false⟩ ∧
          p.init = [payQ, .bfun .eq [payF, .num (.int 0)], .bfun .eq [payG, .num (.int 0)]] ∧ p.goal = payQ ∧
          ga = [⟨s%"a", [], some payQ, some (.bfun .increase [payF, .num (.int 2)])⟩] ∧
          gb = [⟨s%"b", [], some payQ, some (.bfun .increase [payG, .num (.int 3)])⟩])
      | _, _ => false
    | _, _, _, _ => false) = true := by decide +kernel
  cases h1 : parseDomain (fun _ => none) .fresh payDomain with
  | error e => rw [h1] at h0; cases h0
  | ok r =>
    cases h2 : parseProblem (fun _ => none) [] payProblem with
    | error e => rw [h1, h2] at h0; cases h0
    | ok r2 =>
      cases h3 : parsePlan s%"(a)" with
      | error e => rw [h1, h2, h3] at h0; cases h0
      | ok pa =>
        cases h4 : parsePlan s%"(b)" with
        | error e => rw [h1, h2, h3, h4] at h0; cases h0
        | ok pb =>
          rw [h1, h2, h3, h4] at h0
          simp only at h0
          cases h5 : pa.inst r.1 with
          | error e => rw [h5] at h0; cases h0
          | ok ga =>
            cases h6 : pb.inst r.1 with
            | error e => rw [h5, h6] at h0; cases h0
            | ok gb =>
              rw [h5, h6] at h0
              simp only [decide_eq_true_eq] at h0
              obtain ⟨e1, e2, e3, rfl, rfl⟩ := h0
              exact ⟨r.1, r.2, r2.1, r2.2, rfl, rfl, e1, e2, e3, ⟨pa, h3, h5⟩, ⟨pb, h4, h6⟩⟩

def payTrees : List Tree := [word s%"define", .node [word s%"domain", word s%"d"],
  section_ s%"requirements" [.atom (.kw s%"strips"), .atom (.kw s%"numeric-fluents")],
  section_ s%"predicates" [.node [word s%"q"]], section_ s%"functions" [.node [word s%"f"], .node [word s%"g"]],
  actionText s%"a" [] (.node [word s%"q"]) (.node [word s%"increase", .node [word s%"f"], .atom (.num s%"2")]),
  actionText s%"b" [] (.node [word s%"q"]) (.node [word s%"increase", .node [word s%"g"], .atom (.num s%"3")])]

theorem payTrees_action {n ps pre eff} (h : actionText n ps pre eff ∈ payTrees) : ps = [] ∧ pre = .node [word s%"q"] ∧
    (n = s%"a" ∧ eff = .node [word s%"increase", .node [word s%"f"], .atom (.num s%"2")] ∨
      n = s%"b" ∧ eff = .node [word s%"increase", .node [word s%"g"], .atom (.num s%"3")]) := by
  have h' : (n = s%"a" ∧ ps = [] ∧ pre = .node [word s%"q"] ∧ eff = .node [word s%"increase", .node [word s%"f"], .atom (.num s%"2")]) ∨
      n = s%"b" ∧ ps = [] ∧ pre = .node [word s%"q"] ∧ eff = .node [word s%"increase", .node [word s%"g"], .atom (.num s%"3")] := by
    simpa [payTrees, actionText, section_, word] using h
  rcases h' with ⟨rfl, rfl, rfl, rfl⟩ | ⟨rfl, rfl, rfl, rfl⟩
  · exact ⟨rfl, rfl, .inl ⟨rfl, rfl⟩⟩
  · exact ⟨rfl, rfl, .inr ⟨rfl, rfl⟩⟩

theorem payTrees_plain : PlainActions payTrees := by
  refine ⟨?_, ?_, ?_, ?_, ?_⟩
  · intro n ps pre eff ps' pre' eff' h h'
    obtain ⟨rfl, rfl, k⟩ := payTrees_action h
    obtain ⟨rfl, rfl, k'⟩ := payTrees_action h'
    rcases k with ⟨rfl, rfl⟩ | ⟨rfl, rfl⟩ <;> rcases k' with ⟨e, rfl⟩ | ⟨e, rfl⟩ <;> first | exact ⟨rfl, rfl, rfl⟩ | simp at e
  · intro n ps pre eff l h hv
    obtain ⟨rfl, rfl, h⟩ := payTrees_action h
    rw [hv.names]
    decide +kernel
  · intro n ps pre eff h
    obtain ⟨_, rfl, _⟩ := payTrees_action h
    simp
  · intro n ps pre eff l h hv w vs c l' hw hi
    obtain ⟨_, rfl, _⟩ := payTrees_action h
    have := Tree.mem_parts.2 hi
    simp [Tree.parts, Tree.partss, word] at this
  · intro n ps pre eff h
    obtain ⟨_, _, h⟩ := payTrees_action h
    rcases h with ⟨_, rfl⟩ | ⟨_, rfl⟩ <;> exact noOneof_of_check (by decide +kernel)

theorem payTrees_stay (us : List Tree) : OperandsStay (fun _ => none) payTrees us :=
  C81_noArithmetic _ us fun n ps pre eff h => by
    obtain ⟨_, rfl, k⟩ := payTrees_action h
    refine ⟨noArith_of_check (by decide +kernel), ?_⟩
    rcases k with ⟨_, rfl⟩ | ⟨_, rfl⟩ <;> exact noArith_of_check (by decide +kernel)

/-- The first state: `(q)` holds, `(f)` and `(g)` are 0. -/
def payStart : Interp Unit :=
  ⟨fun _ => (), fun _ _ => True, fun n ds => n = s%"q" ∧ ds = [], fun n ds => if ds = [] ∧ (n = s%"f" ∨ n = s%"g") then some 0 else none⟩

/-- A step that increases the fluent `x` by `k`. -/
theorem payStep {n x : Str} {k : Int} {J : Interp Unit} (hx : x = s%"f" ∨ x = s%"g")
    (h : Runs (fun _ => ()) [⟨n, [], some payQ, some (.bfun .increase [.nfun ⟨x, []⟩, .num (.int k)])⟩] payStart J) :
    J.fn x [] = some (k : Rat) ∧ ∀ y, y ≠ x → J.fn y [] = payStart.fn y [] := by
  cases h with
  | cons h1 h2 =>
    cases h2
    have hn := h1.2
    constructor
    · have := hn.updated x [] .increase k ⟨_, rfl, by simp [makes, updated, updates, value, numVal]⟩ (by
        rintro op' v' ⟨e, he, hm⟩
        simp only [Option.some.injEq] at he
        subst he
        simp [makes, updated, updates, value, numVal] at hm
        simp [hm])
      rw [this]
      rcases hx with rfl | rfl <;> simp [payStart, update]
    · intro y hy
      refine hn.same y [] ?_
      rintro op v ⟨e, he, hm⟩
      simp only [Option.some.injEq] at he
      subst he
      simp [makes, updated, updates, value, numVal] at hm
      exact hy hm.2.1

theorem payRuns {g : Action} {I J : Interp Unit} (h : Acts (fun _ => ()) g I J) : Runs (fun _ => ()) [g] I J := .cons h .nil

/-- The step can be done. -/
theorem payStep_runs {n x : Str} {k : Int} (hx : x = s%"f" ∨ x = s%"g") :
    ∃ J : Interp Unit, Runs (fun _ => ()) [⟨n, [], some payQ, some (.bfun .increase [.nfun ⟨x, []⟩, .num (.int k)])⟩] payStart J ∧
      J.pred s%"q" [] := by
  refine ⟨⟨payStart.const, payStart.ty, payStart.pred, fun y ds => if y = x ∧ ds = [] then some (k : Rat) else payStart.fn y ds⟩,
    payRuns ⟨?_, rfl, rfl, ?_, ?_, ?_⟩, by simp [payStart]⟩
  · rintro e ⟨⟩
    simp [payQ, holds, payStart]
  · intro p ds
    simp [makes, updated]
  · intro f ds h
    have : ¬ (f = x ∧ ds = []) := by
      rintro ⟨rfl, rfl⟩
      exact h .increase k ⟨_, rfl, by simp [makes, updated, updates, value, numVal]⟩
    simp [this]
  · rintro f ds op v ⟨e, he, hm⟩ _
    simp only [Option.some.injEq] at he
    subst he
    simp [makes, updated, updates, value, numVal] at hm
    obtain ⟨rfl, rfl, rfl, rfl⟩ := hm
    rcases hx with rfl | rfl <;> simp [payStart, update]

/-- Numbers as the parser reads them. -/
def payLit : Str → Option Rat := fun s => (numLiteral (fun _ => none) s).toOption.bind numVal

theorem payLit_ok : LitOk payLit (fun _ => none) := by
  intro s n h
  simp [payLit, h, Except.toOption]

/-- The written metric. -/
def payMetric : Tree := .node [.atom .plus, .node [word s%"f"], .node [word s%"f"], .node [word s%"g"]]

def payInit : List Tree := [.node [word s%"q"], .node [.atom .eq, .node [word s%"f"], .atom (.num s%"0")],
  .node [.atom .eq, .node [word s%"g"], .atom (.num s%"0")]]

theorem paySections_only {t : Tree} {s : ProblemSections} (ht : Brackets (lex payProblem) [t]) (hs : s.Of t) :
    s.init = payInit ∧ s.goal = .node [word s%"q"] ∧ s.metric = some [word s%"minimize", payMetric] := by
  have e2 := readText_brackets.2 ht
  have k2 : readText payProblem = .ok [.node [word s%"define", .node [word s%"problem", word s%"p"], section_ s%"domain" [word s%"d"],
      section_ s%"init" payInit, section_ s%"goal" [.node [word s%"q"]],
      section_ s%"metric" [word s%"minimize", payMetric]]] := by decide +kernel
  obtain ⟨hd, _, e4⟩ := hs
  rw [k2] at e2
  simp only [Except.ok.injEq, List.cons.injEq, and_true] at e2
  rw [e4] at e2
  obtain ⟨n, dn, rq, os, is, g, ms⟩ := s
  cases rq <;> cases os <;> cases ms <;> simp [optText, section_, word] at e2
  obtain ⟨h0, rfl, rfl, rfl, rfl⟩ := e2
  simp [word]

theorem payStarts {init : List Expr} (h : init = [payQ, .bfun .eq [payF, .num (.int 0)], .bfun .eq [payG, .num (.int 0)]]) :
    StartsIn (fun _ => ()) init payStart := by
  subst h
  refine ⟨?_, ?_, ?_, ?_⟩
  · intro n ds
    simp [payStart, payQ]
  · intro p h
    simp [payQ] at h
  · intro f v h
    simp [payQ, payF, payG] at h
    rcases h with ⟨rfl, rfl⟩ | ⟨rfl, rfl⟩ <;> simp [payStart, numVal]
  · intro n ds h
    simp only [payStart, ne_eq, ite_eq_right_iff, reduceCtorEq, imp_false, not_not] at h
    obtain ⟨rfl, rfl | rfl⟩ := h <;> exact ⟨[], .int 0, by simp [payF, payG], rfl⟩

theorem payTextStarts : TextStarts payLit payInit payStart := by
  have h0 : payLit s%"0" = some 0 := by decide +kernel
  refine ⟨?_, ?_, ?_, ?_⟩
  · intro n ds
    simp only [payInit, applied, List.mem_cons, List.not_mem_nil, or_false, payStart]
    constructor
    · rintro ⟨rfl, rfl⟩
      exact ⟨[], .inl rfl, rfl⟩
    · rintro ⟨ns, h | h | h, rfl⟩ <;> simp [word] at h
      simp [h]
  · intro n ns h
    simp [payInit, applied, word] at h
  · intro t f ns s h hf
    simp only [payInit, List.mem_cons, List.not_mem_nil, or_false] at h
    have key : ∀ x : Str, t = .node [word x] → x = f ∧ ns = [] := by
      rintro x rfl
      rcases hf with hf | ⟨hf, _⟩
      · simp [applied, word] at hf
        exact hf
      · simp [word] at hf
    rcases h with h | h | h
    · simp [word] at h
    · simp at h
      obtain ⟨rfl, rfl⟩ := key _ h.1
      rw [h.2, h0]
      simp [payStart]
    · simp at h
      obtain ⟨rfl, rfl⟩ := key _ h.1
      rw [h.2, h0]
      simp [payStart]
  · intro n ds h
    simp only [payStart, ne_eq, ite_eq_right_iff, reduceCtorEq, imp_false, not_not] at h
    obtain ⟨rfl, rfl | rfl⟩ := h
    · exact ⟨.node [word s%"f"], [], s%"0", by simp [payInit], .inl rfl, rfl⟩
    · exact ⟨.node [word s%"g"], [], s%"0", by simp [payInit], .inl rfl, rfl⟩

theorem groundPlan_unique {d : Domain} {l : Str} {gs gs' : List Action} (h : GroundPlan d l gs) (h' : GroundPlan d l gs') : gs = gs' := by
  obtain ⟨p, h1, h2⟩ := h
  obtain ⟨p', h1', h2'⟩ := h'
  rw [h1, Except.ok.injEq] at h1'
  subst h1'
  rw [h2, Except.ok.injEq] at h2'
  exact h2'

theorem payTrees_read : readText payDomain = .ok [.node payTrees] := by decide +kernel

theorem payRunsText {d : Domain} {σ' : PState} (h1 : parseDomain (fun _ => none) .fresh payDomain = .ok (d, σ')) {l : Str} {us : List Tree}
    {gs : List Action} {J : Interp Unit} (hus : Brackets (lex l) us) (hg : GroundPlan d l gs) :
    Runs (fun _ => ()) gs payStart J ↔ TextRuns payLit payTrees (fun _ => ()) us payStart J := by
  obtain ⟨plan, hl, hg⟩ := hg
  obtain ⟨us', hus', hsteps, hvalid⟩ := C59_steps.1 hl
  have := readText_brackets.2 hus'
  rw [readText_brackets.2 hus, Except.ok.injEq] at this
  subst this
  exact runs_iff .fresh h1 payTrees_read payTrees_plain (payTrees_stay _) hsteps hvalid hg payLit_ok _ _ J

/-- In the problem that was read the plan `(a)` is better than `(b)`; in the text `(b)` is better than `(a)`: the parser reads
`(+ (f) (f) (g))` as `(+ (f) (g))`. The full statement fails, and with it the choice of the best plan. -/
theorem C104_fails_order : ∃ (d : Domain) (σ' : PState) (p : Pddl.Problem) (τ' : List (Str × Term)) (m : Pddl.Metric),
    parseDomain (fun _ => none) .fresh payDomain = .ok (d, σ') ∧ parseProblem (fun _ => none) [] payProblem = .ok (p, τ') ∧
    p.metric = some m ∧ Brackets (lex payDomain) [.node payTrees] ∧ PlainActions payTrees ∧ (∀ us, OperandsStay (fun _ => none) payTrees us) ∧
    WrittenMetric m.max [word s%"minimize", payMetric] payMetric ∧
    ∀ t (s : ProblemSections), Brackets (lex payProblem) [t] → s.Of t → s.metric = some [word s%"minimize", payMetric] ∧
    ∃ (I : Interp Unit) (ρ : Str → Unit) (lit : Str → Option Rat), LitOk lit (fun _ => none) ∧
      BestOf m.max (fun l => l = s%"(a)" ∨ l = s%"(b)") (fun l v => ∃ gs, GroundPlan d l gs ∧ SolvesFor lit ρ p m gs I v) s%"(a)" ∧
      ¬ BestOf m.max (fun l => l = s%"(a)" ∨ l = s%"(b)")
        (fun l v => ∃ us, Brackets (lex l) us ∧ TextSolvesFor lit payTrees s payMetric us ρ I v) s%"(a)" := by
  obtain ⟨d, σ', p, τ', h1, h2, hm, hi, hg, ga, gb⟩ := payParsed
  refine ⟨d, σ', p, τ', _, h1, h2, hm, readText_brackets.1 payTrees_read, payTrees_plain, payTrees_stay, .word _, ?_⟩
  intro t s ht hs
  obtain ⟨s1, s2, s3⟩ := paySections_only ht hs
  refine ⟨s3, payStart, fun _ => (), payLit, payLit_ok, ?_, ?_⟩
  · refine ⟨.inl rfl, 2, ⟨_, ga, ?_, ?_⟩, ?_⟩
    · exact payStarts hi
    · obtain ⟨J, hJ, hq⟩ := payStep_runs (n := s%"a") (k := 2) (.inl rfl)
      have := payStep (.inl rfl) hJ
      refine ⟨J, hJ, by rw [hg]; simpa [payQ, holds] using hq, ?_⟩
      simp [metricValue, metricValues, payF, payG, this.1, this.2 s%"g" (by decide), payStart, arith]
    · rintro l w (rfl | rfl) ⟨gs, hgs, _, J, hJ, _, hw⟩
      · have : gs = _ := groundPlan_unique hgs ga
        subst this
        have := payStep (.inl rfl) hJ
        simp [metricValue, metricValues, payF, payG, this.1, this.2 s%"g" (by decide), payStart, arith] at hw
        simp [AsGood, ← hw]
      · have : gs = _ := groundPlan_unique hgs gb
        subst this
        have := payStep (.inr rfl) hJ
        simp [metricValue, metricValues, payF, payG, this.1, this.2 s%"f" (by decide), payStart, arith] at hw
        simp only [AsGood, ← hw]
        norm_num
  · rintro ⟨_, v, ⟨us, hus, _, J, hJ, _, hv⟩, hbest⟩
    have ja := payStep (.inl rfl) ((payRunsText h1 hus ga).2 hJ)
    simp [payMetric, treeValue, treeValues, treeTerms, word, ja.1, ja.2 s%"g" (by decide), payStart, arith] at hv
    have hb : Brackets (lex s%"(b)") [.node [word s%"b"]] := readText_brackets.1 (by decide +kernel)
    obtain ⟨K, hK, hq⟩ := payStep_runs (n := s%"b") (k := 3) (.inr rfl)
    have jb := payStep (.inr rfl) hK
    have := hbest s%"(b)" 3 (.inr rfl) ⟨_, hb, ?_, K, (payRunsText h1 hb gb).1 hK, ?_, ?_⟩
    · simp only [AsGood, ← hv] at this
      norm_num at this
    · rw [s1]
      exact payTextStarts
    · rw [s2]
      simpa [treeHolds, treeTerms, word] using hq
    · simp [payMetric, treeValue, treeValues, treeTerms, word, jb.1, jb.2 s%"f" (by decide), payStart, arith]

/-- C104 is false of the code. -/
theorem C104_fails : ¬ C104_full := by
  intro H
  obtain ⟨d, σ', p, τ', h1, h2, hm, hi, hg, ga, gb⟩ := payParsed
  obtain ⟨ts, t, s, us, b, u, b1, b2, hs, b3, hb, hu, h⟩ := H _ _ _ _ _ _ _ _ _ _ _ _ .fresh C58_parser.1 h1 h2 ga hm
  obtain ⟨s1, s2, s3⟩ := paySections_only b2 hs
  rw [s3, Option.some.injEq] at hb
  subst hb
  have hu' : u = payMetric := by
    have := (dropKeyword_grammar (k := s%"minimize")).2 hu
    simpa [dropKeyword, word, eq_comm] using this
  subst hu'
  have e1 := readText_brackets.2 b1
  rw [payTrees_read] at e1
  simp only [Except.ok.injEq, List.cons.injEq, Tree.node.injEq, and_true] at e1
  subst e1
  obtain ⟨J, hJ, hq⟩ := payStep_runs (n := s%"a") (k := 2) (.inl rfl)
  have hc := payStep (.inl rfl) hJ
  have hsol := (h Unit payStart (fun _ => ()) payLit 2 payLit_ok).1 ⟨payStarts hi, J, hJ, by rw [hg]; simpa [payQ, holds] using hq, by
    simp [metricValue, metricValues, payF, payG, hc.1, hc.2 s%"g" (by decide), payStart, arith]⟩
  obtain ⟨_, K, hK, _, hv⟩ := hsol
  have ja := payStep (.inl rfl) ((payRunsText h1 b3 ga).2 hK)
  simp [payMetric, treeValue, treeValues, treeTerms, word, ja.1, ja.2 s%"g" (by decide), payStart, arith] at hv

/-! ### A metric that meets the conditions -/

/-- `(/ (+ (f) (* 2 (g)) 1) 4)` -/
def keptMetric : Tree := .node [.atom .divide, .node [.atom .plus, .node [word s%"f"], .node [.atom .times, .atom (.num s%"2"), .node [word s%"g"]],
  .atom (.num s%"1")], .atom (.num s%"4")]

example : readText s%"(/ (+ (f) (* 2 (g)) 1) 4)" = .ok [keptMetric] := by decide +kernel

example : KeepsMetric keptMetric := keepsMetric_of_check (by decide +kernel)

/-- With this metric the problem is read, and the two plans are compared as written: the actions and the goal are plain. -/
example : ∃ p τ' m, parseProblem (fun _ => none) [] s%"(define (problem p) (:domain d) (:init (q) (= (f) 0) (= (g) 0)) (:goal (q))
    (:metric maximize (/ (+ (f) (* 2 (g)) 1) 4)))" = .ok (p, τ') ∧ p.metric = some m ∧ m.max = true := by
  have h0 : (match parseProblem (fun _ => none) [] s%"(define (problem p) (:domain d) (:init (q) (= (f) 0) (= (g) 0)) (:goal (q))
    (:metric maximize (/ (+ (f) (* 2 (g)) 1) 4)))" with
    | .ok (p, _) => (match p.metric with | some m => m.max | none => false)
    | .error _ => false) = true := by decide +kernel
  cases h : parseProblem (fun _ => none) [] s%"(define (problem p) (:domain d) (:init (q) (= (f) 0) (= (g) 0)) (:goal (q))
    (:metric maximize (/ (+ (f) (* 2 (g)) 1) 4)))" with
  | error e => rw [h] at h0; cases h0
  | ok r =>
    rw [h] at h0
    cases hm : r.1.metric with
    | none => simp [hm] at h0
    | some m => exact ⟨r.1, r.2, m, rfl, hm, by simpa [hm] using h0⟩

end Pddl.Props
