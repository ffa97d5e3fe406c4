/-
C81: a plan solves the problem that was read exactly if it solves the written problem.
-/
import Verif.Proofs.Execute

namespace Pddl.Props
open Spec Spec.Grammar

/-- C81. A domain, a problem and a plan are read, and the plan is grounded. Whatever the objects and the first state,
the ground actions lead from the start to the goal exactly if the written steps lead from the written start to the
written goal. (Derived predicates are not evaluated on either side; see C92.) -/
def C81_full : Prop :=
  ∀ (F : FloatOf) (σ : PState) (dtext : Str) (d : Domain) (σ' : PState) (τ : List (Str × Term)) (ptext : Str) (p : Pddl.Problem)
    (τ' : List (Str × Term)) (ltext : Str) (plan : Plan) (gs : List Action),
    ParserState F σ → OwnNames τ → parseDomain F σ dtext = .ok (d, σ') → parseProblem F τ ptext = .ok (p, τ') →
    parsePlan ltext = .ok plan → plan.inst d = .ok gs →
    ∃ ts t s us, Brackets (lex dtext) [.node ts] ∧ Brackets (lex ptext) [t] ∧ s.Of t ∧ Brackets (lex ltext) us ∧
      ∀ (D : Type) (I : Interp D) ρ lit, LitOk lit F → (Solves ρ p gs I ↔ TextSolves lit ts s us ρ I)

/-- What holds: the actions are written without the features for which C46 and C74 fail, and the operands of sums,
products, quotients and equations stay different with the arguments of the steps written in. -/
theorem C81_partial {F : FloatOf} {σ : PState} {dtext : Str} {d : Domain} {σ' : PState} {τ : List (Str × Term)} {ptext : Str}
    {p : Pddl.Problem} {τ' : List (Str × Term)} {ltext : Str} {plan : Plan} {gs : List Action}
    (hσ : ParserState F σ) (hτ : OwnNames τ) (hd : parseDomain F σ dtext = .ok (d, σ')) (hp : parseProblem F τ ptext = .ok (p, τ'))
    (hl : parsePlan ltext = .ok plan) (hg : plan.inst d = .ok gs) :
    ∃ ts t s us, Brackets (lex dtext) [.node ts] ∧ Brackets (lex ptext) [t] ∧ s.Of t ∧ Brackets (lex ltext) us ∧
      (PlainActions ts → OperandsStay F ts us → KeepsOperands (goalEnv F) s.goal →
        ∀ (D : Type) (I : Interp D) ρ lit, LitOk lit F → (Solves ρ p gs I ↔ TextSolves lit ts s us ρ I)) := by
  obtain ⟨ts, hts, _⟩ := parseDomain_ok hd
  obtain ⟨t, s, ht, hs, hw⟩ := C58_partial hτ hp
  obtain ⟨us, hus, hsteps, hvalid⟩ := C59_steps.1 hl
  refine ⟨ts, t, s, us, readText_brackets.1 hts, ht, hs, hus, ?_⟩
  intro hpl hk hgoal D I ρ lit hlit
  unfold Solves TextSolves
  rw [starts_iff hw.init hw.allInit hlit ρ I]
  simp only [runs_iff hσ hd hts hpl hk hsteps hvalid hg hlit ρ I, hw.goal hgoal D _ lit ρ hlit]

/-- Each ground action makes the written step. -/
theorem C81_runs {F : FloatOf} {σ : PState} {text : Str} {d : Domain} {σ' : PState} {ltext : Str} {plan : Plan} {gs : List Action}
    (hσ : ParserState F σ) (h : parseDomain F σ text = .ok (d, σ')) (hl : parsePlan ltext = .ok plan) (hg : plan.inst d = .ok gs) :
    ∃ ts us, Brackets (lex text) [.node ts] ∧ Brackets (lex ltext) us ∧ (PlainActions ts → OperandsStay F ts us →
      ∀ (D : Type) (I J : Interp D) ρ lit, LitOk lit F → (Runs ρ gs I J ↔ TextRuns lit ts ρ us I J)) := by
  obtain ⟨ts, hts, _⟩ := parseDomain_ok h
  obtain ⟨us, hus, hsteps, hvalid⟩ := C59_steps.1 hl
  exact ⟨ts, us, readText_brackets.1 hts, hus, fun hpl hk D I J ρ lit hlit => runs_iff hσ h hts hpl hk hsteps hvalid hg hlit ρ I J⟩

/-- Without arithmetic the operands stay different. -/
theorem C81_noArithmetic (F : FloatOf) {ts : List Tree} (us : List Tree)
    (h : ∀ n ps pre eff, actionText n ps pre eff ∈ ts → NoArithmetic pre ∧ NoArithmetic eff) : OperandsStay F ts us :=
  fun n _ ps pre eff _ _ hin _ => ⟨C74_operands_plain F _ (h n ps pre eff hin).1, C74_operands_plain F _ (h n ps pre eff hin).2⟩

/-! ### A text that meets the conditions -/

def goDomain : Str := s%"(define (domain d) (:requirements :strips :typing :numeric-fluents) (:types t) (:predicates (at ?x))
  (:functions (dist ?x ?y) (fuel))
  (:action go :parameters (?x ?y - t) :precondition (and (at ?x) (> (fuel) (+ (dist ?x ?y) (dist ?y ?x))))
    :effect (and (not (at ?x)) (at ?y) (decrease (fuel) (dist ?x ?y)))))"

def goProblem : Str := s%"(define (problem p) (:domain d) (:objects a b c - t) (:init (at a) (= (fuel) 9) (= (dist a b) 2)
  (= (dist b a) 2) (= (dist b c) 1) (= (dist c b) 3)) (:goal (and (at c) (not (at a)) (> (fuel) (+ (dist b a) 1)))))"

def goPlan : Str := s%"(go a b) (go b c)"

example : (match parseDomain (fun _ => none) .fresh goDomain, parseProblem (fun _ => none) [] goProblem, parsePlan goPlan with
    | .ok (d, _), .ok _, .ok plan => match plan.inst d with
      | .ok gs => decide (gs.length = 2)
      | _ => false
    | _, _, _ => false) = true := by decide +kernel

def distText (x y : Str) : Tree := .node (word s%"dist" :: (varTrees x ++ varTrees y))

def goPre : Tree := .node [word s%"and", .node (word s%"at" :: varTrees s%"x"),
  .node [.atom .gt, .node [word s%"fuel"], .node [.atom .plus, distText s%"x" s%"y", distText s%"y" s%"x"]]]

def goEff : Tree := .node [word s%"and", .node [word s%"not", .node (word s%"at" :: varTrees s%"x")], .node (word s%"at" :: varTrees s%"y"),
  .node [word s%"decrease", .node [word s%"fuel"], distText s%"x" s%"y"]]

def goTrees : List Tree := [word s%"define", .node [word s%"domain", word s%"d"],
  section_ s%"requirements" [.atom (.kw s%"strips"), .atom (.kw s%"typing"), .atom (.kw s%"numeric-fluents")], section_ s%"types" [word s%"t"],
  section_ s%"predicates" [.node (word s%"at" :: varTrees s%"x")],
  section_ s%"functions" [distText s%"x" s%"y", .node [word s%"fuel"]],
  actionText s%"go" (varTrees s%"x" ++ varTrees s%"y" ++ [.atom .minus, word s%"t"]) goPre goEff]

def goSteps : List Tree := [applied s%"go" [s%"a", s%"b"], applied s%"go" [s%"b", s%"c"]]

example : Brackets (lex goDomain) [.node goTrees] := readText_brackets.1 (by decide +kernel)

example : Brackets (lex goPlan) goSteps := readText_brackets.1 (by decide +kernel)

theorem goTrees_action {n ps pre eff} (h : actionText n ps pre eff ∈ goTrees) : n = s%"go" ∧
    ps = varTrees s%"x" ++ varTrees s%"y" ++ [.atom .minus, word s%"t"] ∧ pre = goPre ∧ eff = goEff := by
  simpa [goTrees, actionText, section_, word, varTrees] using h

example : PlainActions goTrees := by
  refine ⟨?_, ?_, ?_, ?_, ?_⟩
  · intro n ps pre eff ps' pre' eff' h h'
    obtain ⟨_, rfl, rfl, rfl⟩ := goTrees_action h
    obtain ⟨_, rfl, rfl, rfl⟩ := goTrees_action h'
    exact ⟨rfl, rfl, rfl⟩
  · intro n ps pre eff l h hv
    obtain ⟨_, rfl, rfl, rfl⟩ := goTrees_action h
    rw [hv.names]
    decide +kernel
  · intro n ps pre eff h
    obtain ⟨_, rfl, rfl, rfl⟩ := goTrees_action h
    simp [goPre]
  · intro n ps pre eff l h hv w vs c l' hw hi
    obtain ⟨_, rfl, rfl, rfl⟩ := goTrees_action h
    have := Tree.mem_parts.2 hi
    simp [goPre, distText, Tree.parts, Tree.partss, word, varTrees] at this
    rcases hw with rfl | rfl <;> simp at this
  · intro n ps pre eff h
    obtain ⟨_, rfl, rfl, rfl⟩ := goTrees_action h
    exact noOneof_of_check (by decide +kernel)

/-- For the steps of the plan the operands stay different. -/
example : OperandsStay (fun _ => none) goTrees goSteps := by
  intro n ns ps pre eff l hu hin hv
  obtain ⟨rfl, rfl, rfl, rfl⟩ := goTrees_action hin
  rw [hv.names]
  rcases List.mem_cons.1 hu with e | hu
  · obtain ⟨_, e⟩ := applied_inj e
    subst e
    exact ⟨keeps_of_check (by decide +kernel), keeps_of_check (by decide +kernel)⟩
  · obtain ⟨_, e⟩ := applied_inj (List.mem_singleton.1 hu)
    subst e
    exact ⟨keeps_of_check (by decide +kernel), keeps_of_check (by decide +kernel)⟩

/-! ### The full statement is false -/

def emptyProblem : Str := s%"(define (problem p) (:domain d) (:init) (:goal (p a)))"
def emptyPlan : Str := s%"(m a)"

theorem emptyParsed : ∃ d σ' p τ' plan gs e, parseDomain (fun _ => none) .fresh emptyPreText = .ok (d, σ') ∧
    parseProblem (fun _ => none) [] emptyProblem = .ok (p, τ') ∧ parsePlan emptyPlan = .ok plan ∧ plan.inst d = .ok gs ∧
    gs = [⟨s%"m", [.const s%"a" none], some (.bin .or []), some e⟩] := by
  have h0 : (match parseDomain (fun _ => none) .fresh emptyPreText, parseProblem (fun _ => none) [] emptyProblem, parsePlan emptyPlan with
    | .ok (d, _), .ok _, .ok plan => match plan.inst d with
      | .ok gs => decide (gs = [⟨s%"m", [.const s%"a" none], some (.bin .or []), some (.pred ⟨s%"p", [.const s%"a" none]⟩)⟩])
      | _ => false
    | _, _, _ => false) = true := by decide +kernel
  cases h1 : parseDomain (fun _ => none) .fresh emptyPreText with
  | error e => rw [h1] at h0; cases h0
  | ok r =>
    cases h2 : parseProblem (fun _ => none) [] emptyProblem with
    | error e => rw [h1, h2] at h0; cases h0
    | ok r2 =>
      cases h3 : parsePlan emptyPlan with
      | error e => rw [h1, h2, h3] at h0; cases h0
      | ok plan =>
        rw [h1, h2, h3] at h0
        simp only at h0
        cases h4 : plan.inst r.1 with
        | error e => rw [h4] at h0; cases h0
        | ok gs =>
          rw [h4] at h0
          exact ⟨r.1, r.2, r2.1, r2.2, plan, gs, _, rfl, rfl, rfl, h4, by simpa using h0⟩

/-- C81 is false: an action with the precondition `()` applies everywhere, but the action that is read never applies. -/
theorem C81_fails : ¬ C81_full := by
  intro H
  obtain ⟨d, σ', p, τ', plan, gs, e, h1, h2, h3, h4, rfl⟩ := emptyParsed
  obtain ⟨ts, t, s, us, b1, b2, hs, b3, h⟩ := H _ _ _ _ _ _ _ _ _ _ _ _ .fresh C58_parser.1 h1 h2 h3 h4
  let I : Interp Unit := ⟨fun _ => (), fun _ _ => True, fun _ _ => False, fun _ _ => none⟩
  let J : Interp Unit := ⟨fun _ => (), fun _ _ => True, fun n ds => n = s%"p" ∧ ds = [()], fun _ _ => none⟩
  let lit : Str → Option Rat := fun s => (numLiteral (fun _ => none) s).toOption.bind numVal
  have hlit : LitOk lit (fun _ => none) := by
    intro s n h
    simp [lit, h, Except.toOption]
  have e1 := readText_brackets.2 b1
  have e2 := readText_brackets.2 b2
  have e3 := readText_brackets.2 b3
  have k1 : readText emptyPreText = .ok [.node [word s%"define", .node [word s%"domain", word s%"d"],
      section_ s%"requirements" [.atom (.kw s%"strips")], section_ s%"predicates" [.node (word s%"p" :: varTrees s%"u")],
      actionText s%"m" (varTrees s%"x") (.node []) (.node (word s%"p" :: varTrees s%"x"))]] := by decide +kernel
  have k2 : readText emptyProblem = .ok [.node [word s%"define", .node [word s%"problem", word s%"p"], section_ s%"domain" [word s%"d"],
      section_ s%"init" [], section_ s%"goal" [applied s%"p" [s%"a"]]]] := by decide +kernel
  have k3 : readText emptyPlan = .ok [applied s%"m" [s%"a"]] := by decide +kernel
  rw [k1] at e1
  rw [k2] at e2
  rw [k3] at e3
  simp only [Except.ok.injEq, List.cons.injEq, Tree.node.injEq, and_true] at e1 e2 e3
  subst e3
  obtain ⟨hd, _, e4⟩ := hs
  have e5 : s.init = [] ∧ s.goal = applied s%"p" [s%"a"] := by
    rw [e4] at e2
    obtain ⟨n, dn, rq, os, is, g, ms⟩ := s
    cases rq <;> cases os <;> cases ms <;> simp [optText, section_, word, applied] at e2
    exact ⟨e2.2.2.1, e2.2.2.2.symm⟩
  have hsol : TextSolves lit ts s [applied s%"m" [s%"a"]] (fun _ => ()) I := by
    refine ⟨⟨?_, ?_, ?_, ?_⟩, J, .cons (J := J) ?_ .nil, ?_⟩
    · intro n ds; rw [e5.1]; simp [I]
    · intro n ns h; rw [e5.1] at h; simp at h
    · intro t f ns s' h; rw [e5.1] at h; simp at h
    · intro n ds h; simp [I] at h
    · refine ⟨s%"m", [s%"a"], varTrees s%"x", .node [], .node (word s%"p" :: varTrees s%"x"), ⟨[], [.str s%"x"]⟩, fun _ => (), rfl, ?_,
        .rest [s%"x"], rfl, fun _ _ => rfl, fun _ _ => rfl, .inl rfl, ⟨rfl, rfl, ?_, fun _ _ _ => rfl, ?_⟩⟩
      · rw [← e1]; simp
      · intro n ds
        simp [I, J, treeMakes, word, varTrees, treeTerms, updateWord]
      · intro f ds op v hc
        simp [treeMakes, word, varTrees, treeTerms, updateWord] at hc
    · rw [e5.2]
      simp [applied, treeHolds, treeTerms, J]
  obtain ⟨_, K, hr, _⟩ := (h Unit I (fun _ => ()) lit hlit).2 hsol
  cases hr with
  | cons ha _ =>
    have := ha.1 _ rfl
    simp [holds, holdsSome] at this

end Pddl.Props
