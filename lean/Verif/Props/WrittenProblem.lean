/-
C58: a parsed problem contains exactly what is written.
C59: a parsed plan has exactly the written steps.
-/
import Verif.Proofs.WrittenProblem
import Verif.Proofs.ProblemRead
import Verif.Proofs.Raises

namespace Pddl.Props
open Pddl Spec Grammar

/-! ### C58 -/

/-- The full statement: an accepted text has one bracketed expression made of sections, and the problem has the
written name, domain name, requirements, objects, facts and values, goal and metric, and no others. Every parser that
has been used before satisfies `OwnNames` (`C58_parser`). -/
def C58_full : Prop := ∀ (F : FloatOf) (σ : List (Str × Term)) (text : Str) (p : Pddl.Problem) (σ' : List (Str × Term)),
  OwnNames σ → parseProblem F σ text = .ok (p, σ') →
    ∃ t s, Brackets (lex text) [t] ∧ s.Of t ∧ ProblemWritten F True (KeepsOperands (goalEnv F)) s p

/-- What is missing: a parser that was used before types the constants of a text without `:objects` by its old
objects, and metrics with numbers have no value. -/
theorem C58_partial {F : FloatOf} {σ : List (Str × Term)} {text : Str} {p : Pddl.Problem} {σ' : List (Str × Term)}
    (hσ : OwnNames σ) (h : parseProblem F σ text = .ok (p, σ')) :
    ∃ t s, Brackets (lex text) [t] ∧ s.Of t ∧
      ProblemWritten F (σ = [] ∨ s.objects ≠ none) (fun t => NoNumbers t ∧ KeepsOperands (goalEnv F) t) s p := by
  obtain ⟨ts, hr, ⟨P⟩⟩ := parseProblem_ok h
  exact ⟨.node ts, P.sections, readText_brackets.1 hr, P.sections_of,
    P.written (fun n x hx => (hσ n x hx).2) (fun w hw => readText_words hr (t := .node ts) (by simp) hw)⟩

/-- Parsers satisfy the hypothesis of `C58_partial`. -/
theorem C58_parser : OwnNames [] ∧ ∀ {F : FloatOf} {σ : List (Str × Term)} {text : Str} {p : Pddl.Problem}
    {σ' : List (Str × Term)}, OwnNames σ → parseProblem F σ text = .ok (p, σ') → OwnNames σ' := by
  refine ⟨fun n t h => by simp [dictGet] at h, ?_⟩
  intro F σ text p σ' hσ h
  obtain ⟨ts, hr, ⟨P⟩⟩ := parseProblem_ok h
  exact P.names hσ

/-- A metric with a number. -/
def constantMetricText : Str := s%"(define (problem p) (:domain d) (:init) (:goal (q)) (:metric minimize 5))"

theorem C58_fails : ¬ C58_full := by
  intro H
  have hp : ∃ p σ', parseProblem (fun _ => none) [] constantMetricText = .ok (p, σ') ∧
      p.metric = some ⟨.num (.str s%"5"), false⟩ := by
    have : (parseProblem (fun _ => none) [] constantMetricText).toOption.map (fun r => r.1.metric.map (fun m => (m.expr, m.max))) =
      some (some (.num (.str s%"5"), false)) := by decide +kernel
    cases h : parseProblem (fun _ => none) [] constantMetricText with
    | error e => rw [h] at this; simp [Except.toOption] at this
    | ok r =>
      rw [h] at this
      simp only [Except.toOption, Option.map_some, Option.some.injEq, Option.map_eq_some_iff, Prod.mk.injEq] at this
      obtain ⟨m, h1, h2, h3⟩ := this
      exact ⟨r.1, r.2, rfl, by rw [h1]; cases m; simp_all⟩
  obtain ⟨p, σ', hp, hm⟩ := hp
  obtain ⟨t, s, ht, hs, hw⟩ := H _ _ _ _ _ C58_parser.1 hp
  have hr : readText constantMetricText = .ok [.node [word s%"define", .node [word s%"problem", word s%"p"],
      section_ s%"domain" [word s%"d"], section_ s%"init" [], section_ s%"goal" [.node [word s%"q"]],
      section_ s%"metric" [word s%"minimize", .atom (.num s%"5")]]] := by decide +kernel
  have hr' := readText_brackets.2 ht
  rw [hr] at hr'
  simp only [Except.ok.injEq, List.cons.injEq, and_true] at hr'
  subst hr'
  obtain ⟨hd, _, he⟩ := hs
  have hmw := hw.metric
  rw [hm] at hmw
  cases hsm : s.metric with
  | none => rw [hsm] at hmw; exact hmw
  | some b =>
    rw [hsm] at hmw
    have hin : section_ s%"metric" b ∈ [word s%"define", .node [word s%"problem", word s%"p"],
      section_ s%"domain" [word s%"d"], section_ s%"init" [], section_ s%"goal" [.node [word s%"q"]],
      section_ s%"metric" [word s%"minimize", .atom (.num s%"5")]] := by
      rw [Tree.node.inj he, hsm]
      simp [optText]
    have hb : b = [word s%"minimize", .atom (.num s%"5")] := by simpa [section_, word] using hin
    obtain ⟨t, ht, hv⟩ := hmw
    have ht : Keyword s%"minimize" b [t] := ht
    rw [hb] at ht
    have e : t = .atom (.num s%"5") := by
      generalize hx : [word s%"minimize", Tree.atom (.num s%"5")] = x at ht
      generalize hy : [t] = y at ht
      cases ht with
      | word rest => subst hy; simpa [word] using hx.symm
      | fused c cs rest hc => simp [word] at hx; 
    subst e
    have hk : KeepsOperands (goalEnv fun _ => none) (.atom (.num s%"5")) := by
      constructor <;> (intro args es hi; cases hi)
    have := hv hk Unit ⟨fun _ => (), fun _ _ => True, fun _ _ => True, fun _ _ => none⟩
      (fun s => (numLiteral (fun _ => none) s).toOption.bind numVal) (fun _ => ()) (by
        intro s n h; simp only [h]; rfl)
    revert this
    decide

/-- A text without objects. -/
def otherTypesText : Str := s%"(define (problem p) (:domain d) (:init (p a)) (:goal (p a)))"

/-- The state after a text with `(:objects a - t)`. -/
theorem C58_typed_parser : OwnNames [(s%"a", .const s%"a" (some s%"t"))] := by
  intro n t h
  have := mem_of_dictGet h
  simp only [List.mem_singleton, Prod.mk.injEq] at this
  obtain ⟨rfl, rfl⟩ := this
  exact ⟨by decide +kernel, _, rfl⟩

/-- The types come from another text: also without a metric the full statement fails for a parser that was used
before. -/
theorem C58_fails_types : ¬ ∀ (F : FloatOf) (σ : List (Str × Term)) (text : Str) (p : Pddl.Problem) (σ' : List (Str × Term)),
    OwnNames σ → parseProblem F σ text = .ok (p, σ') →
    ∃ t s, Brackets (lex text) [t] ∧ s.Of t ∧ ProblemWritten F True (fun _ => False) s p := by
  intro H
  have hp : ∃ p σ', parseProblem (fun _ => none) [(s%"a", .const s%"a" (some s%"t"))] otherTypesText = .ok (p, σ') ∧
      p.objects = [] ∧ p.init = [.pred ⟨s%"p", [.const s%"a" (some s%"t")]⟩] := by
    have : (parseProblem (fun _ => none) [(s%"a", .const s%"a" (some s%"t"))] otherTypesText).toOption.map
        (fun r => (r.1.objects, r.1.init)) = some ([], [.pred ⟨s%"p", [.const s%"a" (some s%"t")]⟩]) := by decide +kernel
    cases h : parseProblem (fun _ => none) [(s%"a", .const s%"a" (some s%"t"))] otherTypesText with
    | error e => rw [h] at this; simp [Except.toOption] at this
    | ok r =>
      rw [h] at this
      simp only [Except.toOption, Option.map_some, Option.some.injEq, Prod.mk.injEq] at this
      exact ⟨r.1, r.2, rfl, this⟩
  obtain ⟨p, σ', hp, ho, hi⟩ := hp
  obtain ⟨t, s, ht, hs, hw⟩ := H _ _ _ _ _ C58_typed_parser hp
  obtain ⟨t', _, hw⟩ := hw.init (.pred ⟨s%"p", [.const s%"a" (some s%"t")]⟩) (by rw [hi]; simp)
  rw [ho] at hw
  cases hw with
  | fact h =>
    obtain ⟨ns, _, h⟩ := h
    generalize hc : [Term.const s%"a" (some s%"t")] = cs at h
    cases h with
    | nil => simp at hc
    | cons h _ =>
      simp only [List.cons.injEq] at hc
      rw [← hc.1] at h
      obtain ⟨x, h1, h2⟩ := h
      simp only [Term.const.injEq] at h1
      rcases h2 trivial with h2 | ⟨h2, _⟩
      · simp at h2
      · rw [h2] at h1; simp at h1

/-! ### C59 -/

/-- A text is a plan if and only if it is a sequence of brackets of words whose arguments are valid names, and the plan
has these steps in this order. -/
theorem C59_steps {text : Str} {p : Plan} : parsePlan text = .ok p ↔
    ∃ ts, Brackets (lex text) ts ∧ List.Forall₂ StepWritten ts p.steps ∧ ∀ s ∈ p.steps, ∀ c ∈ s.2, ValidName c.name := by
  constructor
  · intro h
    unfold parsePlan at h
    obtain ⟨ts, h1, h⟩ := bind_ok_iff.1 h
    obtain ⟨steps, h2, h⟩ := bind_ok_iff.1 h
    simp only [pure_ok, Except.ok.injEq] at h
    subst h
    have h2 := mapM_ok_iff.1 h2
    refine ⟨ts, readText_brackets.1 h1, h2.imp (fun _ _ h => groundAction_written h), ?_⟩
    intro s hs
    obtain ⟨t, _, h⟩ := zipped_right h2 hs
    exact groundAction_valid h
  · rintro ⟨ts, h1, h2, h3⟩
    unfold parsePlan
    have : ts.mapM groundAction = .ok p.steps := by
      rw [mapM_ok_iff]
      clear h1
      generalize p.steps = steps at h2 h3
      induction h2 with
      | nil => exact .nil
      | cons h _ ih =>
        exact .cons (groundAction_of h (h3 _ (by simp))) (ih (by
          exact fun s hs => h3 s (by simp [hs])))
    simp only [readText_brackets.2 h1, ok_bind, this, pure_ok]

/-- Two steps. -/
example : parsePlan s%"(move a b) ; comment
    (stop)" = .ok ⟨[(s%"move", [.const s%"a" none, .const s%"b" none]), (s%"stop", [])]⟩ := by
  have : (parsePlan s%"(move a b) ; comment
    (stop)").toOption.map Plan.steps = some [(s%"move", [.const s%"a" none, .const s%"b" none]), (s%"stop", [])] := by
    decide +kernel
  revert this
  cases parsePlan s%"(move a b) ; comment
    (stop)" with
  | error e => simp [Except.toOption]
  | ok p => intro h; simp [Except.toOption] at h; cases p; simp_all

/-- A text with every section. -/
def allPartsText : Str := s%"(define (problem p) (:domain d) (:requirements :typing :fluents) (:objects a b - t c)
  (:init (at a c) (not (at b c)) (= (f a) 3) (= g 2.5) (at a c))
  (:goal (and (at a b) (not (at b a)))) (:metric maximize (+ (f a) (- g))))"

/-- `2.5` is a float. -/
def floats : FloatOf := fun s => if s = s%"2.5" then some (.fin (5/2), s%"2.5") else none

example : OwnNames [] ∧
    (parseProblem floats [] allPartsText).toOption.map (fun r => (r.1.reqs, r.1.objects, r.1.init.length)) =
      some ([.typing, .fluents], [.const s%"a" (some s%"t"), .const s%"b" (some s%"t"), .const s%"c" none], 4) ∧
    (parseProblem floats [] allPartsText).toOption.map (fun r => (r.1.init.take 1, r.1.metric.map Metric.max)) =
      some ([.pred ⟨s%"at", [.const s%"a" (some s%"t"), .const s%"c" none]⟩], some true) :=
  ⟨C58_parser.1, by decide +kernel, by decide +kernel⟩

end Pddl.Props
