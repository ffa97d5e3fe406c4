/-
C56: which exceptions a call of a new parser can raise.
-/
import Verif.Proofs.RaisesDomain

namespace Pddl.Props
open Pddl Pddl.Spec

/-- The exceptions of the package and of lark. -/
def readerErrors : List Exc := [.lark, .parsing, .missingReq, .validation, .undefined]

/-- C56 as stated: a new parser refuses a text only with an exception of lark or of the package. -/
def C56_full : Prop := ∀ (F : FloatOf) (text : Str) (e : Exc),
  (parseDomain F PState.fresh text = .error e → e ∈ readerErrors) ∧
  (parseProblem F [] text = .error e → e ∈ readerErrors) ∧
  (parsePlan text = .error e → e ∈ readerErrors)

/-- An action without its precondition and effect. -/
def bareActionText : Str := s%"(define (domain d) (:action a :parameters ()))"

/-- A number with two points. -/
def twoPointsText : Str := s%"(define (problem p) (:domain d) (:init) (:goal (< 1.2.3 3)))"

/-- Two declarations of a derived predicate with different types. -/
def clashText : Str := s%"(define (domain d) (:predicates (p ?x - a)) (:derived (p ?x - b) (and)))"

/-- The type of the derived predicate has a supertype that has a supertype other than the declared type. -/
def chainText : Str := s%"(define (domain d) (:requirements :typing) (:types b - c c - a) (:predicates (p ?x - a)) (:derived (p ?x - b) (and)))"

/-- C56 does not hold as stated: `None[1:]` is evaluated for the missing parts of an action. -/
theorem C56_fails : ¬ C56_full := by
  intro h
  have := (h (fun _ => none) bareActionText .type_).1 (raised_some.1 (by decide +kernel))
  revert this; decide

/-- … `RuntimeError` is raised for different types of a derived predicate, … -/
theorem C56_fails_runtime : parseDomain (fun _ => none) PState.fresh clashText = .error .runtime :=
  raised_some.1 (by decide +kernel)

/-- … the loop over the supertypes does not end, … -/
theorem C56_fails_loop : parseDomain (fun _ => none) PState.fresh chainText = .error .diverges :=
  raised_some.1 (by decide +kernel)

/-- … and `float` raises a `ValueError`. -/
theorem C56_fails_value : parseProblem (fun _ => none) [] twoPointsText = .error .value :=
  raised_some.1 (by decide +kernel)

/-- Two equal functions in a `:functions` section: the handler of the `ValueError` fails itself. -/
theorem C56_fails_functions :
    parseDomain (fun _ => none) PState.fresh s%"(define (domain d) (:requirements :fluents) (:functions (f) (f)))" = .error .type_ :=
  raised_some.1 (by decide +kernel)

theorem within_readText {S : List Exc} (h : Exc.lark ∈ S) {text : Str} : Within S (readText text) := by
  unfold readText
  split
  · exact Within.pure
  · exact Within.error h

theorem within_parseDomain (F : FloatOf) (text : Str) : Within (.lark :: domainErrors) (parseDomain F PState.fresh text) := by
  unfold parseDomain
  refine Within.bind (within_readText (by simp)) (fun ts hr => ?_)
  have hc := fun t ht => clean_text hr t ht
  split
  · exact within_domainDef (fun _ h => .tail _ h) rfl (fun t ht => (hc _ (by simp)).of_mem ht) (.inl (by simp))
  · exact Within.error (by simp)

theorem within_parseProblem (F : FloatOf) (text : Str) : Within (.lark :: problemErrors) (parseProblem F [] text) := by
  unfold parseProblem
  refine Within.bind (within_readText (by simp)) (fun ts hr => ?_)
  have hc := fun t ht => clean_text hr t ht
  split
  · exact within_problemDef (fun _ h => .tail _ h) (fun t ht => (hc _ (by simp)).of_mem ht) (.inl (by simp))
  · exact Within.error (by simp)

theorem within_parsePlan (text : Str) : Within [.lark, .validation] (parsePlan text) := by
  unfold parsePlan
  refine Within.bind (within_readText (by simp)) (fun ts hr => ?_)
  refine Within.bind (Within.mapM (fun t ht => ?_)) (fun _ _ => Within.pure)
  have hc := clean_text hr t ht
  unfold groundAction
  split
  · split
    · exact Within.error (by simp)
    · rename_i n args _ ns hns
      refine Within.bind (Within.mapM (fun m hm => ?_)) (fun _ _ => Within.pure)
      have hm' : nameRegex m = true := hc.of_mem (t := .atom (.name m))
        (.tail _ (by rw [namesOnly_some hns]; exact List.mem_map.2 ⟨m, hm, rfl⟩)) m .refl
      unfold mkConst parseName parseWith mkName
      refine Within.bind ?_ (fun _ _ => Within.pure)
      rw [if_pos hm']
      split
      · exact Within.error (by simp)
      · exact Within.ok
  · exact Within.error (by simp)

/-- C56 for domains: besides the exceptions of lark and of the package only these. What is missing are
`ValueError`, `TypeError`, `RuntimeError` and the loop. -/
theorem C56_domain_partial (F : FloatOf) (text : Str) (e : Exc) (h : parseDomain F PState.fresh text = .error e) :
    e ∈ readerErrors ∨ e ∈ [.value, .type_, .runtime, .diverges] := by
  have key := within_parseDomain F text e h
  revert key; cases e <;> decide

/-- C56 for problems: what is missing is `ValueError`. -/
theorem C56_problem_partial (F : FloatOf) (text : Str) (e : Exc) (h : parseProblem F [] text = .error e) :
    e ∈ readerErrors ∧ e ≠ .undefined ∨ e = .value := by
  have key := within_parseProblem F text e h
  revert key; cases e <;> decide

/-- C56 for plans holds; no other exception is raised. -/
theorem C56_plan (text : Str) (e : Exc) (h : parsePlan text = .error e) : e = .lark ∨ e = .validation := by
  have key := within_parsePlan text e h
  revert key; cases e <;> decide

/-- Each of the exceptions of these theorems is raised for some text. -/
theorem C56_reached_domain : ∀ e ∈ readerErrors ++ [.value, .type_, .runtime, .diverges],
    ∃ text, parseDomain (fun _ => none) PState.fresh text = .error e := by
  intro e he
  simp only [readerErrors, List.cons_append, List.nil_append, List.mem_cons, List.not_mem_nil, or_false] at he
  rcases he with rfl | rfl | rfl | rfl | rfl | rfl | rfl | rfl | rfl
  · exact ⟨s%"(", raised_some.1 (by decide +kernel)⟩
  · exact ⟨s%"(define (domain d) (:constants a a))", raised_some.1 (by decide +kernel)⟩
  · exact ⟨s%"(define (domain d) (:action a :parameters () :precondition (or) :effect (and)))", raised_some.1 (by decide +kernel)⟩
  · exact ⟨s%"(define (domain and))", raised_some.1 (by decide +kernel)⟩
  · exact ⟨s%"(define (domain d) (:action a :parameters () :precondition (p c) :effect (and)))", raised_some.1 (by decide +kernel)⟩
  · exact ⟨s%"(define (domain d) (:action a :parameters () :precondition (< 1.2.3 3) :effect (and)))",
      raised_some.1 (by decide +kernel)⟩
  · exact ⟨bareActionText, raised_some.1 (by decide +kernel)⟩
  · exact ⟨clashText, C56_fails_runtime⟩
  · exact ⟨chainText, C56_fails_loop⟩

theorem C56_reached_problem : ∀ e ∈ [Exc.lark, .parsing, .missingReq, .validation, .value],
    ∃ text, parseProblem (fun _ => none) [] text = .error e := by
  intro e he
  simp only [List.mem_cons, List.not_mem_nil, or_false] at he
  rcases he with rfl | rfl | rfl | rfl | rfl
  · exact ⟨s%"(", raised_some.1 (by decide +kernel)⟩
  · exact ⟨s%"(define (problem p) (:domain d) (:objects a a) (:init) (:goal (and)))", raised_some.1 (by decide +kernel)⟩
  · exact ⟨s%"(define (problem p) (:domain d) (:init) (:goal (or)))", raised_some.1 (by decide +kernel)⟩
  · exact ⟨s%"(define (problem object) (:domain d) (:init) (:goal (and)))", raised_some.1 (by decide +kernel)⟩
  · exact ⟨twoPointsText, C56_fails_value⟩

theorem C56_reached_plan : parsePlan s%"(a" = .error .lark ∧ parsePlan s%"(a object)" = .error .validation :=
  ⟨raised_some.1 (by decide +kernel), raised_some.1 (by decide +kernel)⟩

end Pddl.Props
