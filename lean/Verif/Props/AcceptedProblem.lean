/-
Which problem texts and plan texts are accepted.
-/
import Verif.Proofs.RulesProblem
import Verif.Props.Accepted

namespace Pddl.Props
open Spec Spec.Rules Spec.Grammar

/-- C80: a problem text is accepted by a fresh parser exactly if it obeys the rules of `Spec/RulesProblem.lean`. -/
theorem C80_problem (F : FloatOf) (text : Str) : (∃ r, parseProblem F [] text = .ok r) ↔ ProblemIn F text :=
  Rules.parseProblem_iff F (fun _ _ h => by cases h) text

/-- C80: a parser that has read other problems accepts the same texts. -/
theorem C80_used (F : FloatOf) {σ : List (Str × Term)} (hσ : OwnNames σ) (text : Str) :
    (∃ r, parseProblem F σ text = .ok r) ↔ ProblemIn F text :=
  Rules.parseProblem_iff F hσ text

/-- C80: the objects known after reading a problem are known under their names. -/
theorem C80_names (F : FloatOf) {σ σ' : List (Str × Term)} (hσ : OwnNames σ) {text : Str} {p : Problem}
    (h : parseProblem F σ text = .ok (p, σ')) : OwnNames σ' := by
  obtain ⟨ts, _, ⟨P⟩⟩ := parseProblem_ok h
  exact P.names hσ

/-- C80: a plan text is accepted exactly if it obeys the rules. -/
theorem C80_plan (text : Str) : (∃ p, parsePlan text = .ok p) ↔ PlanIn text := Rules.parsePlan_iff text

/-- C80: a goal with `or` is never accepted, whatever the requirements. -/
theorem C80_no_or (F : FloatOf) (ts : List Tree) : ¬ GoalIn F (.node (word s%"or" :: ts)) := by
  intro h
  generalize e : Tree.node (word s%"or" :: ts) = t at h
  cases h with
  | predicate hn _ =>
    simp only [word, Tree.node.injEq, List.cons.injEq, Tree.atom.injEq, Tok.name.injEq] at e
    rw [← e.1] at hn
    exact valid_not_keyword hn (by decide +kernel)
  | and _ => simp [word] at e
  | not _ => simp [word] at e
  | compare ho _ _ =>
    simp only [word, Tree.node.injEq, List.cons.injEq, Tree.atom.injEq] at e
    rw [← e.1] at ho
    simp at ho
  | equal _ _ _ => simp [word] at e

def ruledProblem : Str := "(define (problem p) (:domain d) (:requirements :adl) (:objects a b - t c)
  (:init (p a x) (not (q)) (= f 3)) (:goal (and (p ?y a) (not (p b)) (>= (f z) 2))) (:metric minimize (+ f 0.5)))".toList

example : ProblemIn (fun _ => none) ruledProblem := by
  rw [← C80_problem]
  have h : (match parseProblem (fun _ => none) [] ruledProblem with | .ok _ => true | .error _ => false) = true := by
    decide +kernel
  cases hr : parseProblem (fun _ => none) [] ruledProblem with
  | ok r => exact ⟨r, rfl⟩
  | error e => rw [hr] at h; cases h

/-- A goal of which the rules are shown to be broken. -/
def orProblem : Str := "(define (problem p) (:domain d) (:requirements :adl) (:init) (:goal (or (p) (q))))".toList

example : ¬ ∃ r, parseProblem (fun _ => none) [] orProblem = .ok r := by
  rw [C80_problem]
  rintro ⟨t, s, hb, ⟨h, hh, e⟩, hs⟩
  have hr := readText_brackets.2 hb
  have h2 : readText orProblem = .ok [.node (word s%"define" :: .node [word s%"problem", word s%"p"] :: section_ s%"domain" [word s%"d"] ::
      [section_ s%"requirements" [.atom (.kw s%"adl")], section_ s%"init" [],
        section_ s%"goal" [.node [word s%"or", .node [word s%"p"], .node [word s%"q"]]]])] := by decide +kernel
  rw [h2, e] at hr
  have hg := hs.goal
  obtain ⟨n, dn, rq, os, is, g, ms⟩ := s
  cases rq <;> cases os <;> cases ms <;> simp [optText, section_, word] at hr hg
  rw [← hr.2.2.2.2] at hg
  exact C80_no_or _ _ hg

example : ∃ p, parsePlan s%"(and a b) (m)" = .ok p := by
  rw [C80_plan]
  refine ⟨[applied s%"and" [s%"a", s%"b"], applied s%"m" []], readText_brackets.1 (by decide +kernel), ?_⟩
  intro t ht
  have hn : ∀ n ∈ [s%"a", s%"b"], ValidName n := fun n hn => by
    have : ∀ n ∈ [s%"a", s%"b"], parseName n = .ok n := by decide +kernel
    exact Rules.parseName_iff.1 (this n hn)
  simp only [List.mem_cons, List.not_mem_nil, or_false] at ht
  rcases ht with rfl | rfl
  · exact ⟨_, _, rfl, hn⟩
  · exact ⟨_, _, rfl, by simp⟩

end Pddl.Props
