/-
C72: the order of declarations in a problem text.
-/
import Verif.Proofs.RearrangedProblem
import Verif.Props.DerivedOrder

namespace Pddl.Props
open Pddl Spec Spec.Grammar

/-- C72: a text of a problem whose requirements, objects and initial facts stand in another order, with requirements
and facts repeated or not, is read to an equal problem, by a parser in any state; and the parser then knows the same
objects. -/
theorem C72_equal (F : FloatOf) (σ : List (Str × Term)) {text text' : Str} {t t' : Tree} {s s' : ProblemSections}
    (ht : Brackets (lex text) [t]) (ht' : Brackets (lex text') [t']) (hs : s.Of t) (hs' : s'.Of t')
    (hr : RearrangedProblem s s') {p : Problem} {σ1 : List (Str × Term)} (h : parseProblem F σ text = .ok (p, σ1)) :
    ∃ p' σ2, parseProblem F σ text' = .ok (p', σ2) ∧ p.pyEq p' = true ∧ SameObjects σ1 σ2 := by
  have hr1 := readText_brackets.2 ht
  have hr2 := readText_brackets.2 ht'
  cases t with
  | atom a => obtain ⟨_, _, e⟩ := hs; cases e
  | node ts =>
    cases t' with
    | atom a => obtain ⟨_, _, e⟩ := hs'; cases e
    | node ts' =>
      have h1 : problemDef F σ ts = .ok (p, σ1) := by
        unfold parseProblem at h
        rw [hr1] at h
        exact h
      obtain ⟨p', σ2, g, g2, g3⟩ := problemDef_rearranged (fun w => readText_words hr1 (List.mem_singleton.2 rfl))
        (fun w => readText_words hr2 (List.mem_singleton.2 rfl)) hs hs' hr h1
      refine ⟨p', σ2, ?_, g2, g3⟩
      unfold parseProblem
      rw [hr2]
      exact g

theorem rearrangedProblem_symm {s s' : ProblemSections} (h : RearrangedProblem s s') : RearrangedProblem s' s := by
  refine ⟨h.name.symm, h.domain.symm, sameOpt_symm (fun _ _ h t => (h t).symm) h.reqs, sameOpt_symm ?_ h.objects,
    fun t => (h.init t).symm, h.goal.symm, h.metric.symm⟩
  rintro b b' ⟨l, l', g1, g2, g3, g4, g5⟩
  exact ⟨l', l, g2, g1, g4, g3, g5.symm⟩

/-- C72: one of the two texts is accepted exactly if the other is. -/
theorem C72_accepted (F : FloatOf) (σ : List (Str × Term)) {text text' : Str} {t t' : Tree} {s s' : ProblemSections}
    (ht : Brackets (lex text) [t]) (ht' : Brackets (lex text') [t']) (hs : s.Of t) (hs' : s'.Of t')
    (hr : RearrangedProblem s s') :
    (∃ r, parseProblem F σ text = .ok r) ↔ ∃ r, parseProblem F σ text' = .ok r := by
  constructor
  · rintro ⟨r, h⟩
    obtain ⟨_, _, h, _⟩ := C72_equal F σ ht ht' hs hs' hr (p := r.1) (σ1 := r.2) h
    exact ⟨_, h⟩
  · rintro ⟨r, h⟩
    obtain ⟨_, _, h, _⟩ := C72_equal F σ ht' ht hs' hs (rearrangedProblem_symm hr) (p := r.1) (σ1 := r.2) h
    exact ⟨_, h⟩

/-! ### A case -/

def shuffleText : Str := s%"(define (problem p) (:domain d) (:requirements :typing :strips) (:objects x - a y z) (:init (on x y) (free z)) (:goal (free x)))"
def shuffledText : Str := s%"(define (problem p) (:domain d) (:requirements :strips :strips :typing) (:objects x - a z y) (:init (free z) (on x y) (free z)) (:goal (free x)))"

def shuffleSections : ProblemSections where
  name := s%"p"
  domain := s%"d"
  reqs := some [.atom (.kw s%"typing"), .atom (.kw s%"strips")]
  objects := some (⟨[([s%"x"], s%"a")], [s%"y", s%"z"]⟩ : NameList).text
  init := [.node [word s%"on", word s%"x", word s%"y"], .node [word s%"free", word s%"z"]]
  goal := .node [word s%"free", word s%"x"]
  metric := none

def shuffledSections : ProblemSections where
  name := s%"p"
  domain := s%"d"
  reqs := some [.atom (.kw s%"strips"), .atom (.kw s%"strips"), .atom (.kw s%"typing")]
  objects := some (⟨[([s%"x"], s%"a")], [s%"z", s%"y"]⟩ : NameList).text
  init := [.node [word s%"free", word s%"z"], .node [word s%"on", word s%"x", word s%"y"], .node [word s%"free", word s%"z"]]
  goal := .node [word s%"free", word s%"x"]
  metric := none

/-- The hypotheses of C72 hold for the two texts. -/
example : ∃ t t', Brackets (lex shuffleText) [t] ∧ Brackets (lex shuffledText) [t'] ∧ shuffleSections.Of t ∧
    shuffledSections.Of t' ∧ RearrangedProblem shuffleSections shuffledSections ∧
    (parseProblem (fun _ => none) [] shuffleText).toOption.isSome = true := by
  refine ⟨.node (treesOf shuffleText), .node (treesOf shuffledText), readText_brackets.1 (by decide +kernel),
    readText_brackets.1 (by decide +kernel), ⟨.node [word s%"problem", word s%"p"], ⟨_, rfl, .word _⟩, by decide +kernel⟩,
    ⟨.node [word s%"problem", word s%"p"], ⟨_, rfl, .word _⟩, by decide +kernel⟩, ⟨rfl, rfl, ?_, ?_, ?_, rfl, rfl⟩,
    by decide +kernel⟩
  · intro t
    simp only [List.mem_cons, List.not_mem_nil, or_false]
    tauto
  · exact ⟨_, _, rfl, rfl, by simp [NoEmptyGroup], by simp [NoEmptyGroup], by decide +kernel⟩
  · intro t
    simp only [shuffleSections, shuffledSections, List.mem_cons, List.not_mem_nil, or_false]
    tauto

end Pddl.Props
