/-
Which domain texts are accepted.
-/
import Verif.Proofs.RulesDom
import Verif.Props.SameText

namespace Pddl.Props
open Spec Spec.Rules Spec.Grammar

/-- C79: a domain text is accepted by a fresh parser exactly if it obeys the rules of `Spec/Rules.lean`. -/
theorem C79_accepted (F : FloatOf) (text : Str) : (∃ r, parseDomain F PState.fresh text = .ok r) ↔ DomainIn F text :=
  Rules.parseDomain_iff F text

/-- A text that does not obey the rules. -/
def smallText : Str := "(define (domain d) (:requirements :strips :typing) (:types a b - a) (:constants c - b)
  (:predicates (p ?x - a)) (:functions (total-cost) - number)
  (:action m :parameters (?x - b) :precondition (and (p ?x) (not (q c))) :effect (p c)))".toList

/-- Its `total-cost` has no `:action-costs`. -/
example : ¬ DomainIn (fun _ => none) smallText := by
  rw [← C79_accepted]
  have h : (match parseDomain (fun _ => none) PState.fresh smallText with | .ok _ => true | .error _ => false) = false := by
    decide +kernel
  rintro ⟨r, hr⟩
  rw [hr] at h
  cases h

/-- The sample obeys them. -/
example : DomainIn (fun _ => none) readSample := by
  rw [← C79_accepted]
  have h : (match parseDomain (fun _ => none) PState.fresh readSample with | .ok _ => true | .error _ => false) = true := by
    decide +kernel
  cases hr : parseDomain (fun _ => none) PState.fresh readSample with
  | ok r => exact ⟨r, rfl⟩
  | error e => rw [hr] at h; cases h

/-- A text of which the rules are shown to be obeyed one by one: the predicate `q` is not declared. -/
def ruledText : Str := "(define (domain d) (:constants c)
  (:action m :parameters (?x) :precondition (p ?x) :effect (not (q c))))".toList

example : ∃ r, parseDomain (fun _ => none) PState.fresh ruledText = .ok r := by
  rw [C79_accepted]
  have hn : ∀ n ∈ [s%"d", s%"m", s%"x", s%"p", s%"q", s%"c"], ValidName n := fun n hn => by
    have : ∀ n ∈ [s%"d", s%"m", s%"x", s%"p", s%"q", s%"c"], parseName n = .ok n := by decide +kernel
    exact Rules.parseName_iff.1 (this n hn)
  have hone : ∀ t : Term, Spec.Consistent [t] := by
    intro t a ha b hb _
    simp only [List.mem_singleton] at ha hb
    subst ha hb
    exact fun _ => Iff.rfl
  let x : List Tree := varTrees s%"x"
  let act : Tree := actionText s%"m" x (.node (word s%"p" :: x)) (.node [word s%"not", .node [word s%"q", word s%"c"]])
  let D : Decls := ⟨[], [], [(s%"c", none)], []⟩
  let l : List (Str × List Str) := [(s%"x", [])]
  refine ⟨.node (word s%"define" :: .node [word s%"domain", word s%"d"] :: [section_ s%"constants" [word s%"c"], act]),
    ⟨s%"d", none, none, some [word s%"c"], none, none, [act]⟩, D, readText_brackets.1 (by decide +kernel),
    ⟨.node [word s%"domain", word s%"d"], ⟨_, rfl, .word _⟩, rfl⟩, ?_⟩
  refine ⟨hn _ (by simp), rfl, rfl, ?_, rfl, (fun b hb => by cases hb), ?_⟩
  · refine ⟨⟨[], [s%"c"]⟩, rfl, ⟨by simp, ?_, by simp, by simp [NameList.pairs]⟩, rfl, ?_⟩
    · intro p hp
      simp only [NameList.pairs, List.flatMap_nil, List.nil_append, List.map_cons, List.map_nil, List.mem_singleton] at hp
      subst hp
      exact hn _ (by simp)
    · intro p hp t ht
      simp only [D, List.mem_singleton] at hp
      subst hp
      cases ht
  · refine .action (l := l) ⟨hn _ (by simp), ?_, .inr (.atomic ?_), .inr (.one (.not ?_))⟩ .nil
    · refine ⟨?_, ?_, ?_⟩
      · exact ⟨⟨[], [.str s%"x"]⟩, .rest [s%"x"], rfl⟩
      · intro p hp
        simp only [l, List.mem_singleton] at hp
        subst hp
        exact ⟨hn _ (by simp), by simp⟩
      · intro p hp q hq _
        simp only [l, List.mem_singleton] at hp hq
        subst hp hq
        exact fun _ => Iff.rfl
    · refine .predicate (l := [.var ⟨s%"x", []⟩]) (by decide +kernel) (hn _ (by simp)) ?_ ⟨?_, (fun τ h => by cases h)⟩
      · have := TermsIn.param (Γ := D.action (fun _ => none) l) (n := s%"x") (types := []) (ts := []) (l := [])
          (by simp [l, Decls.action]) .nil
        rwa [List.append_nil] at this
      · exact hone _
    · refine .predicate (l := [.const s%"c" none]) (by simp) (hn _ (by simp)) (.const (by simp [D, Decls.action]) .nil) ⟨?_, (fun τ h => by cases h)⟩
      exact hone _

end Pddl.Props
