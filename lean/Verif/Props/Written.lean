/-
C57: a parsed domain declares exactly what is written.
-/
import Verif.Proofs.Written
import Verif.Proofs.Raises

namespace Pddl.Props
open Pddl Spec Grammar

/-- The full statement: an accepted text has one bracketed expression made of sections, and the domain has the
written name, requirements, types, constants, predicates, functions, actions and derived predicates, and no others. The
parser may have been used before. -/
def C57_full : Prop := ∀ (F : FloatOf) (σ : PState) (text : Str) (d : Domain) (σ' : PState), ParserState F σ →
  parseDomain F σ text = .ok (d, σ') →
    ∃ t s, Brackets (lex text) [t] ∧ s.Of t ∧ DomainWritten F FunctionWritten s d

/-- What is missing: variables written for the function `total-cost` are dropped. -/
theorem C57_partial {F : FloatOf} {σ : PState} {text : Str} {d : Domain} {σ' : PState} (hσ : ParserState F σ)
    (h : parseDomain F σ text = .ok (d, σ')) :
    ∃ t s, Brackets (lex text) [t] ∧ s.Of t ∧ DomainWritten F FunctionRead s d := by
  obtain ⟨ts, hr, h⟩ := parseDomain_ok h
  obtain ⟨P⟩ := domainDef_ok h
  exact ⟨.node ts, P.sections, readText_brackets.1 hr, P.sections_of,
    P.written hσ (fun w hw => readText_words hr (t := .node ts) (by simp) hw)⟩

/-- `total-cost` with a variable. -/
def costText : Str := s%"(define (domain d) (:requirements :action-costs) (:functions (total-cost ?x)))"

theorem varsText_nil {b : List Tree} {l : TypedList} (h : VarsText b l) (hl : l.vars = []) : b = [] := by
  cases h with
  | rest ns =>
    cases ns with
    | nil => rfl
    | cons n ns => simp [TypedList.vars, TypedList.assigned] at hl
  | group h1 h2 => simp [TypedList.vars, TypedList.assigned] at hl

theorem functionsText_mem {b : List Tree} {l : List (Tree × Option Str)} (h : FunctionsText b l) {bs : List Tree}
    (hb : .node bs ∈ b) : ∃ p ∈ l, p.1 = .node bs := by
  induction h with
  | rest ts => exact ⟨_, List.mem_map.2 ⟨_, hb, rfl⟩, rfl⟩
  | group _ _ ih =>
    simp only [List.mem_append, List.mem_cons, reduceCtorEq, false_or, word] at hb
    rcases hb with hb | hb
    · exact ⟨_, List.mem_append_left _ (List.mem_map.2 ⟨_, hb, rfl⟩), rfl⟩
    · obtain ⟨p, hp, e⟩ := ih hb
      exact ⟨p, List.mem_append_right _ hp, e⟩

theorem C57_fails : ¬ C57_full := by
  intro H
  have hp : ∃ d σ', parseDomain (fun _ => none) .fresh costText = .ok (d, σ') ∧ d.functions = [(⟨s%"total-cost", []⟩, none)] := by
    have : (parseDomain (fun _ => none) .fresh costText).toOption.map (fun r => r.1.functions) =
      some [(⟨s%"total-cost", []⟩, none)] := by decide +kernel
    cases h : parseDomain (fun _ => none) .fresh costText with
    | error e => rw [h] at this; simp [Except.toOption] at this
    | ok r => rw [h] at this; exact ⟨r.1, r.2, rfl, by simpa [Except.toOption] using this⟩
  obtain ⟨d, σ', hp, hf⟩ := hp
  obtain ⟨t, s, ht, hs, hw⟩ := H _ _ _ _ _ .fresh hp
  have hr : readText costText = .ok [.node [word s%"define", .node [word s%"domain", word s%"d"],
      section_ s%"requirements" [.atom (.kw s%"action-costs")],
      section_ s%"functions" [.node (word s%"total-cost" :: varTrees s%"x")]]] := by decide +kernel
  have hr' := readText_brackets.2 ht
  rw [hr] at hr'
  simp only [Except.ok.injEq, List.cons.injEq, and_true] at hr'
  subst hr'
  obtain ⟨hd, _, he⟩ := hs
  obtain ⟨l, hl, hfs⟩ := hw.functions
  rw [hf] at hfs
  cases hsf : s.functions with
  | none =>
    rw [hsf] at hl
    generalize hb : ([] : List Tree) = b at hl
    simp only [Option.getD_none, hb] at hl
    cases hl with
    | rest ts => subst hb; cases hfs
    | group h _ => simp at hb
  | some b =>
    have hm : section_ s%"functions" b ∈ [word s%"define", .node [word s%"domain", word s%"d"],
      section_ s%"requirements" [.atom (.kw s%"action-costs")],
      section_ s%"functions" [.node (word s%"total-cost" :: varTrees s%"x")]] := by
      rw [Tree.node.inj he, hsf]
      simp [optText]
    have hb : b = [.node (word s%"total-cost" :: varTrees s%"x")] := by
      simpa [section_, word] using hm
    rw [hsf, hb] at hl
    obtain ⟨p, hp, hpt⟩ := functionsText_mem hl (bs := word s%"total-cost" :: varTrees s%"x") (by simp)
    cases hfs with
    | cons h h' =>
      cases h'
      simp only [List.mem_singleton] at hp
      subst hp
      obtain ⟨⟨b', h1, l', h2, h3⟩, _⟩ := h
      rw [hpt] at h1
      simp only [Tree.node.injEq, List.cons.injEq] at h1
      generalize hv : l'.vars = vs at h3
      cases h3
      have := varsText_nil h2 hv
      rw [← h1.2] at this
      simp [varTrees] at this

/-- A text with every section and with a derived predicate between two actions. -/
def allSectionsText : Str := s%"(define (domain d) (:requirements :typing :adl :derived-predicates :fluents)
  (:types a b - c c - object) (:constants k k2 - a l) (:predicates (p ?x ?y - a ?z) (q) (p ?x))
  (:functions (f ?x - a) (g) - number (h))
  (:action m :parameters (?x ?y - a) :precondition (p ?x ?y k) :effect (and (q) (when (q) (not (q)))))
  (:derived (p ?u) (exists (?w - a) (p ?u ?w k)))
  (:action n :parameters () :precondition () :effect ()))"

example : ParserState (fun _ => none) .fresh ∧
    (parseDomain (fun _ => none) .fresh allSectionsText).toOption.map (fun r =>
      (r.1.types.map Prod.snd, r.1.constants.length, r.1.predicates.length)) =
      some ([some s%"c", some s%"c", none], 3, 3) ∧
    (parseDomain (fun _ => none) .fresh allSectionsText).toOption.map (fun r =>
      (r.1.functions.map Prod.snd, r.1.actions.map Action.name, r.1.derived.map (fun x => x.pred.name))) =
      some ([some s%"number", some s%"number", none], [s%"m", s%"n"], [s%"p"]) :=
  ⟨.fresh, by decide +kernel, by decide +kernel⟩

end Pddl.Props
