/-
C55: parsing follows the grammar.
-/
import Verif.Proofs.RaisesDomain

namespace Pddl.Props
open Spec Spec.Grammar

/-- The text is derivable from the start symbol `domain` of grammar.lark; with `G := False` without the
alternatives that the tables of the LALR parser do not reach. -/
def DomainText (G : Prop) (text : Str) : Prop := ∃ t, Brackets (lex text) [t] ∧ Grammar.Domain G t

/-- The text is derivable from the start symbol `problem`. -/
def ProblemText (G : Prop) (text : Str) : Prop := ∃ t, Brackets (lex text) [t] ∧ Grammar.Problem G t

/-- The text is derivable from the start symbol `plan`. -/
def PlanText (text : Str) : Prop := ∃ ts, Brackets (lex text) ts ∧ Grammar.Plan ts

/-- C55, first half: only texts of the grammar are accepted, in whatever state the parser is. -/
theorem C55_accepted_domain (F : FloatOf) (σ : PState) (text : Str) {r} (h : parseDomain F σ text = .ok r) :
    DomainText True text := by
  obtain ⟨ts, h1, h2⟩ := parseDomain_ok h
  obtain ⟨P⟩ := domainDef_ok h2
  exact ⟨_, readText_brackets.1 h1, P.grammar True⟩

theorem C55_accepted_problem (F : FloatOf) (σ : List (Str × Term)) (text : Str) {r} (h : parseProblem F σ text = .ok r) :
    ProblemText True text := by
  obtain ⟨ts, h1, ⟨P⟩⟩ := parseProblem_ok h
  exact ⟨_, readText_brackets.1 h1, P.grammar True⟩

theorem C55_accepted_plan (text : Str) {p} (h : parsePlan text = .ok p) : PlanText text := by
  obtain ⟨ts, h1, h2⟩ := bind_ok_iff.1 h
  obtain ⟨steps, h2, _⟩ := bind_ok_iff.1 h2
  refine ⟨ts, readText_brackets.1 h1, fun t ht => ?_⟩
  obtain ⟨y, _, hy⟩ := mapM_ok_mem h2 ht
  exact groundAction_grammar hy

/-- Accepted texts. -/
example : raised (parseDomain (fun _ => none) PState.fresh s%"(define (domain d) (:predicates (p ?x)))") = none := by
  decide +kernel
example : raised (parseProblem (fun _ => none) [] s%"(define (problem p) (:domain d) (:init) (:goal (and)))") = none := by
  decide +kernel
example : raised (parsePlan s%"(a b c) (a)") = none := by decide +kernel

/-- C55, second half, as stated: a new parser does not refuse a text of the grammar as a syntax error. -/
def C55_full : Prop := ∀ (F : FloatOf) (text : Str),
  (DomainText True text → parseDomain F PState.fresh text ≠ .error .lark) ∧
  (ProblemText True text → parseProblem F [] text ≠ .error .lark) ∧
  (PlanText text → parsePlan text ≠ .error .lark)

/-- A difference of two numbers in a precondition. -/
def differenceText : Str := s%"(define (domain d) (:action a :parameters () :precondition (< (- 3 2) 4) :effect (and)))"

/-- A comparison of a function without brackets. -/
def bareFunctionText : Str := s%"(define (domain d) (:constants f) (:action a :parameters () :precondition (= f 4) :effect (and)))"

/-- A difference in a metric. -/
def metricText : Str := s%"(define (problem p) (:domain d) (:init) (:goal (and)) (:metric minimize (- f 2)))"

theorem emptyVars : TypedVars [] := ⟨⟨[], []⟩, .rest []⟩

theorem bracket_text {text : Str} {ts : List Tree} (h : readText text = .ok ts) : Brackets (lex text) ts :=
  readText_brackets.1 h

/-- An action without parameters and effects. -/
def testAction (c : Tree) : Tree :=
  section_ s%"action" [word s%"a", .atom (.kw s%"parameters"), .node [], .atom (.kw s%"precondition"), c,
    .atom (.kw s%"effect"), .node [word s%"and"]]

theorem testAction_domain {c : Tree} {cs : List Tree} (hc : Opt s%"constants" TypedNames cs) (h : Gd True c) :
    Grammar.Domain True (.node (word s%"define" :: .node [word s%"domain", word s%"d"] :: ([] ++ [] ++ cs ++ [] ++ [] ++ [testAction c]))) := by
  refine ⟨_, [], [], cs, [], [], [testAction c], rfl, ⟨_, _, rfl, .word _⟩, .absent, .absent, hc, .absent, .absent, ?_⟩
  intro s hs
  rw [List.mem_singleton.1 hs]
  exact .action _ emptyVars (.both (.inr h) (.inr (.and (by simp))))

theorem differenceText_derivable : DomainText True differenceText :=
  ⟨_, bracket_text (by decide +kernel), testAction_domain (cs := []) (c := .node [.atom .lt, .node [.atom .minus, .atom (.num s%"3"), .atom (.num s%"2")],
    .atom (.num s%"4")]) .absent (.compare (by simp) (.minus trivial (.literal _) (.literal _)) (.literal _))⟩

theorem bareFunctionText_derivable : DomainText True bareFunctionText :=
  ⟨_, bracket_text (by decide +kernel), testAction_domain (cs := [section_ s%"constants" [word s%"f"]])
    (c := .node [.atom .eq, word s%"f", .atom (.num s%"4")]) (.present ⟨⟨[], [s%"f"]⟩, rfl, by simp⟩) (.equal (.inl trivial) (.head (.name _)) (.literal _))⟩

theorem metricText_derivable : ProblemText True metricText := by
  refine ⟨.node (word s%"define" :: .node [word s%"problem", word s%"p"] :: section_ s%"domain" [word s%"d"] ::
    ([] ++ [] ++ section_ s%"init" [] :: section_ s%"goal" [.node [word s%"and"]] ::
      [section_ s%"metric" [word s%"minimize", .node [.atom .minus, word s%"f", .atom (.num s%"2")]]])),
    bracket_text (by decide +kernel), ?_⟩
  exact ⟨_, _, [], [], [], _, _, rfl, ⟨_, _, rfl, .word _⟩, .absent, .absent, by simp, .and (by simp),
    .present ⟨_, .inr (.word _), .minus trivial (.function (.name _)) (.literal _)⟩⟩

/-- C55 does not hold as stated: the tables of the parser, built with the conflicts of the grammar resolved by
shifting, refuse differences, also in metrics, and a comparison that begins with a function without brackets. -/
theorem C55_fails : ¬ C55_full := by
  intro h
  exact (h (fun _ => none) differenceText).1 differenceText_derivable
    (raised_some.1 (by decide +kernel))

theorem C55_fails_metric :
    ProblemText True metricText ∧ parseProblem (fun _ => none) [] metricText = .error .lark :=
  ⟨metricText_derivable, raised_some.1 (by decide +kernel)⟩

theorem C55_fails_function :
    DomainText True bareFunctionText ∧ parseDomain (fun _ => none) PState.fresh bareFunctionText = .error .lark :=
  ⟨bareFunctionText_derivable, raised_some.1 (by decide +kernel)⟩

/-- C55, second half: a text derivable without these alternatives is never refused as a syntax error. What is
missing are the two alternatives. -/
theorem C55_derivable_partial (F : FloatOf) (text : Str) :
    (∀ σ : PState, σ.types = none → DomainText False text → parseDomain F σ text ≠ .error .lark) ∧
    (∀ σ : List (Str × Term), ProblemText False text → parseProblem F σ text ≠ .error .lark) ∧
    (PlanText text → parsePlan text ≠ .error .lark) := by
  refine ⟨?_, ?_, ?_⟩
  · rintro σ hσ ⟨t, hb, hd⟩ he
    have hr := readText_brackets.2 hb
    obtain ⟨ts, rfl⟩ : ∃ ts, t = .node ts := by
      obtain ⟨_, _, _, _, _, _, _, rfl, _⟩ := hd
      exact ⟨_, rfl⟩
    have hc := clean_text hr (.node ts) (by simp)
    have hw := within_domainDef (S := domainErrors) (fun _ h => h) (F := F) hσ (fun t ht => hc.of_mem ht) (.inr hd)
    unfold parseDomain at he
    rw [hr] at he
    exact absurd (hw _ he) (by decide)
  · rintro σ ⟨t, hb, hd⟩ he
    have hr := readText_brackets.2 hb
    obtain ⟨ts, rfl⟩ : ∃ ts, t = .node ts := by
      obtain ⟨_, _, _, _, _, _, _, rfl, _⟩ := hd
      exact ⟨_, rfl⟩
    have hc := clean_text hr (.node ts) (by simp)
    have hw := within_problemDef (S := problemErrors) (fun _ h => h) (F := F) (σ := σ) (fun t ht => hc.of_mem ht) (.inr hd)
    unfold parseProblem at he
    rw [hr] at he
    exact absurd (hw _ he) (by decide)
  · rintro ⟨ts, hb, hd⟩ he
    have hr := readText_brackets.2 hb
    have hw : Within nameErrors (ts.mapM groundAction) := Within.mapM (fun t ht => within_groundAction (fun _ h => h) (.inr (hd t ht)))
    unfold parsePlan at he
    rw [hr] at he
    have := Within.bind hw (fun steps _ => Within.pure (a := (⟨steps⟩ : Plan))) .lark he
    revert this; decide

/-- A text that meets the hypothesis. -/
example : DomainText False s%"(define (domain d) (:predicates (p ?x - t)))" :=
  ⟨.node (word s%"define" :: .node [word s%"domain", word s%"d"] :: ([] ++ [] ++ [] ++
      [section_ s%"predicates" [.node [word s%"p", .atom .qmark, word s%"x", .atom .minus, word s%"t"]]] ++ [] ++ [])),
    bracket_text (by decide +kernel),
    ⟨_, [], [], [], _, [], [], rfl, ⟨_, _, rfl, .word _⟩, .absent, .absent, .absent,
      .present ⟨by simp, by
        intro t ht
        rw [List.mem_singleton.1 ht]
        exact .mk _ ⟨_, .group (n := s%"x") (ns := []) (.one s%"t") (.rest [])⟩⟩, .absent, by simp⟩⟩

/-- The two halves meet: what is accepted is derivable without these alternatives. -/
theorem C55_accepted_partial (F : FloatOf) (text : Str) :
    (∀ (σ : PState) r, parseDomain F σ text = .ok r → DomainText False text) ∧
    (∀ (σ : List (Str × Term)) r, parseProblem F σ text = .ok r → ProblemText False text) := by
  constructor
  · rintro σ r h
    obtain ⟨ts, h1, h2⟩ := parseDomain_ok h
    obtain ⟨P⟩ := domainDef_ok h2
    exact ⟨_, readText_brackets.1 h1, P.grammar False⟩
  · rintro σ r h
    obtain ⟨ts, h1, ⟨P⟩⟩ := parseProblem_ok h
    exact ⟨_, readText_brackets.1 h1, P.grammar False⟩

end Pddl.Props
