/-
C76: formatting a formatted text changes nothing.
-/
import Verif.Proofs.Reformat
import Verif.Props.DomainRoundTrip
import Verif.Props.ProblemRoundTrip
import Verif.Props.Helpers

namespace Pddl.Props
open Spec Spec.Reorder

/-! ### C76 -/

/-- The text is read by a new parser, and what is read has this text again, in whatever order its sets and
dictionaries are iterated. -/
def DomainTextFixed (F : FloatOf) (s : Str) : Prop :=
  ∃ d' σ', parseDomain F PState.fresh s = .ok (d', σ') ∧ ∀ d'', SameDomain d' d'' → d''.str = .ok s

/-- The same for the text of a problem. -/
def ProblemTextFixed (F : FloatOf) (s : Str) : Prop :=
  ∃ p' σ', parseProblem F [] s = .ok (p', σ') ∧ ∀ p'', SameProblem p' p'' → p''.str = s

/-- C76, in full: every text that the formatter prints for a domain it read is printed again when it is read
and formatted, and the same for problems. -/
def C76_full : Prop :=
  (∀ F text d σ' s, parseDomain F PState.fresh text = .ok (d, σ') → d.str = .ok s → DomainTextFixed F s) ∧
  (∀ F text p σ', parseProblem F [] text = .ok (p, σ') → ProblemTextFixed F p.str)

/-- C76 for domains made by the constructors. The text of every domain that the grammar can write is fixed, if
no quantifier binds two variables and no printed parameter has two types. Missing: domains whose text is not
read back; C76 is false of them (`C76_fails`). -/
theorem C76_partial {F : FloatOf} {d : Domain} (hb : BuiltDomain d) (hp : PrintDomain F d) (hs : DeclaredSets d)
    (ho : OrderFreeDomain d) : ∃ s, d.str = .ok s ∧ DomainTextFixed F s := by
  obtain ⟨s, d', σ', h1, h2, _, h4⟩ := domain_read hb hp
  have hset := predicateSet_built hb hs
  refine ⟨s, h1, d', σ', h2, fun d'' h => ?_⟩
  rw [← C39_domain_partial d' d'' (h4.set hp hset) h (h4.orderFree ho), h4.str hp hs hset, h1]

/-- C76 for the texts of domains. -/
theorem C76_read_partial {F : FloatOf} {text s : Str} {d : Domain} {σ' : PState}
    (h : parseDomain F PState.fresh text = .ok (d, σ')) (hf : DerivedFirst text) (hn : DomainNoObstacle F d)
    (ho : OrderFreeDomain d) (hs : d.str = .ok s) : DomainTextFixed F s := by
  obtain ⟨h1, h2⟩ := domain_reread h hf hn
  obtain ⟨s', h3, h4⟩ := C76_partial h1 h2 (declared_sets h hf hn) ho
  rw [h3, Except.ok.injEq] at hs
  exact hs ▸ h4

theorem sameDomain_refl (d : Domain) : SameDomain d d where
  name := rfl
  reqs := .refl _
  types := .refl _
  constants := .refl _
  predicates := permBy_refl (fun _ => ⟨rfl, List.forall₂_same.2 fun t _ => sameTerm_refl t⟩) _
  functions := permBy_refl (fun _ => ⟨rfl, List.forall₂_same.2 fun t _ => sameTerm_refl t, rfl⟩) _
  derived := permBy_refl (fun _ => ⟨⟨rfl, List.forall₂_same.2 fun t _ => sameTerm_refl t⟩, sameExpr_refl _⟩) _
  actions := permBy_refl sameAction_refl _

theorem sameProblem_refl (p : Problem) : SameProblem p p where
  name := rfl
  domainName := rfl
  reqs := .refl _
  objects := .refl _
  init := permBy_refl sameExpr_refl _
  goal := sameExpr_refl _
  metric := sameOpt_refl (fun _ => ⟨sameExpr_refl _, rfl⟩) _

/-- C76 for the command line tool: what it prints for its own output is that output. -/
theorem C76_cli_partial {F : FloatOf} {text s : Str} {d : Domain} {σ' : PState}
    (h : parseDomain F PState.fresh text = .ok (d, σ')) (hf : DerivedFirst text) (hn : DomainNoObstacle F d)
    (ho : OrderFreeDomain d) (hs : cli F text none none false = ([s], .ok ())) :
    cli F s none none false = ([s], .ok ()) := by
  obtain ⟨s', h1, h2⟩ := C61_cli F σ' text d h
  rw [h2, Prod.mk.injEq] at hs
  obtain rfl : s' = s := by simpa using hs.1
  obtain ⟨d', σ'', h3, h4⟩ := C76_read_partial h hf hn ho h1
  have := h4 d' (sameDomain_refl d')
  simp [cli, h3, this]

/-- C76 for problems made by the constructors. -/
theorem C76_problem_partial {F : FloatOf} {p : Problem} (hb : BuiltProblem p) (hp : PrintProblem F p) :
    ProblemTextFixed F p.str := by
  obtain ⟨p', σ', h1, _, h3⟩ := problem_read (σ := []) (by intro n t h; simp [dictGet] at h) hb hp
  exact ⟨p', σ', h1, fun p'' h => by rw [← C39_problem_partial p' p'' h (h3.orderFree hp), h3.str]⟩

/-- C76 for the texts of problems. -/
theorem C76_problem_read_partial {F : FloatOf} {text : Str} {p : Problem} {σ' : List (Str × Term)}
    (h : parseProblem F [] text = .ok (p, σ')) (hn : ProblemNoObstacle F p) : ProblemTextFixed F p.str := by
  obtain ⟨h1, h2, _⟩ := problem_reread (by intro n t h; simp [dictGet] at h) h hn
  exact C76_problem_partial h1 h2

/-- The hypotheses of `C76_read_partial` hold of the sample with all sections. -/
example : ∃ d σ' s, parseDomain (fun _ => none) PState.fresh readSample = .ok (d, σ') ∧ DerivedFirst readSample ∧
    DomainNoObstacle (fun _ => none) d ∧ OrderFreeDomain d ∧ d.str = .ok s ∧ s ≠ readSample := by
  obtain ⟨d, σ', h1, h2, h3, h4, h5⟩ := readSample_ok
  obtain ⟨s, hs⟩ := C61_parsed _ _ _ _ _ h1
  refine ⟨d, σ', s, h1, h2, h3, ⟨?_, ?_⟩, hs, ?_⟩
  · rw [h4]
    intro x hx
    rw [List.mem_singleton] at hx
    subst hx
    simp [OrderFree, readDerived, blocks]
  · rw [h5]
    intro a ha
    simp only [domainArgs, List.mem_singleton] at ha
    subst ha
    refine ⟨by simp [Term.tags], ?_, ?_⟩
    · intro e he
      simp only [Option.mem_def, Option.some.injEq] at he
      subst he
      simp [OrderFree, blocks, blocksAll]
    · intro e he
      simp only [Option.mem_def, Option.some.injEq] at he
      subst he
      simp [OrderFree, blocks, blocksAll]
  · have key : (match parseDomain (fun _ => none) PState.fresh readSample with
        | .ok (d, _) => decide (d.str ≠ .ok readSample) | .error _ => false) = true := by decide +kernel
    rw [h1] at key
    simp only [decide_eq_true_eq, hs, ne_eq, Except.ok.injEq] at key
    exact key

/-- Those of `C76_problem_read_partial` hold of the sample of a problem. -/
example : ∃ p σ', parseProblem (fun _ => none) [] problemText = .ok (p, σ') ∧ ProblemNoObstacle (fun _ => none) p :=
  problemText_ok

/-- The output of the formatter is rejected when it is read again. -/
def outputRejected (text : Str) : Bool :=
  match parseDomain (fun _ => none) PState.fresh text with
  | .error _ => false
  | .ok (d, _) => match d.str with
    | .error _ => false
    | .ok s => match parseDomain (fun _ => none) PState.fresh s with
      | .ok _ => false
      | .error _ => true

/-- C76 is false: the formatter reads these texts and prints something that it rejects. (Types without
`:typing`, a parameter with two types, the empty precondition and the empty effect `()`, operands that were
merged, a quantified variable with two types, a variable twice in the head of a derived predicate, and a
predicate declared twice.) -/
theorem C76_fails : ∀ text ∈ [
      s%"(define (domain d) (:types a) (:predicates (p ?x)))",
      s%"(define (domain d) (:requirements :typing) (:types a b) (:action m :parameters (?x - (either a b)) :precondition (and) :effect (and)))",
      s%"(define (domain d) (:action m :parameters () :precondition () :effect (and)))",
      s%"(define (domain d) (:requirements :adl) (:action m :parameters () :precondition (and) :effect ()))",
      s%"(define (domain d) (:requirements :fluents) (:functions (f)) (:action m :parameters () :precondition (= (f) (f)) :effect (and)))",
      s%"(define (domain d) (:requirements :adl) (:types a b) (:predicates (p ?x)) (:derived (p ?x) (forall (?y - (either a b)) (p ?y))))",
      s%"(define (domain d) (:requirements :typing) (:types a b) (:predicates (p ?x - a ?y - b)) (:derived (p ?x ?x) (and)))",
      s%"(define (domain d) (:requirements :typing) (:types a b) (:predicates (p ?x - b) (p ?x - a)) (:derived (p ?x) (and)))"],
    ∃ d σ' s e, parseDomain (fun _ => none) PState.fresh text = .ok (d, σ') ∧ d.str = .ok s ∧
      parseDomain (fun _ => none) PState.fresh s = .error e := by
  intro text ht
  have h : outputRejected text = true := by
    revert text
    decide +kernel
  unfold outputRejected at h
  split at h
  · simp at h
  · rename_i d σ' hd
    split at h
    · simp at h
    · rename_i s hs
      split at h
      · simp at h
      · rename_i e he
        exact ⟨d, σ', s, e, hd, hs, he⟩

theorem C76_full_fails : ¬ C76_full := by
  rintro ⟨h, _⟩
  obtain ⟨d, σ', s, e, h1, h2, h3⟩ := C76_fails s%"(define (domain d) (:types a) (:predicates (p ?x)))" (by simp)
  obtain ⟨d', σ'', h4, _⟩ := h _ _ _ _ _ h1 h2
  rw [h3] at h4
  simp at h4

/-- C76 is false of problems: operands that were merged leave an operator with one operand. -/
theorem C76_problem_fails : ∀ text ∈ [
      s%"(define (problem p) (:domain d) (:init) (:goal (>= (+ (f) (f)) 1)))",
      s%"(define (problem p) (:domain d) (:init) (:goal (= (f) (f))))",
      s%"(define (problem p) (:domain d) (:init) (:goal (q)) (:metric minimize (+ (f) (f))))"],
    ∃ p σ' e, parseProblem (fun _ => none) [] text = .ok (p, σ') ∧ parseProblem (fun _ => none) [] p.str = .error e := by
  intro text ht
  have h : (match parseProblem (fun _ => none) [] text with
      | .ok (p, _) => (match parseProblem (fun _ => none) [] p.str with | .ok _ => false | .error _ => true)
      | .error _ => false) = true := by
    revert text
    decide +kernel
  split at h
  · rename_i p σ' hp
    split at h
    · simp at h
    · rename_i e he
      exact ⟨p, σ', e, hp, he⟩
  · simp at h

/-- A condition that binds two variables. -/
def twoVars (vs : List Str) : Action :=
  ⟨s%"m", [], some (.quant .all (vs.map (fun n => ⟨n, []⟩)) (.pred ⟨s%"p", []⟩)), some (.bin .and [])⟩

/-- Without the condition on quantifiers C76 is false: the text of this domain is read, but what is read prints
as another text when the set of its quantified variables is iterated in another order. -/
theorem C76_order_fails :
    let text := s%"(define (domain d) (:requirements :adl) (:predicates (p)) (:action m :parameters () :precondition (forall (?x ?y) (p)) :effect (and)))"
    ∃ d σ' s d' σ'' d'' s'', parseDomain (fun _ => none) PState.fresh text = .ok (d, σ') ∧ d.str = .ok s ∧
      parseDomain (fun _ => none) PState.fresh s = .ok (d', σ'') ∧ d'.str = .ok s ∧ SameDomain d' d'' ∧
      d''.str = .ok s'' ∧ s'' ≠ s := by
  intro text
  have h : (match parseDomain (fun _ => none) PState.fresh text with
      | .ok (d, _) => (match d.str with
        | .ok s => (match parseDomain (fun _ => none) PState.fresh s with
          | .ok (d', _) => (match ({ d' with actions := [twoVars [s%"y", s%"x"]] } : Domain).str with
            | .ok s'' => decide (d'.str = .ok s ∧ d'.actions = [twoVars [s%"x", s%"y"]] ∧ s'' ≠ s)
            | .error _ => false)
          | .error _ => false)
        | .error _ => false)
      | .error _ => false) = true := by decide +kernel
  split at h
  · rename_i d σ' hd
    split at h
    · rename_i s hs
      split at h
      · rename_i d' σ'' hd'
        split at h
        · rename_i s'' hs''
          simp only [decide_eq_true_eq] at h
          obtain ⟨h1, h2, h3⟩ := h
          refine ⟨d, σ', s, d', σ'', _, s'', hd, hs, hd', h1, ?_, hs'', h3⟩
          have hr := sameDomain_refl d'
          refine ⟨hr.name, hr.reqs, hr.types, hr.constants, hr.predicates, hr.functions, hr.derived, ?_⟩
          rw [h2]
          refine ⟨_, .refl _, .cons ⟨rfl, .nil, .present (.quant ⟨_, ?_, List.forall₂_same.2 (fun v _ => sameVar_refl v)⟩ (sameExpr_refl _)), sameOpt_refl sameExpr_refl _⟩ .nil⟩
          exact List.Perm.swap _ _ _
        · simp at h
      · simp at h
    · simp at h
  · simp at h

end Pddl.Props
