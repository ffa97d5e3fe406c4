/-
C120: with positive rules, states with more facts have more derived facts, and plans remain plans.
-/
import Verif.Proofs.DerivedMore
import Verif.Props.Monotone

namespace Pddl.Props
open Spec Spec.Grammar

variable {F : FloatOf} {σ : PState} {text : Str} {d : Domain} {σ' : PState} {plan : Plan} {gs : List Action}

/-- If no written rule has a negation or an implication, then every state has exactly one completion by the derived predicates that
were read; its facts are the least set that contains those of the state and is closed under the rules; and states with more facts
have completions with more facts. -/
theorem C120_completed (hσ : ParserState F σ) (h : parseDomain F σ text = .ok (d, σ')) :
    ∃ ts, Brackets (lex text) [.node ts] ∧ (PositiveRules ts → ∀ (D : Type) (ρ : Str → D) (I : Interp D),
      (∃ J, Completed (Derives ρ d.derived) I J ∧ ∀ J', Completed (Derives ρ d.derived) I J' → J' = J) ∧
      (∀ J, Completed (Derives ρ d.derived) I J ↔ LeastClosed (Derives ρ d.derived) I J) ∧
      ∀ I' J J', Larger I I' → Completed (Derives ρ d.derived) I J → Completed (Derives ρ d.derived) I' J' → Larger J J') := by
  obtain ⟨ts, hts, _⟩ := parseDomain_ok h
  refine ⟨ts, readText_brackets.1 hts, fun hp D ρ I => ?_⟩
  have hR := derived_rising hσ h hts hp ρ
  refine ⟨?_, fun J => completed_iff hR, fun I' J J' hl h1 h2 => ?_⟩
  · simp only [completed_iff hR]
    exact least_unique _ I
  · exact least_larger ((completed_iff hR).1 h1) ((completed_iff hR).1 h2) hl

/-- If also no written precondition has a negation or an implication, then a plan that can be carried out in a state can be carried
out in every state with more facts, and ends with more facts. -/
theorem C120_runs (hσ : ParserState F σ) (h : parseDomain F σ text = .ok (d, σ')) (hg : plan.inst d = .ok gs) :
    ∃ ts, Brackets (lex text) [.node ts] ∧ (PositiveActions ts → PositiveRules ts → ∀ (D : Type) (ρ : Str → D) (I J I' : Interp D),
      RunsBy (Completed (Derives ρ d.derived)) ρ gs I J → Larger I I' →
      ∃ J', Larger J J' ∧ RunsBy (Completed (Derives ρ d.derived)) ρ gs I' J') := by
  obtain ⟨ts, hts, _⟩ := parseDomain_ok h
  refine ⟨ts, readText_brackets.1 hts, fun hp hpr D ρ I J I' hr hl => ?_⟩
  have hR := derived_rising hσ h hts hpr ρ
  have e : Completed (Derives ρ d.derived) = LeastClosed (Derives ρ d.derived) := by
    funext A B
    exact propext (completed_iff hR)
  rw [e] at hr ⊢
  exact runsBy_larger (fun g hm => plan_definite hσ h hts hg hp hm) hr hl

/-- Domain and problem texts in which preconditions, rules and goal have no negation and no implication. With derived predicates, a
plan for the problem is a plan for every problem with more facts (as in C93), if it starts with the same values of the fluents. -/
theorem C120_solves (hσ : ParserState F σ) (h : parseDomain F σ text = .ok (d, σ')) (hg : plan.inst d = .ok gs)
    {ptext ptext' : Str} {t t' : Tree} {s s' : ProblemSections} {l l' : NameList} {p : Problem} {τ : List (Str × Term)}
    (ht : Brackets (lex ptext) [t]) (hs : s.Of t) (hl : s.Declares l)
    (ht' : Brackets (lex ptext') [t']) (hs' : s'.Of t') (hl' : s'.Declares l') (H : AddsTo F s s' l l')
    (hp : parseProblem F [] ptext = .ok (p, τ)) (hgoal : positiveText s.goal = true) :
    ∃ ts p' τ', Brackets (lex text) [.node ts] ∧ parseProblem F [] ptext' = .ok (p', τ') ∧ (PositiveActions ts → PositiveRules ts →
      ∀ (D : Type) (ρ : Str → D) (I I' : Interp D), StartsIn ρ p'.init I' → I'.const = I.const → I'.ty = I.ty → I'.fn = I.fn →
        SolvesBy (Completed (Derives ρ d.derived)) ρ p gs I → SolvesBy (Completed (Derives ρ d.derived)) ρ p' gs I') := by
  obtain ⟨ts, hts, hrun⟩ := C120_runs hσ h hg
  obtain ⟨ts2, hts2, hcom⟩ := C120_completed hσ h
  have e := readText_brackets.2 hts2
  rw [readText_brackets.2 hts] at e
  simp only [Except.ok.injEq, List.cons.injEq, Tree.node.injEq, and_true] at e
  subst e
  obtain ⟨p', τ', hp', C⟩ := C93_text ht hs hl ht' hs' hl' H hp
  refine ⟨ts, p', τ', hts, hp', fun hpos hrules D ρ I I' hstart hc hty hf => ?_⟩
  rintro ⟨h0, J, A, hr, hA, hh⟩
  obtain ⟨J', hJ, hr'⟩ := hrun hpos hrules D ρ I J I' hr (starts_larger C hc hty hf h0 hstart)
  obtain ⟨A', hA', _⟩ := (hcom hrules D ρ J').1
  refine ⟨hstart, J', A', hr', hA', ?_⟩
  rw [C.goal]
  refine holds_larger ((hcom hrules D ρ J).2.2 J' A A' hJ hA hA') ?_ hh
  obtain ⟨us, rfl, h1⟩ := parseProblem_sections (F := F) (r := (p, τ)) ht hs
  obtain ⟨reqs, init, goal, metric, _, _, h4, _, _, rfl⟩ := problemDef_declares hs hl (h1.1 hp)
  exact (gd_iff.1 h4).positive hgoal

/-! ### Negation -/

/-- A rule with a negation. -/
def lackText : Str := s%"(define (domain d) (:requirements :adl :derived-predicates) (:predicates (p) (q)) (:derived (p) (not (q))))"

/-- With a negation in a rule, more facts can mean that less is derived. -/
theorem C120_negative : ∃ d σ', parseDomain (fun _ => none) .fresh lackText = .ok (d, σ') ∧ ∃ I I' J J' : Interp Unit, Larger I I' ∧
    Completed (Derives (fun _ => ()) d.derived) I J ∧ Completed (Derives (fun _ => ()) d.derived) I' J' ∧ ¬ Larger J J' := by
  have h : (match parseDomain (fun _ => none) .fresh lackText with
      | .ok (d, _) => decide (d.derived = [⟨⟨s%"p", []⟩, .not (.pred ⟨s%"q", []⟩)⟩]) | .error _ => false) = true := by decide +kernel
  cases h1 : parseDomain (fun _ => none) .fresh lackText with
  | error e => rw [h1] at h; cases h
  | ok r =>
    rw [h1] at h
    have hd : r.1.derived = [⟨⟨s%"p", []⟩, .not (.pred ⟨s%"q", []⟩)⟩] := by simpa using h
    have hR : ∀ (I : Interp Unit) n ds, Derives (fun _ => ()) r.1.derived I n ds ↔ n = s%"p" ∧ ds = [] ∧ ¬ I.pred s%"q" [] := by
      intro I n ds
      rw [hd]
      constructor
      · rintro ⟨x, hx, e1, ρ', _, e2, _, hh⟩
        rw [List.mem_singleton] at hx
        subst hx
        exact ⟨e1.symm, e2, hh⟩
      · rintro ⟨rfl, rfl, hh⟩
        exact ⟨_, List.mem_singleton.2 rfl, rfl, fun _ => (), fun _ _ => rfl, rfl, by simp, hh⟩
    let S : (Str → List Unit → Prop) → Interp Unit := fun P => ⟨fun _ => (), fun _ _ => True, P, fun _ _ => none⟩
    refine ⟨r.1, r.2, rfl, S fun _ _ => False, S fun n ds => n = s%"q" ∧ ds = [], S fun n ds => n = s%"p" ∧ ds = [],
      S fun n ds => n = s%"q" ∧ ds = [], ⟨rfl, rfl, rfl, fun _ _ h => h.elim⟩, ⟨rfl, rfl, rfl, ?_, ?_⟩, ⟨rfl, rfl, rfl, ?_, ?_⟩, ?_⟩
    · intro n ds
      rw [hR]
      simp [S]
    · intro J' e1 e2 e3 hJ
      refine ⟨e1, e2, e3, ?_⟩
      rintro n ds ⟨rfl, rfl⟩
      refine (hJ _ _).2 (.inr ((hR _ _ _).2 ⟨rfl, rfl, fun hq => ?_⟩))
      rcases (hJ _ _).1 hq with h | h
      · exact h
      · have := ((hR _ _ _).1 h).1
        simp at this
    · intro n ds
      rw [hR]
      simp [S]
    · intro J' e1 e2 e3 hJ
      exact ⟨e1, e2, e3, fun n ds h => (hJ n ds).2 (.inl h)⟩
    · intro hl
      have := hl.pred s%"p" [] ⟨rfl, rfl⟩
      simp [S] at this

/-! ### A case -/

/-- An action whose precondition is derived. -/
def deriveText : Str := s%"(define (domain d) (:requirements :adl :derived-predicates) (:predicates (q ?x) (r ?x)) (:derived (r ?x) (q ?x))
  (:action m :parameters (?x ?y) :precondition (r ?x) :effect (and (not (q ?x)) (q ?y))))"

def deriveTrees : List Tree := match readText deriveText with | .ok [.node ts] => ts | _ => []

/-- The ground action `(m a b)`. -/
def deriveAction : Action := ⟨s%"m", [.const s%"a" none, .const s%"b" none], some (.pred ⟨s%"r", [.const s%"a" none]⟩),
  some (.bin .and [.not (.pred ⟨s%"q", [.const s%"a" none]⟩), .pred ⟨s%"q", [.const s%"b" none]⟩])⟩

example : readText deriveText = .ok [.node deriveTrees] ∧ PositiveActions deriveTrees ∧ PositiveRules deriveTrees ∧
    ∃ d σ', parseDomain (fun _ => none) .fresh deriveText = .ok (d, σ') ∧ shiftPlan.inst d = .ok [deriveAction] ∧
      ∃ I J : Interp Str, RunsBy (Completed (Derives id d.derived)) id [deriveAction] I J ∧ J.pred s%"q" [s%"b"] := by
  have ht : deriveTrees = [word s%"define", .node [word s%"domain", word s%"d"],
      section_ s%"requirements" [.atom (.kw s%"adl"), .atom (.kw s%"derived-predicates")],
      section_ s%"predicates" [.node (word s%"q" :: varTrees s%"x"), .node (word s%"r" :: varTrees s%"x")],
      section_ s%"derived" [.node (word s%"r" :: varTrees s%"x"), .node (word s%"q" :: varTrees s%"x")],
      actionText s%"m" (varTrees s%"x" ++ varTrees s%"y") (.node (word s%"r" :: varTrees s%"x"))
        (.node [word s%"and", .node [word s%"not", .node (word s%"q" :: varTrees s%"x")], .node (word s%"q" :: varTrees s%"y")])] := by
    decide +kernel
  refine ⟨by decide +kernel, ?_, ?_, ?_⟩
  · intro n ps pre eff hm
    rw [ht] at hm
    simp only [actionText, section_, word, List.mem_cons, List.not_mem_nil, or_false, Tree.node.injEq, List.cons.injEq, reduceCtorEq,
      false_and, and_false, false_or] at hm
    have : pre = .node (word s%"r" :: varTrees s%"x") := by
      simp only [word]
      tauto
    rw [this]
    decide +kernel
  · intro x c hm
    rw [ht] at hm
    simp [actionText, section_, word] at hm
    rw [hm.2]
    decide +kernel
  have h : (match parseDomain (fun _ => none) .fresh deriveText with
      | .ok (d, _) => decide (shiftPlan.inst d = .ok [deriveAction]) &&
          decide (d.derived = [⟨⟨s%"r", [.var ⟨s%"x", []⟩]⟩, .pred ⟨s%"q", [.var ⟨s%"x", []⟩]⟩⟩])
      | .error _ => false) = true := by decide +kernel
  cases h1 : parseDomain (fun _ => none) .fresh deriveText with
  | error e => rw [h1] at h; cases h
  | ok r =>
    rw [h1] at h
    simp only [Bool.and_eq_true, decide_eq_true_eq] at h
    obtain ⟨hi, hd⟩ := h
    refine ⟨r.1, r.2, rfl, hi, ?_⟩
    have hR : ∀ (I : Interp Str) n ds, Derives id r.1.derived I n ds ↔ n = s%"r" ∧ ∃ x, ds = [x] ∧ I.pred s%"q" [x] := by
      intro I n ds
      rw [hd]
      constructor
      · rintro ⟨x, hx, e1, ρ', _, e2, _, hh⟩
        rw [List.mem_singleton] at hx
        subst hx
        exact ⟨e1.symm, _, e2, hh⟩
      · rintro ⟨rfl, x, rfl, hh⟩
        refine ⟨_, List.mem_singleton.2 rfl, rfl, fun n => if n = s%"x" then x else n, ?_, ?_, ?_, ?_⟩
        · intro m hm
          exact if_neg fun e => hm (by simp [e, Term.name])
        · simp [denote]
        · simp [InRange]
        · simpa [holds, denote] using hh
    let S : (Str → List Str → Prop) → Interp Str := fun P => ⟨id, fun _ _ => True, P, fun _ _ => none⟩
    refine ⟨S fun n ds => n = s%"q" ∧ ds = [s%"a"], S fun n ds => n = s%"q" ∧ ds = [s%"b"],
      .cons (J := S fun n ds => n = s%"q" ∧ ds = [s%"b"]) (I' := S fun n ds => (n = s%"q" ∨ n = s%"r") ∧ ds = [s%"a"]) ⟨rfl, rfl, rfl, ?_, ?_⟩
        ⟨?_, rfl, rfl, ?_, ?_, ?_⟩ .nil, rfl, rfl⟩
    · intro n ds
      rw [hR]
      constructor
      · rintro ⟨rfl | rfl, rfl⟩
        · exact .inl ⟨rfl, rfl⟩
        · exact .inr ⟨rfl, _, rfl, .inl rfl, rfl⟩
      · rintro (⟨rfl, rfl⟩ | ⟨rfl, x, rfl, _, e⟩)
        · exact ⟨.inl rfl, rfl⟩
        · exact ⟨.inr rfl, e⟩
    · intro J' e1 e2 e3 hJ
      have hq : J'.pred s%"q" [s%"a"] := (hJ _ _).2 (.inl ⟨rfl, rfl⟩)
      refine ⟨e1, e2, e3, ?_⟩
      rintro n ds ⟨rfl | rfl, rfl⟩
      · exact hq
      · exact (hJ _ _).2 (.inr ((hR _ _ _).2 ⟨rfl, _, rfl, hq⟩))
    · rintro _ ⟨rfl⟩
      exact ⟨.inr rfl, rfl⟩
    · intro n ds
      simp [deriveAction, makes, makesSome, deletes, S, denote]
    · intro f ds _
      rfl
    · rintro f ds op v ⟨e, ⟨rfl⟩, hm⟩
      simp [makes, makesSome, deletes] at hm

end Pddl.Props
