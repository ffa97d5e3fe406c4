/-
C98: without negative conditions more facts do no harm.
-/
import Verif.Proofs.Monotone
import Verif.Props.GrowProblem
import Verif.Props.Share

namespace Pddl.Props
open Pddl Spec Grammar

variable {F : FloatOf} {σ : PState} {text : Str} {d : Domain} {σ' : PState} {plan : Plan} {gs : List Action}

/-- If no written precondition has a negation or an implication, then a plan that can be carried out in a state can be
carried out in every state with more facts, and all facts at the end of the first run are facts at the end of the
second; the fluents have the same values. -/
theorem C98_runs (hσ : ParserState F σ) (h : parseDomain F σ text = .ok (d, σ')) (hg : plan.inst d = .ok gs) :
    ∃ ts, Brackets (lex text) [.node ts] ∧ (PositiveActions ts → ∀ (D : Type) (ρ : Str → D) (I J I' : Interp D), Runs ρ gs I J →
      Larger I I' → ∃ J', Larger J J' ∧ Runs ρ gs I' J') := by
  obtain ⟨ts, hts, _⟩ := parseDomain_ok h
  exact ⟨ts, readText_brackets.1 hts, fun hp D ρ I J I' hr hl => runs_larger (fun g hm => plan_definite hσ h hts hg hp hm) hr hl⟩

theorem denote_pyEq {D : Type} {I : Interp D} {ρ : Str → D} {t u : Term} (h : t.pyEq u = true) : denote I ρ t = denote I ρ u := by
  cases t <;> cases u <;> simp only [Term.pyEq, Var.pyEq, Bool.and_eq_true, decide_eq_true_eq, Bool.false_eq_true] at h
  · simp only [denote, h.1]
  · simp only [denote, h]

theorem denotes_pyEq {D : Type} {I : Interp D} {ρ : Str → D} {ts us : List Term} (h : termsEq ts us = true) :
    ts.map (denote I ρ) = us.map (denote I ρ) := by
  induction ts generalizing us with
  | nil => cases us <;> simp_all [termsEq]
  | cons t ts ih =>
    cases us with
    | nil => simp [termsEq] at h
    | cons u us =>
      simp only [termsEq, Bool.and_eq_true] at h
      simp only [List.map_cons, denote_pyEq h.1, ih h.2]

/-- The start of a problem that contains another one has more facts. -/
theorem starts_larger {D : Type} {ρ : Str → D} {p p' : Problem} (C : ProblemContains p' p) {I I' : Interp D}
    (hc : I'.const = I.const) (ht : I'.ty = I.ty) (hf : I'.fn = I.fn) (h : StartsIn ρ p.init I) (h' : StartsIn ρ p'.init I') : Larger I I' := by
  refine ⟨hc, ht, hf, fun n ds hi => ?_⟩
  obtain ⟨ts, hm, rfl⟩ := (h.pred n ds).1 hi
  obtain ⟨e', he, heq⟩ := C.init _ hm
  cases e' <;> simp only [Expr.pyEq, Bool.false_eq_true] at heq
  rename_i q
  simp only [Pred.pyEq, Bool.and_eq_true, decide_eq_true_eq] at heq
  obtain ⟨rfl, heq⟩ := heq
  refine (h'.pred _ _).2 ⟨q.terms, he, ?_⟩
  rw [denote_same hc, denotes_pyEq heq]

/-- Domain and problem texts in which preconditions and goal have no negation and no implication. A plan for the
problem is a plan for every problem with more facts (as in C93), if it starts with the same values of the fluents. -/
theorem C98_solves (hσ : ParserState F σ) (h : parseDomain F σ text = .ok (d, σ')) (hg : plan.inst d = .ok gs)
    {ptext ptext' : Str} {t t' : Tree} {s s' : ProblemSections} {l l' : NameList} {p : Problem} {τ : List (Str × Term)}
    (ht : Brackets (lex ptext) [t]) (hs : s.Of t) (hl : s.Declares l)
    (ht' : Brackets (lex ptext') [t']) (hs' : s'.Of t') (hl' : s'.Declares l') (H : AddsTo F s s' l l')
    (hp : parseProblem F [] ptext = .ok (p, τ)) (hgoal : positiveText s.goal = true) :
    ∃ ts p' τ', Brackets (lex text) [.node ts] ∧ parseProblem F [] ptext' = .ok (p', τ') ∧ (PositiveActions ts →
      ∀ (D : Type) (ρ : Str → D) (I I' : Interp D), StartsIn ρ p'.init I' → I'.const = I.const → I'.ty = I.ty → I'.fn = I.fn →
        Solves ρ p gs I → Solves ρ p' gs I') := by
  obtain ⟨ts, hts, hrun⟩ := C98_runs hσ h hg
  obtain ⟨p', τ', hp', C⟩ := C93_text ht hs hl ht' hs' hl' H hp
  refine ⟨ts, p', τ', hts, hp', fun hpos D ρ I I' hstart hc hty hf => ?_⟩
  rintro ⟨h0, J, hr, hh⟩
  obtain ⟨J', hJ, hr'⟩ := hrun hpos D ρ I J I' hr (starts_larger C hc hty hf h0 hstart)
  refine ⟨hstart, J', hr', ?_⟩
  rw [C.goal]
  refine holds_larger hJ ?_ hh
  obtain ⟨us, rfl, h1⟩ := parseProblem_sections (F := F) (r := (p, τ)) ht hs
  obtain ⟨reqs, init, goal, metric, _, _, h4, _, _, rfl⟩ := problemDef_declares hs hl (h1.1 hp)
  exact (gd_iff.1 h4).positive hgoal

/-! ### A case -/

/-- A domain for the problems of C93. -/
def shiftText : Str := s%"(define (domain d) (:requirements :strips) (:predicates (q ?x))
  (:action m :parameters (?x ?y) :precondition (and (q ?x)) :effect (and (not (q ?x)) (q ?y))))"

def shiftTrees : List Tree := match readText shiftText with | .ok [.node ts] => ts | _ => []

theorem shift_trees : readText shiftText = .ok [.node shiftTrees] := by decide +kernel

theorem shift_positive : PositiveActions shiftTrees := by
  intro n ps pre eff hm
  have : shiftTrees = [word s%"define", .node [word s%"domain", word s%"d"], section_ s%"requirements" [.atom (.kw s%"strips")],
      section_ s%"predicates" [.node (word s%"q" :: varTrees s%"x")],
      actionText s%"m" (varTrees s%"x" ++ varTrees s%"y") (.node [word s%"and", .node (word s%"q" :: varTrees s%"x")])
        (.node [word s%"and", .node [word s%"not", .node (word s%"q" :: varTrees s%"x")], .node (word s%"q" :: varTrees s%"y")])] := by
    decide +kernel
  rw [this] at hm
  simp only [actionText, section_, word, List.mem_cons, List.not_mem_nil, or_false, Tree.node.injEq, List.cons.injEq, reduceCtorEq,
    false_and, and_false, false_or] at hm
  obtain ⟨_, _, _, _, _, rfl, _⟩ := hm
  decide +kernel

/-- The ground action `(m a b)`. -/
def shiftAction : Action := ⟨s%"m", [.const s%"a" none, .const s%"b" none], some (.pred ⟨s%"q", [.const s%"a" none]⟩),
  some (.bin .and [.not (.pred ⟨s%"q", [.const s%"a" none]⟩), .pred ⟨s%"q", [.const s%"b" none]⟩])⟩

def shiftPlan : Plan := ⟨[(s%"m", [.const s%"a" none, .const s%"b" none])]⟩

theorem shift_parsed : ∃ d σ', parseDomain (fun _ => none) .fresh shiftText = .ok (d, σ') ∧ shiftPlan.inst d = .ok [shiftAction] := by
  have h : (match parseDomain (fun _ => none) .fresh shiftText with
      | .ok (d, _) => decide (shiftPlan.inst d = .ok [shiftAction]) | .error _ => false) = true := by decide +kernel
  cases h1 : parseDomain (fun _ => none) .fresh shiftText with
  | error e => rw [h1] at h; cases h
  | ok r => rw [h1] at h; exact ⟨r.1, r.2, rfl, by simpa using h⟩

/-- The plan solves the first problem, hence it solves the second one. -/
example : ∃ d σ' p τ p' τ', parseDomain (fun _ => none) .fresh shiftText = .ok (d, σ') ∧ shiftPlan.inst d = .ok [shiftAction] ∧
    parseProblem (fun _ => none) [] fewProblem = .ok (p, τ) ∧ parseProblem (fun _ => none) [] moreProblem = .ok (p', τ') ∧
    (∃ I : Interp Str, I.const = id ∧ Solves id p [shiftAction] I) ∧
    ∀ (D : Type) (ρ : Str → D) (I I' : Interp D), StartsIn ρ p'.init I' → I'.const = I.const → I'.ty = I.ty → I'.fn = I.fn →
      Solves ρ p [shiftAction] I → Solves ρ p' [shiftAction] I' := by
  obtain ⟨d, σ', h, hg⟩ := shift_parsed
  obtain ⟨t, ht, hs⟩ := few_of
  obtain ⟨t', ht', hs'⟩ := more_of
  have h0 : (match parseProblem (fun _ => none) [] fewProblem with
      | .ok (p, _) => decide (p.init = [.pred ⟨s%"q", [.const s%"a" (some s%"t")]⟩,
          .bfun .eq [.nfun ⟨s%"f", [.const s%"a" none]⟩, .num (.int 1)]]) && decide (p.goal = .pred ⟨s%"q", [.const s%"b" none]⟩)
      | .error _ => false) = true := by decide +kernel
  cases h1 : parseProblem (fun _ => none) [] fewProblem with
  | error e => rw [h1] at h0; cases h0
  | ok r =>
    rw [h1] at h0
    simp only [Bool.and_eq_true, decide_eq_true_eq] at h0
    obtain ⟨hi, hgo⟩ := h0
    obtain ⟨ts, p', τ', hts, hp', H⟩ := C98_solves .fresh h hg ht hs few_declares ht' hs' more_declares more_adds h1 (by decide +kernel)
    have e := readText_brackets.2 hts
    rw [shift_trees] at e
    simp only [Except.ok.injEq, List.cons.injEq, Tree.node.injEq, and_true] at e
    subst e
    refine ⟨d, σ', r.1, r.2, p', τ', h, hg, rfl, hp', ?_, H shift_positive⟩
    let I : Interp Str := ⟨id, fun _ _ => True, fun n ds => n = s%"q" ∧ ds = [s%"a"], fun n ds => if n = s%"f" ∧ ds = [s%"a"] then some 1 else none⟩
    let J : Interp Str := ⟨id, fun _ _ => True, fun n ds => n = s%"q" ∧ ds = [s%"b"], I.fn⟩
    refine ⟨I, rfl, ⟨?_, ?_, ?_, ?_⟩, J, .cons (J := J) ⟨?_, rfl, rfl, ?_, fun _ _ _ => rfl, ?_⟩ .nil, ?_⟩
    · intro n ds
      rw [hi]
      constructor
      · rintro ⟨rfl, rfl⟩; exact ⟨[.const s%"a" (some s%"t")], by simp, rfl⟩
      · rintro ⟨us, hu, rfl⟩
        simp at hu
        obtain ⟨rfl, rfl⟩ := hu
        exact ⟨rfl, rfl⟩
    · intro q hq; rw [hi] at hq; simp at hq
    · intro f v hq
      rw [hi] at hq
      simp at hq
      obtain ⟨rfl, rfl⟩ := hq
      rfl
    · intro n ds hn
      by_cases hc : n = s%"f" ∧ ds = [s%"a"]
      · obtain ⟨rfl, rfl⟩ := hc
        exact ⟨[.const s%"a" none], .int 1, by rw [hi]; simp, rfl⟩
      · exact absurd (if_neg hc) hn
    · rintro e ⟨rfl⟩; exact ⟨rfl, rfl⟩
    · intro n ds
      simp only [shiftAction, Option.some.injEq, exists_eq_left', makes, makesSome, deletes, denote, List.map_cons, List.map_nil, or_false,
        Change.add.injEq, Change.del.injEq, reduceCtorEq, false_or, I, J, id]
      constructor
      · exact .inl
      · rintro (h | ⟨h, h'⟩)
        · exact h
        · exact absurd h h'
    · rintro f ds op v ⟨e, he, hm⟩
      cases he
      simp [makes, makesSome, deletes] at hm
    · rw [hgo]; exact ⟨rfl, rfl⟩

end Pddl.Props
