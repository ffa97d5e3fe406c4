/-
C112: plans remain plans if actions are made easier.
-/
import Verif.Proofs.Easier
import Verif.Props.Monotone

namespace Pddl.Props
open Pddl Spec Grammar

variable {F : FloatOf} {σ σ₂ : PState} {text text' : Str} {d d' : Domain} {τ τ₂ : PState} {ts ts' : List Tree} {plan : Plan} {gs gs' : List Action}

/-- Two domain texts, the second with easier actions: some of the conditions, all effects except for some deletions, and
perhaps further additions. If the remaining conditions have no negation and no implication, a plan that can be carried out
with the actions of the first domain can be carried out with those of the second, with at least the same facts at the end
and the same values of the fluents. -/
theorem C112_runs (hσ : ParserState F σ) (h : parseDomain F σ text = .ok (d, τ)) (ht : Brackets (lex text) [.node ts])
    (hσ₂ : ParserState F σ₂) (h₂ : parseDomain F σ₂ text' = .ok (d', τ₂)) (ht' : Brackets (lex text') [.node ts'])
    (H : Easier ts ts') (hpos : PositiveActions ts') (hg : plan.inst d = .ok gs) (hg' : plan.inst d' = .ok gs')
    {D : Type} {ρ : Str → D} {I J I' : Interp D} (hr : Runs ρ gs I J) (hl : Larger I I') : ∃ J', Larger J J' ∧ Runs ρ gs' I' J' := by
  have hts := readText_brackets.2 ht
  have hts' := readText_brackets.2 ht'
  exact relaxed_runs (plan_relaxed hσ h hts hσ₂ h₂ hts' H hg hg') (fun g hm => plan_definite hσ₂ h₂ hts' hg' hpos hm) hr hl

theorem goal_positive {ptext : Str} {t : Tree} {s : ProblemSections} {p : Problem} {ν ν' : List (Str × Term)}
    (hpt : Brackets (lex ptext) [t]) (hs : s.Of t) (hp : parseProblem F ν ptext = .ok (p, ν')) (hgoal : positiveText s.goal = true) :
    positive p.goal := by
  obtain ⟨_, _, e⟩ := id hs
  subst e
  have h := hp
  unfold parseProblem at h
  rw [readText_brackets.2 hpt, ok_bind] at h
  simp only [] at h
  rw [problemDef_sections hs] at h
  obtain ⟨reqs, _, h⟩ := bind_ok_iff.1 h
  obtain ⟨⟨objs, σo⟩, _, h⟩ := bind_ok_iff.1 h
  obtain ⟨init, _, h⟩ := bind_ok_iff.1 h
  obtain ⟨goal, h4, h⟩ := bind_ok_iff.1 h
  obtain ⟨metric, _, h⟩ := bind_ok_iff.1 h
  obtain ⟨q, h6, h⟩ := bind_ok_iff.1 h
  simp only [pure_ok, Except.ok.injEq, Prod.mk.injEq] at h
  obtain ⟨rfl, _⟩ := h
  rw [(mkProblem_fields h6).2.2.2.2.1]
  exact (gd_iff.1 h4).positive hgoal

/-- Every plan for a problem whose goal has no negation and no implication is a plan for it with the easier actions. -/
theorem C112_solves (hσ : ParserState F σ) (h : parseDomain F σ text = .ok (d, τ)) (ht : Brackets (lex text) [.node ts])
    (hσ₂ : ParserState F σ₂) (h₂ : parseDomain F σ₂ text' = .ok (d', τ₂)) (ht' : Brackets (lex text') [.node ts'])
    (H : Easier ts ts') (hpos : PositiveActions ts') (hg : plan.inst d = .ok gs) (hg' : plan.inst d' = .ok gs')
    {ptext : Str} {t : Tree} {s : ProblemSections} {p : Problem} {ν ν' : List (Str × Term)}
    (hpt : Brackets (lex ptext) [t]) (hs : s.Of t) (hp : parseProblem F ν ptext = .ok (p, ν')) (hgoal : positiveText s.goal = true)
    {D : Type} {ρ : Str → D} {I : Interp D} (hsol : Solves ρ p gs I) : Solves ρ p gs' I := by
  obtain ⟨h0, J, hr, hh⟩ := hsol
  obtain ⟨J', hJ, hr'⟩ := C112_runs hσ h ht hσ₂ h₂ ht' H hpos hg hg' hr ⟨rfl, rfl, rfl, fun _ _ h => h⟩
  exact ⟨h0, J', hr', holds_larger hJ (goal_positive hpt hs hp hgoal) hh⟩

/-- Leaving out the deletions makes actions easier. -/
theorem C112_easier (hn : ∀ n ps pre eff ps' pre' eff', actionText n ps pre eff ∈ ts → actionText n ps' pre' eff' ∈ ts →
    ps = ps' ∧ pre = pre' ∧ eff = eff') : Easier ts (ts.map withoutDeletions) := by
  intro n ps pre eff ps' pre' eff' hm hm'
  obtain ⟨t, ht, he⟩ := List.mem_map.1 hm'
  obtain ⟨eff0, rfl, rfl⟩ : ∃ e0, t = actionText n ps' pre' e0 ∧ eff' = dropDeletions e0 := by
    unfold withoutDeletions at he
    split at he
    · simp only [actionText, Tree.node.injEq, List.cons.injEq, Tree.atom.injEq, Tok.kw.injEq, and_true] at he
      obtain ⟨rfl, rfl, rfl, rfl, rfl, rfl, rfl, rfl⟩ := he
      exact ⟨_, rfl, by simp⟩
    · rename_i hne
      subst he
      exact absurd rfl (hne _ _ _ _ _ _ _ _)
  obtain ⟨rfl, rfl, rfl⟩ := hn _ _ _ _ _ _ _ hm ht
  refine ⟨rfl, fun t h => h, fun t h => ?_, fun t h => ?_⟩
  · rw [dropDeletions, conjuncts_and, List.mem_filter]
    by_cases hd : addsNothing t = true
    · unfold addsNothing at hd
      split at hd
      · exact .inr (.inr rfl)
      · rename_i w x
        simp only [decide_eq_true_eq] at hd
        subst hd
        exact .inr (.inl ⟨x, rfl⟩)
      · cases hd
    · exact .inl ⟨h, by simpa using hd⟩
  · rw [dropDeletions, conjuncts_and, List.mem_filter] at h
    exact .inl h.1

/-- A plan solves the problem without deletions too: whoever finds no plan for the problem without deletions knows that
there is none for the problem. -/
theorem C112_deletions (hσ : ParserState F σ) (h : parseDomain F σ text = .ok (d, τ)) (ht : Brackets (lex text) [.node ts])
    (hσ₂ : ParserState F σ₂) (h₂ : parseDomain F σ₂ text' = .ok (d', τ₂)) (ht' : Brackets (lex text') [.node (ts.map withoutDeletions)])
    (hn : ∀ n ps pre eff ps' pre' eff', actionText n ps pre eff ∈ ts → actionText n ps' pre' eff' ∈ ts → ps = ps' ∧ pre = pre' ∧ eff = eff')
    (hpos : PositiveActions ts) (hg : plan.inst d = .ok gs) (hg' : plan.inst d' = .ok gs')
    {ptext : Str} {t : Tree} {s : ProblemSections} {p : Problem} {ν ν' : List (Str × Term)}
    (hpt : Brackets (lex ptext) [t]) (hs : s.Of t) (hp : parseProblem F ν ptext = .ok (p, ν')) (hgoal : positiveText s.goal = true)
    {D : Type} {ρ : Str → D} {I : Interp D} (hsol : Solves ρ p gs I) : Solves ρ p gs' I := by
  refine C112_solves hσ h ht hσ₂ h₂ ht' (C112_easier hn) ?_ hg hg' hpt hs hp hgoal hsol
  intro n ps pre eff hm
  obtain ⟨t, ht, he⟩ := List.mem_map.1 hm
  unfold withoutDeletions at he
  split at he
  · simp only [actionText, Tree.node.injEq, List.cons.injEq, Tree.atom.injEq, Tok.kw.injEq, and_true] at he
    obtain ⟨rfl, rfl, rfl, rfl, rfl, rfl, rfl, rfl⟩ := he
    exact hpos _ _ _ _ ht
  · subst he
    exact hpos _ _ _ _ ht

/-! ### A case -/

/-- `shiftText` without the deletion. -/
def spreadText : Str := s%"(define (domain d) (:requirements :strips) (:predicates (q ?x))
  (:action m :parameters (?x ?y) :precondition (and (q ?x)) :effect (and (q ?y))))"

/-- The ground action `(m a b)` of it. -/
def spreadAction : Action := ⟨s%"m", [.const s%"a" none, .const s%"b" none], some (.pred ⟨s%"q", [.const s%"a" none]⟩),
  some (.pred ⟨s%"q", [.const s%"b" none]⟩)⟩

theorem spread_trees : readText spreadText = .ok [.node (shiftTrees.map withoutDeletions)] := by decide +kernel

theorem spread_parsed : ∃ d τ, parseDomain (fun _ => none) .fresh spreadText = .ok (d, τ) ∧ shiftPlan.inst d = .ok [spreadAction] := by
  have h : (match parseDomain (fun _ => none) .fresh spreadText with
      | .ok (d, _) => decide (shiftPlan.inst d = .ok [spreadAction]) | .error _ => false) = true := by decide +kernel
  cases h1 : parseDomain (fun _ => none) .fresh spreadText with
  | error e => rw [h1] at h; cases h
  | ok r => rw [h1] at h; exact ⟨r.1, r.2, rfl, by simpa using h⟩

theorem shift_names : ∀ n ps pre eff ps' pre' eff', actionText n ps pre eff ∈ shiftTrees → actionText n ps' pre' eff' ∈ shiftTrees →
    ps = ps' ∧ pre = pre' ∧ eff = eff' := by
  have h : ∀ t ∈ shiftTrees, (∃ n ps pre eff, t = actionText n ps pre eff) → t = (shiftTrees.drop 4).headD (.node []) := by
    have e : shiftTrees = shiftTrees.take 4 ++ [(shiftTrees.drop 4).headD (.node [])] := by decide +kernel
    intro t ht ⟨n, ps, pre, eff, he⟩
    rw [e, List.mem_append, List.mem_singleton] at ht
    refine ht.resolve_left (fun h => ?_)
    have : ∀ u ∈ shiftTrees.take 4, (match u with | .node (.atom (.kw k) :: _) => decide (k = s%"action") | _ => false) = false := by
      decide +kernel
    have := this t h
    rw [he] at this
    simp [actionText] at this
  intro n ps pre eff ps' pre' eff' h1 h2
  have := (h _ h1 ⟨_, _, _, _, rfl⟩).trans (h _ h2 ⟨_, _, _, _, rfl⟩).symm
  simp only [actionText, Tree.node.injEq, List.cons.injEq, and_true, true_and] at this
  exact this

/-- The texts of C98 and the text without deletions: the plan of the example there is a plan here. -/
example : ∃ d τ d' τ₂ p ν, parseDomain (fun _ => none) .fresh shiftText = .ok (d, τ) ∧
    parseDomain (fun _ => none) .fresh spreadText = .ok (d', τ₂) ∧ parseProblem (fun _ => none) [] fewProblem = .ok (p, ν) ∧
    shiftPlan.inst d = .ok [shiftAction] ∧ shiftPlan.inst d' = .ok [spreadAction] ∧
    ∀ (D : Type) (ρ : Str → D) (I : Interp D), Solves ρ p [shiftAction] I → Solves ρ p [spreadAction] I := by
  obtain ⟨d, τ, h, hg⟩ := shift_parsed
  obtain ⟨d', τ₂, h', hg'⟩ := spread_parsed
  obtain ⟨t, ht, hs⟩ := few_of
  have hp : (parseProblem (fun _ => none) [] fewProblem).isOk = true := by decide +kernel
  cases h1 : parseProblem (fun _ => none) [] fewProblem with
  | error e => rw [h1] at hp; cases hp
  | ok r =>
    exact ⟨d, τ, d', τ₂, r.1, r.2, h, h', rfl, hg, hg', fun D ρ I hsol => C112_deletions .fresh h (readText_brackets.1 shift_trees) .fresh h'
      (readText_brackets.1 spread_trees) shift_names shift_positive hg hg' ht hs h1 (by decide +kernel) hsol⟩

/-- With a negative condition it is false: `(not (q a))` can be made true only by a deletion. -/
theorem C112_negative : ∃ (g g' : Action) (I : Interp Str), g' = ⟨g.name, g.params, g.pre, some (mkAnd [])⟩ ∧
    g.eff = some (.not (.pred ⟨s%"q", [.const s%"a" none]⟩)) ∧
    (∃ J, Runs id [g] I J ∧ holds J (.not (.pred ⟨s%"q", [.const s%"a" none]⟩)) id) ∧
    ¬ ∃ J, Runs id [g'] I J ∧ holds J (.not (.pred ⟨s%"q", [.const s%"a" none]⟩)) id := by
  let I : Interp Str := ⟨id, fun _ _ => True, fun _ _ => True, fun _ _ => none⟩
  let J : Interp Str := ⟨id, fun _ _ => True, fun n ds => ¬ (n = s%"q" ∧ ds = [s%"a"]), fun _ _ => none⟩
  refine ⟨⟨s%"m", [], none, some (.not (.pred ⟨s%"q", [.const s%"a" none]⟩))⟩, _, I, rfl, rfl, ⟨J, .cons (J := J) ⟨by simp, rfl, rfl, ?_, fun _ _ _ => rfl, ?_⟩ .nil, ?_⟩, ?_⟩
  · intro n ds
    simp [makes, deletes, denote, I, J]
  · rintro f ds op v ⟨e, he, hm⟩
    cases he
    simp [makes, deletes] at hm
  · simp [holds, denote, J]
  · rintro ⟨K, hr, hh⟩
    cases hr with
    | cons ha hr =>
      cases hr
      have := (ha.2.pred s%"q" [s%"a"]).2 (.inr ⟨trivial, ?_⟩)
      · refine hh ?_
        simp only [holds, List.map, denote, ha.2.const]
        exact this
      · rintro ⟨e, he, hm⟩
        cases he
        rw [makes_mkAnd] at hm
        simp at hm

end Pddl.Props
