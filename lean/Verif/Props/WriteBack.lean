/- C90: writing a domain, a problem and a plan and reading them again keeps what the plan does. -/
import Verif.Proofs.WriteBack
import Verif.Proofs.ShareDom
import Verif.Props.DomainRoundTrip
import Verif.Props.ProblemRoundTrip
import Verif.Props.SameMeaning

namespace Pddl.Props
open Pddl Spec

/-- The texts of the three objects are read by new parsers, and what is read behaves like the objects: the same
outcome of `Problem.check` and `Plan.check`, the same ground actions or error, and a plan solves both problems or
neither. -/
def WritesBack (F : FloatOf) (d : Domain) (p : Problem) (π : Plan) : Prop :=
  ∃ dt d' σ' p' τ' π', d.str = .ok dt ∧ parseDomain F PState.fresh dt = .ok (d', σ') ∧
    parseProblem F [] p.str = .ok (p', τ') ∧ parsePlan π.str = .ok π' ∧
    p'.check d' = p.check d ∧ π'.check d' p' = π.check d p ∧ π'.inst d' = π.inst d ∧
    ∀ gs, π.inst d = .ok gs → ∀ (D : Type) (I : Interp D) ρ, Solves ρ p' gs I ↔ Solves ρ p gs I

/-- The full statement, of everything that is read from texts. -/
def C90_full : Prop := ∀ (F : FloatOf) (dt pt lt : Str) (d : Domain) (p : Problem) (π : Plan) (σ : PState) (τ : List (Str × Term)),
  parseDomain F PState.fresh dt = .ok (d, σ) → parseProblem F [] pt = .ok (p, τ) → parsePlan lt = .ok π →
  WritesBack F d p π

/-- A problem and a plan with nothing in them. -/
def emptyProblemText : Str := s%"(define (problem p) (:domain d) (:init) (:goal (and)))"

theorem emptyProblem_ok : ∃ p τ, parseProblem (fun _ => none) [] emptyProblemText = .ok (p, τ) := by
  have : (parseProblem (fun _ => none) [] emptyProblemText).toOption.isSome = true := by decide +kernel
  cases h : parseProblem (fun _ => none) [] emptyProblemText with
  | error e => rw [h] at this; simp [Except.toOption] at this
  | ok r => exact ⟨_, _, rfl⟩

/-- An action with the precondition `()`. -/
def unreadText : Str := s%"(define (domain d) (:action m :parameters () :precondition () :effect (and)))"

/-- The text of what is read from the text is read. -/
def readAgain (text : Str) : Option (Except Exc (Domain × PState)) :=
  match parseDomain (fun _ => none) PState.fresh text with
  | .ok (d, _) =>
    match d.str with
    | .ok s => some (parseDomain (fun _ => none) PState.fresh s)
    | .error _ => none
  | .error _ => none

theorem readAgain_some {text : Str} {r : Except Exc (Domain × PState)} (h : readAgain text = some r) :
    ∃ d σ s, parseDomain (fun _ => none) PState.fresh text = .ok (d, σ) ∧ d.str = .ok s ∧
      parseDomain (fun _ => none) PState.fresh s = r := by
  unfold readAgain at h
  split at h
  · rename_i d σ hd
    split at h
    · rename_i s hs
      exact ⟨d, σ, s, hd, hs, by simpa using h⟩
    · simp at h
  · simp at h

/-- It is false of a domain whose text is not read (see C42). -/
theorem C90_fails : ¬ C90_full := by
  intro H
  obtain ⟨r, hr, e⟩ : ∃ r, readAgain unreadText = some r ∧ r.toOption.isNone = true := by
    have : ((readAgain unreadText).map (fun r => r.toOption.isNone)) = some true := by decide +kernel
    simpa [Option.map_eq_some_iff] using this
  obtain ⟨d, σ, s, h1, h2, h3⟩ := readAgain_some hr
  obtain ⟨p, τ, hp⟩ := emptyProblem_ok
  obtain ⟨s', d', σ', _, _, _, k1, k2, _⟩ := H _ _ _ [] d p ⟨[]⟩ σ τ h1 hp (by rfl)
  rw [h2] at k1
  cases k1
  rw [k2] at h3
  subst h3
  simp [Except.toOption] at e

/-- Actions of one name, of which the written text has another one last. -/
def homonymsText : Str := s%"(define (domain d) (:predicates (p))
  (:action go :parameters (?x) :precondition (p) :effect (and))
  (:action go :parameters () :precondition (p) :effect (and)))"

/-- The outcome of `check` for the plan `(go)`, before and after. -/
def goOutcomes (text : Str) : Option (Bool × Bool) :=
  match parseDomain (fun _ => none) PState.fresh text, parseProblem (fun _ => none) [] emptyProblemText with
  | .ok (d, _), .ok (p, _) =>
    match d.str with
    | .ok s =>
      match parseDomain (fun _ => none) PState.fresh s, parseProblem (fun _ => none) [] p.str with
      | .ok (d', _), .ok (p', _) =>
        some ((Plan.check ⟨[(s%"go", [])]⟩ d p).toOption.isSome, (Plan.check ⟨[(s%"go", [])]⟩ d' p').toOption.isSome)
      | _, _ => none
    | .error _ => none
  | _, _ => none

/-- It is also false when two actions share a name: the text lists the actions in another order, so that a step may
mean another action. -/
theorem C90_fails_names : ∃ d σ p τ, parseDomain (fun _ => none) PState.fresh homonymsText = .ok (d, σ) ∧
    parseProblem (fun _ => none) [] emptyProblemText = .ok (p, τ) ∧ parsePlan s%"(go)" = .ok ⟨[(s%"go", [])]⟩ ∧
    ¬ WritesBack (fun _ => none) d p ⟨[(s%"go", [])]⟩ := by
  have key : goOutcomes homonymsText = some (true, false) := by decide +kernel
  have hg : parsePlan s%"(go)" = .ok ⟨[(s%"go", [])]⟩ := by rfl
  have hg' : parsePlan (Plan.str ⟨[(s%"go", [])]⟩) = .ok ⟨[(s%"go", [])]⟩ := by rfl
  unfold goOutcomes at key
  split at key
  · rename_i d σ p τ hd hp
    refine ⟨d, σ, p, τ, hd, hp, hg, ?_⟩
    split at key
    · rename_i s hs
      split at key
      · rename_i d' σ' p' τ' hd' hp'
        rintro ⟨_, _, _, _, _, _, k1, k2, k3, k4, _, k5, _⟩
        rw [hs] at k1; cases k1
        rw [hd'] at k2; cases k2
        rw [hp'] at k3; cases k3
        rw [hg'] at k4; cases k4
        rw [k5] at key
        simp only [Option.some.injEq, Prod.mk.injEq] at key
        rw [key.1] at key
        simp at key
      · simp at key
    · simp at key
  · simp at key

/-- C90. Texts without the obstacles of C42 and C43 and with distinct action names: the domain, the problem and the plan
can be written and read again, and the plan does the same. Missing: the rest, of which it is false. -/
theorem C90_partial {F : FloatOf} {dt pt lt : Str} {d : Domain} {p : Problem} {π : Plan} {σ : PState}
    {τ : List (Str × Term)} (hd : parseDomain F PState.fresh dt = .ok (d, σ)) (hp : parseProblem F [] pt = .ok (p, τ))
    (hπ : parsePlan lt = .ok π) (ho : DerivedFirst dt) (hnd : DomainNoObstacle F d) (hnp : ProblemNoObstacle F p)
    (hn : (d.actions.map Action.name).Nodup) : WritesBack F d p π := by
  obtain ⟨hb, hpr⟩ := domain_reread hd ho hnd
  obtain ⟨text, d', σ', h1, h2, h3, h4⟩ := domain_read hb hpr
  obtain ⟨hb', hpr', _⟩ := problem_reread (by intro n t h; simp [dictGet] at h) hp hnp
  obtain ⟨p', τ', k2, k3, k4⟩ := problem_read (F := F) (σ := []) (by intro n t h; simp [dictGet] at h) hb' hpr'
  refine ⟨text, d', σ', p', τ', π, h1, h2, k2, plan_reread hπ, ?_, ?_, ?_, ?_⟩
  · have e1 := Pddl.parsed_exists hd
    have e2 := Pddl.parsed_exists h2
    have hdec : ∀ t, Declared d'.types t ↔ Declared d.types t := by
      intro t
      unfold Declared
      simp only [h4.types.mem_iff]
    have hfit : Fits p' d' ↔ Fits p d := by
      rw [parsed_fits k2, parsed_fits hp, k4.domainName, h4.name]
      simp only [k4.reqs.mem_iff, h4.reqs.mem_iff, k4.objects.mem_iff]
      simp only [wellTypedTerm_congr hdec (fun r => h4.reqs.mem_iff)]
    rw [← problemCheck_ok e1, ← problemCheck_ok e2] at hfit
    cases ha : p.check d with
    | ok => exact hfit.2 ha
    | error e =>
      cases hb : p'.check d' with
      | ok => rw [ha, hb] at hfit; simp at hfit
      | error e' => rw [problemCheck_error e1 ha, problemCheck_error e2 hb]
  · have hn' : (d'.actions.map Action.name).Nodup := ((h4.actions.map _).nodup_iff).2 hn
    have hone : OneNamed d' := fun a ha b hb e => by
      rw [List.inj_on_of_nodup_map hn' ha hb e]
      exact Action.pyEq_iff.2 rfl
    exact C87_check hone h3 k3 (by unfold Plan.pyEq; rw [stepsEq_iff])
  · have hn' : (d'.actions.map Action.name).Nodup := ((h4.actions.map _).nodup_iff).2 hn
    exact instSteps_congr (fun n => by rw [schemas_get, schemas_get, lastNamed_perm hn' h4.actions]) π.steps
  · intro gs _ D I ρ
    exact C87_solves k3 (List.forall₂_same.2 (fun g _ => Action.pyEq_iff.2 rfl)) I ρ

/-- A problem for the domain with all sections. -/
def driveProblem : Str := s%"(define (problem trip) (:domain logistics) (:requirements :typing) (:objects t1 - truck home - place)
  (:init (at t1 home) (= (fuel t1) 3)) (:goal (at t1 depot)))"

/-- The hypotheses hold of it, with a plan that passes `check`. -/
theorem driveTask_ok : ∃ d σ p τ π gs, parseDomain (fun _ => none) PState.fresh readSample = .ok (d, σ) ∧
    parseProblem (fun _ => none) [] driveProblem = .ok (p, τ) ∧ parsePlan s%"(drive t1 home depot)" = .ok π ∧
    DerivedFirst readSample ∧ DomainNoObstacle (fun _ => none) d ∧ ProblemNoObstacle (fun _ => none) p ∧
    (d.actions.map Action.name).Nodup ∧ p.check d = .ok () ∧ π.check d p = .ok () ∧ π.inst d = .ok gs ∧ gs.length = 1 := by
  obtain ⟨d, σ, h1, h2, h3, _, h4⟩ := readSample_ok
  have key : (match parseDomain (fun _ => none) PState.fresh readSample, parseProblem (fun _ => none) [] driveProblem,
        parsePlan s%"(drive t1 home depot)" with
      | .ok (d, _), .ok (p, _), .ok π =>
        (p.check d).toOption.isSome && (π.check d p).toOption.isSome && (match π.inst d with
          | .ok gs => decide (gs.length = 1) | .error _ => false) &&
        decide (p.init = [.pred ⟨s%"at", [.const s%"t1" (some s%"truck"), .const s%"home" (some s%"place")]⟩,
            .bfun .eq [.nfun ⟨s%"fuel", [.const s%"t1" none]⟩, .num (.int 3)]] ∧
          p.goal = .pred ⟨s%"at", [.const s%"t1" none, .const s%"depot" none]⟩ ∧ p.metric.isNone = true)
      | _, _, _ => false) = true := by decide +kernel
  rw [h1] at key
  cases hp : parseProblem (fun _ => none) [] driveProblem with
  | error e => rw [hp] at key; simp at key
  | ok r =>
    obtain ⟨p, τ⟩ := r
    cases hl : parsePlan s%"(drive t1 home depot)" with
    | error e => rw [hp, hl] at key; simp at key
    | ok π =>
      rw [hp, hl] at key
      simp only [Bool.and_eq_true, decide_eq_true_eq] at key
      obtain ⟨⟨⟨k1, k2⟩, k3⟩, k4, k5, k6⟩ := key
      have unit : ∀ {x : Except Exc Unit}, x.toOption.isSome = true → x = .ok () := by
        intro x hx
        cases x with
        | ok => rfl
        | error e => simp [Except.toOption] at hx
      cases hi : π.inst d with
      | error e => rw [hi] at k3; simp at k3
      | ok gs =>
        rw [hi] at k3
        simp only [decide_eq_true_eq] at k3
        refine ⟨d, σ, p, τ, π, gs, h1, rfl, rfl, h2, h3, ⟨?_, ?_, ?_⟩, ?_, unit k1, unit k2, hi, k3⟩
        · rw [k4]
          intro e he
          simp only [List.mem_cons, List.not_mem_nil, or_false] at he
          rcases he with rfl | rfl
          · trivial
          · exact ⟨rfl, trivial, .int 3, trivial⟩
        · rw [k5]; trivial
        · intro m hm; rw [hm] at k6; simp at k6
        · rw [h4]; decide +kernel

end Pddl.Props
