/-
C117: the ground actions of a plan do what the plan does.
-/
import Verif.Proofs.GroundPlan
import Verif.Props.SaidTask

namespace Pddl.Props
open Spec Spec.Grammar

/-- The full claim: the ground actions that `Plan.instantiate` returns solve the problem exactly if the plan does. -/
def C117_full : Prop := ∀ (d : Domain) (p : Pddl.Problem) (plan : Plan) (gs : List Action), BuiltDomain d → BuiltProblem p →
  SaidPlan plan → plan.inst d = .ok gs →
  ∀ (D : Type) (I : Interp D) ρ, Solves ρ p gs I ↔ TaskSolves ρ d p plan I

/-- C117, for actions with different names whose steps can be instantiated: the ground actions lead from a state to another exactly
if the steps of the plan do, with the parameters denoting the arguments; so they solve the same problems. -/
theorem C117_partial {d : Domain} {p : Pddl.Problem} {plan : Plan} {gs : List Action} (hb : BuiltDomain d) (ho : OneActionEach d)
    (hs : SafePlan d plan) (hg : plan.inst d = .ok gs) {D : Type} (I : Interp D) (ρ : Str → D) :
    (∀ J, Runs ρ gs I J ↔ StepByStep (Performs d ρ) plan.steps I J) ∧ (Solves ρ p gs I ↔ TaskSolves ρ d p plan I) := by
  have key : ∀ J, Runs ρ gs I J ↔ StepByStep (Performs d ρ) plan.steps I J :=
    fun J => inst_runs hb.actions ho hs (instSteps_ok.1 hg)
  refine ⟨key, ?_⟩
  unfold Solves TaskSolves
  simp only [key]

/-- The ground actions cost what the plan costs. -/
theorem C117_cost_partial {d : Domain} {p : Pddl.Problem} {plan : Plan} {gs : List Action} {m : Pddl.Metric} (hb : BuiltDomain d)
    (ho : OneActionEach d) (hs : SafePlan d plan) (hg : plan.inst d = .ok gs) {D : Type} (I : Interp D) (ρ : Str → D)
    (lit : Str → Option Rat) (v : Rat) : SolvesFor lit ρ p m gs I v ↔ TaskSolvesFor lit ρ d p m plan I v := by
  unfold SolvesFor TaskSolvesFor
  simp only [fun J => inst_runs (J := J) (I := I) (ρ := ρ) hb.actions ho hs (instSteps_ok.1 hg)]

/-- With derived predicates, in whatever way `E` states are completed by them: the ground actions solve the problem exactly if the
plan does. -/
theorem C117_derived_partial {d : Domain} {p : Pddl.Problem} {plan : Plan} {gs : List Action} (hb : BuiltDomain d)
    (ho : OneActionEach d) (hs : SafePlan d plan) (hg : plan.inst d = .ok gs) {D : Type} (E : Interp D → Interp D → Prop)
    (I : Interp D) (ρ : Str → D) : SolvesBy E ρ p gs I ↔ TaskSolvesBy E ρ d p plan I := by
  unfold SolvesBy TaskSolvesBy
  simp only [fun J => inst_runsBy (J := J) (I := I) (ρ := ρ) (E := E) hb.actions ho hs (instSteps_ok.1 hg)]

/-- Also if there are actions of the same name, ground actions that solve the problem come from a plan that does. -/
theorem C117_sound_partial {d : Domain} {p : Pddl.Problem} {plan : Plan} {gs : List Action} (hb : BuiltDomain d)
    (hs : SafePlan d plan) (hg : plan.inst d = .ok gs) {D : Type} (E : Interp D → Interp D → Prop)
    (I : Interp D) (ρ : Str → D) : SolvesBy E ρ p gs I → TaskSolvesBy E ρ d p plan I := by
  rintro ⟨h1, J, J', h2, h3⟩
  exact ⟨h1, J, J', inst_runs_imp hb.actions hs (instSteps_ok.1 hg) h2, h3⟩

/-- With C116: the ground actions solve the problem exactly if the printed plan solves the printed problem in the printed domain. -/
theorem C117_text_partial {F : FloatOf} {d : Domain} {p : Pddl.Problem} {plan : Plan} {gs : List Action} (hb : BuiltDomain d)
    (hd : SaidDomain F d) (hp : BuiltProblem p) (hq : SaidProblem F p) (hl : SaidPlan plan) (ho : OneActionEach d)
    (hs : SafePlan d plan) (hg : plan.inst d = .ok gs) :
    ∃ dtext ts t s us, d.str = .ok dtext ∧ Brackets (lex dtext) [.node ts] ∧ Brackets (lex p.str) [t] ∧ s.Of t ∧
      Brackets (lex plan.str) us ∧
      ∀ (D : Type) (I : Interp D) lit ρ, LitOk lit F → (Solves ρ p gs I ↔ TextSolves lit ts s us ρ I) := by
  obtain ⟨dtext, ts, t, s, us, h1, h2, h3, h4, h5, h6, _⟩ := C116_partial hb hd hp hq hl
  exact ⟨dtext, ts, t, s, us, h1, h2, h3, h4, h5, fun D I lit ρ hlit =>
    (C117_partial hb ho hs hg I ρ).2.trans (h6 D I lit ρ hlit).1⟩

/-! ### What is false -/

/-- `(and)` -/
def noCondition : Expr := .bin .and []

/-- A domain with two actions of the same name. -/
def sameNameArgs : DomainArgs where
  name := s%"d"
  predicates := [⟨s%"p", []⟩, ⟨s%"q", []⟩]
  actions := [⟨s%"go", [], some noCondition, some (.pred ⟨s%"p", []⟩)⟩, ⟨s%"go", [], some noCondition, some (.pred ⟨s%"q", []⟩)⟩]

/-- The problem to reach `p`. -/
def reachPArgs : ProblemArgs where
  name := s%"p"
  domainName := some s%"d"
  goal := some (.pred ⟨s%"p", []⟩)

/-- Of two actions with the same name only one is found. -/
theorem C117_fails : ¬ C117_full := by
  intro hfull
  have hnone : Built noCondition := built_and (as := []) (by decide +kernel) (by simp)
  have hpq : ∀ n ∈ [s%"p", s%"q"], mkPred n [] = .ok ⟨n, []⟩ := by decide +kernel
  have hb : BuiltDomainArgs sameNameArgs := by
    refine ⟨by simp [IsDict, sameNameArgs], ?_, by simp [IsFunDict, sameNameArgs], by simp [sameNameArgs], ?_, by simp [sameNameArgs], by decide +kernel⟩
    · simp only [sameNameArgs, List.forall_mem_cons, List.not_mem_nil, false_imp_iff, implies_true, and_true]
      exact ⟨⟨_, _, hpq _ (by simp)⟩, ⟨_, _, hpq _ (by simp)⟩⟩
    · simp only [sameNameArgs, List.forall_mem_cons, List.not_mem_nil, false_imp_iff, implies_true, and_true]
      exact ⟨⟨hnone, .pred (hpq _ (by simp)), ⟨s%"go", by decide +kernel⟩⟩, ⟨hnone, .pred (hpq _ (by simp)), ⟨s%"go", by decide +kernel⟩⟩⟩
  have hd : (match mkDomain sameNameArgs with | .ok _ => true | .error _ => false) = true := by decide +kernel
  have hp : (match mkProblem reachPArgs with | .ok _ => true | .error _ => false) = true := by decide +kernel
  cases h : mkDomain sameNameArgs with
  | error e => rw [h] at hd; simp at hd
  | ok d =>
  cases h' : mkProblem reachPArgs with
  | error e => rw [h'] at hp; simp at hp
  | ok p =>
    obtain ⟨_, _, _, _, _, _, _, _, hdd⟩ := (mkDomain_ok hb.types).1 h
    have e6 : d.actions = sameNameArgs.actions := by rw [hdd]; decide +kernel
    obtain ⟨_, k2, k3, k4, k5, k6, _⟩ := mkProblem_fields h'
    have hi : p.init = [] := by rw [k4]; rfl
    have hgoal : p.goal = .pred ⟨s%"p", []⟩ := by rw [k5]; rfl
    have hinst : (⟨[(s%"go", [])]⟩ : Plan).inst d = .ok [⟨s%"go", [], some noCondition, some (.pred ⟨s%"q", []⟩)⟩] := by
      unfold Plan.inst
      rw [instSteps_ok]
      refine .cons ⟨⟨s%"go", [], some noCondition, some (.pred ⟨s%"q", []⟩)⟩, by rw [e6]; decide +kernel, by decide +kernel⟩ .nil
    have hb' : BuiltProblem p := ⟨reachPArgs, ⟨by simp [reachPArgs], by rintro _ ⟨rfl⟩; exact .pred (hpq _ (by simp)), by simp [reachPArgs]⟩, h'⟩
    let I : Interp Unit := ⟨fun _ => (), fun _ _ => True, fun _ _ => False, fun _ _ => none⟩
    let J : Interp Unit := ⟨fun _ => (), fun _ _ => True, fun n ds => n = s%"p" ∧ ds = [], fun _ _ => none⟩
    have hyes : TaskSolves (fun _ => ()) d p ⟨[(s%"go", [])]⟩ I := by
      refine ⟨⟨?_, ?_, ?_, ?_⟩, J, .cons (J := J) ⟨⟨s%"go", [], some noCondition, some (.pred ⟨s%"p", []⟩)⟩, by rw [e6]; simp [sameNameArgs], fun _ => (),
        rfl, rfl, ⟨by simp, by simp⟩, ?_, rfl, rfl, ?_, ?_, ?_⟩ .nil, ?_⟩
      · intro n ds; rw [hi]; simp [I]
      · intro q hq; rw [hi] at hq; simp at hq
      · intro f v hv; rw [hi] at hv; simp at hv
      · intro n ds hn; simp [I] at hn
      · rintro _ ⟨rfl⟩; simp [noCondition, holds, holdsAll]
      · intro n ds
        simp [I, J, makes]
      · intro f ds _; rfl
      · rintro f ds op v ⟨e, he, hm⟩
        cases he
        simp [makes] at hm
      · rw [hgoal]; simp [J, holds]
    obtain ⟨_, K, hr, hk⟩ := (hfull d p ⟨[(s%"go", [])]⟩ _ ⟨_, hb, h⟩ hb' (by
      intro st hst
      rw [List.mem_singleton.1 hst]
      exact ⟨(show ValidName s%"go" by decide +kernel).1, by simp⟩) hinst Unit I (fun _ => ())).2 hyes
    rw [hgoal] at hk
    cases hr with
    | cons h1 h2 =>
      cases h2
      have := (h1.2.pred s%"p" []).1 (by simpa [holds] using hk)
      simp [I, makes] at this

/-! ### A plan that meets the hypotheses -/

/-- The effect `(and (not (p ?x)) (increase (total-cost) 2))`. -/
def payTwoEff : Expr := .bin .and [.not (tokenOf (.var ⟨s%"x", []⟩)), .bfun .increase [.nfun ⟨s%"total-cost", []⟩, .num (.int 2)]]

/-- An action with one parameter. -/
def payTwoAction : Action := ⟨s%"pay", [.var ⟨s%"x", []⟩], some (tokenOf (.var ⟨s%"x", []⟩)), some payTwoEff⟩

/-- The step `(pay a)` can be instantiated. -/
theorem pay_safe : SafeStep payTwoAction [.const s%"a" none] ∧ BuiltAction payTwoAction ∧ ∃ g, payTwoAction.inst [.const s%"a" none] = .ok g := by
  have hb : Built (tokenOf (.var ⟨s%"x", []⟩)) := .pred (n := s%"p") (ts := [.var ⟨s%"x", []⟩]) (by decide +kernel)
  have hsafe : ∀ t ∈ [Term.var ⟨s%"x", []⟩], SafeTerm [(.var ⟨s%"x", []⟩, .const s%"a" none)] [] t := by
    intro t ht
    rw [List.mem_singleton.1 ht]
    exact ⟨by simp, fun _ _ => by decide +kernel⟩
  refine ⟨⟨⟨[⟨s%"x", []⟩], rfl, by simp⟩, by simp, ?_, ?_⟩, ⟨hb, ?_, ⟨s%"pay", by decide +kernel⟩⟩, ?_⟩
  · rintro _ ⟨rfl⟩
    exact ⟨trivial, hsafe, trivial⟩
  · rintro _ ⟨rfl⟩
    refine ⟨⟨⟨trivial, ⟨?_, trivial, trivial, trivial⟩, trivial⟩, ⟨hsafe, ⟨by simp [Safe], trivial, trivial⟩, trivial⟩,
      ⟨trivial, ⟨⟨trivial, trivial, trivial⟩, ?_⟩, trivial⟩⟩, .and ?_⟩
    · simp [Numeric]
    · intro hm; simp [Cls.isMeta] at hm
    · simp only [List.forall_mem_cons, List.not_mem_nil, false_imp_iff, implies_true, and_true]
      exact ⟨.not _, .update _ _⟩
  · refine built_and (by decide +kernel) ?_
    simp only [List.forall_mem_cons, List.not_mem_nil, false_imp_iff, implies_true, and_true]
    exact ⟨.not hb, built_fop (by decide +kernel) (.nfun (n := s%"total-cost") (ts := []) (by decide +kernel)) (.num _)⟩
  · have : (match payTwoAction.inst [.const s%"a" none] with | .ok _ => true | .error _ => false) = true := by decide +kernel
    cases h : payTwoAction.inst [.const s%"a" none] with
    | ok g => exact ⟨g, rfl⟩
    | error e => rw [h] at this; simp at this

/-- A domain with the action. -/
def payTwoArgs : DomainArgs where
  name := s%"d"
  reqs := [.actionCosts, .fluents]
  predicates := [⟨s%"p", [.var ⟨s%"x", []⟩]⟩]
  functions := [(⟨s%"total-cost", []⟩, none)]
  actions := [payTwoAction]

example : ∃ d gs, BuiltDomain d ∧ OneActionEach d ∧ SafePlan d ⟨[(s%"pay", [.const s%"a" none])]⟩ ∧
    (⟨[(s%"pay", [.const s%"a" none])]⟩ : Plan).inst d = .ok gs ∧ gs.length = 1 := by
  obtain ⟨hs, hb, g, hg⟩ := pay_safe
  have hd : (match mkDomain payTwoArgs with | .ok _ => true | .error _ => false) = true := by decide +kernel
  have hba : BuiltDomainArgs payTwoArgs := by
    refine ⟨by simp [IsDict, payTwoArgs], ?_, by unfold IsFunDict; decide +kernel, ?_, ?_, by simp [payTwoArgs], by decide +kernel⟩
    · intro p hp
      rw [List.mem_singleton.1 hp]
      exact ⟨s%"p", [.var ⟨s%"x", []⟩], by decide +kernel⟩
    · intro p hp
      rw [List.mem_singleton.1 hp]
      exact ⟨s%"total-cost", [], by decide +kernel⟩
    · intro x hx
      rw [List.mem_singleton.1 hx]
      exact hb
  cases h : mkDomain payTwoArgs with
  | error e => rw [h] at hd; simp at hd
  | ok d =>
    obtain ⟨_, _, _, _, _, _, _, _, hdd⟩ := (mkDomain_ok hba.types).1 h
    have e6 : d.actions = [payTwoAction] := by rw [hdd]; decide +kernel
    refine ⟨d, [g], ⟨_, hba, h⟩, ?_, ?_, ?_, rfl⟩
    · intro a ha b hb _
      rw [e6] at ha hb
      rw [List.mem_singleton.1 ha, List.mem_singleton.1 hb]
    · intro st hst a ha _
      rw [e6] at ha
      rw [List.mem_singleton.1 hst, List.mem_singleton.1 ha]
      exact hs
    · unfold Plan.inst
      rw [instSteps_ok]
      exact .cons ⟨payTwoAction, by rw [e6]; decide +kernel, hg⟩ .nil

end Pddl.Props
