/- C87: equal domains, problems and plans are interchangeable. -/
import Verif.Proofs.SameMeaning
import Verif.Props.Problem

namespace Pddl.Props
open Pddl Spec

/-- The results are equal, or both calls raise. -/
def SameResults (a b : Except Exc (List Action)) : Prop :=
  (∃ gs gs', a = .ok gs ∧ b = .ok gs' ∧ List.Forall₂ (fun g g' => g.pyEq g' = true) gs gs') ∨
  ∃ e e', a = .error e ∧ b = .error e'

/-- Only equal actions share a name. -/
def OneNamed (d : Domain) : Prop := ∀ a ∈ d.actions, ∀ b ∈ d.actions, a.name = b.name → a.pyEq b = true

/-- The full statement: equal plans for equal domains and problems are checked with the same outcome, instantiate to
equal ground actions, and solve the same problems. -/
def C87_full : Prop := ∀ (d d' : Domain) (p p' : Problem) (π π' : Plan), ExistsDomain d → ExistsDomain d' →
  d.pyEq d' = true → p.pyEq p' = true → π.pyEq π' = true →
  π.check d p = π'.check d' p' ∧ SameResults (π.inst d) (π'.inst d') ∧
  ∀ gs gs', π.inst d = .ok gs → π'.inst d' = .ok gs' →
    ∀ (D : Type) (I : Interp D) ρ, Solves ρ p gs I ↔ Solves ρ p' gs' I

/-- Two actions with one name, in the two orders that a set may have. -/
def twiceArgs (b : Bool) : DomainArgs :=
  { name := s%"d", predicates := [⟨s%"p", []⟩]
    actions := if b then
        [⟨s%"go", [], some (.pred ⟨s%"p", []⟩), some (.bin .and [])⟩,
         ⟨s%"go", [.var ⟨s%"x", []⟩], some (.bin .and []), some (.bin .and [])⟩]
      else
        [⟨s%"go", [.var ⟨s%"x", []⟩], some (.bin .and []), some (.bin .and [])⟩,
         ⟨s%"go", [], some (.pred ⟨s%"p", []⟩), some (.bin .and [])⟩] }

theorem twice_exists (b : Bool) : ExistsDomain (domainOf (twiceArgs b)) :=
  ⟨twiceArgs b, by cases b <;> (unfold IsDict; decide +kernel), by cases b <;> rfl⟩

/-- It is false when two actions share a name: which one a step means depends on the order of the set. -/
theorem C87_fails : ¬ C87_full := by
  intro h
  obtain ⟨h1, _⟩ := h (domainOf (twiceArgs true)) (domainOf (twiceArgs false)) demoProblem demoProblem
    ⟨[(s%"go", [])]⟩ ⟨[(s%"go", [])]⟩ (twice_exists _) (twice_exists _) (by decide +kernel) (by decide +kernel)
    (by decide +kernel)
  revert h1
  decide +kernel

/-- It is also false of the types of the constants: a constant equals the untyped constant of its name, but only one of
them may fit with the constants in the action. -/
theorem C87_fails_types : ∃ (d : Domain) (p : Problem) (π π' : Plan), ExistsDomain d ∧ OneNamed d ∧ π.pyEq π' = true ∧
    π.check d p = .ok () ∧ π'.check d p = .ok () ∧ (∃ gs, π.inst d = .ok gs) ∧ π'.inst d = .error .value := by
  refine ⟨domainOf clashDomainArgs, demoProblem, ⟨[(s%"go", [.const s%"c" (some s%"t")])]⟩, ⟨[(s%"go", [.const s%"c" none])]⟩,
    ⟨clashDomainArgs, by unfold IsDict; decide +kernel, rfl⟩, ?_, by decide +kernel, by rfl, by rfl, ⟨_, rfl⟩, by rfl⟩
  intro a ha b hb _
  have : ∀ x ∈ (domainOf clashDomainArgs).actions, x = ⟨s%"go", [.var ⟨s%"x", []⟩],
      some (.pred ⟨s%"p", [.var ⟨s%"x", []⟩, .const s%"c" (some s%"t")]⟩), some (.bin .and [])⟩ := by decide +kernel
  rw [this a ha, this b hb]
  decide +kernel

theorem eq_actions {d d' : Domain} (h : d.pyEq d' = true) :
    setEqBy Action.pyEq d.actions d'.actions = true ∧ setEqBy Term.pyEq d.constants d'.constants = true := by
  simp only [Domain.pyEq, Bool.and_eq_true, decide_eq_true_eq] at h
  obtain ⟨⟨⟨⟨⟨⟨⟨_, _⟩, _⟩, h4⟩, _⟩, _⟩, h7⟩, h8⟩ := h
  exact ⟨by assumption, by assumption⟩

theorem eq_steps {π π' : Plan} (h : π.pyEq π' = true) :
    List.Forall₂ (fun s t : Str × List Term => s.1 = t.1 ∧ s.2.map Term.norm = t.2.map Term.norm) π.steps π'.steps := by
  unfold Plan.pyEq at h
  rw [stepsEq_iff] at h
  generalize π.steps = l at h
  generalize π'.steps = l' at h
  induction l generalizing l' with
  | nil => cases l' <;> simp at h; exact .nil
  | cons s l ih =>
    cases l' with
    | nil => simp at h
    | cons t l' =>
      simp only [List.map_cons, List.cons.injEq, Prod.mk.injEq] at h
      exact .cons h.1 (ih _ h.2)

/-- Equal plans pass `check` for equal domains and problems together. -/
theorem C87_check {d d' : Domain} {p p' : Problem} {π π' : Plan} (h1 : OneNamed d) (hd : d.pyEq d' = true)
    (hp : p.pyEq p' = true) (hπ : π.pyEq π' = true) : π.check d p = π'.check d' p' := by
  obtain ⟨hact, hconst⟩ := eq_actions hd
  have hobj : setEqBy Term.pyEq p.objects p'.objects = true := by
    simp only [Problem.pyEq, Bool.and_eq_true, decide_eq_true_eq] at hp
    obtain ⟨⟨⟨⟨⟨⟨⟨_, _⟩, _⟩, _⟩, h5⟩, _⟩, _⟩, _⟩ := hp
    exact h5
  have hmem : ∀ t : Term, (∃ o ∈ p.objects ++ d.constants, t.pyEq o = true) ↔
      ∃ o ∈ p'.objects ++ d'.constants, t.pyEq o = true := by
    intro t
    have e1 := terms_mem_congr hobj (t := t)
    have e2 := terms_mem_congr hconst (t := t)
    simp only [List.mem_append, or_and_right, exists_or]
    rw [e1, e2]
  have hterms : ∀ (L as bs : List Term), as.map Term.norm = bs.map Term.norm →
      ((∀ t ∈ as, ∃ o ∈ L, t.pyEq o = true) ↔ ∀ t ∈ bs, ∃ o ∈ L, t.pyEq o = true) := by
    intro L as bs h
    have e : ∀ l : List Term, (∀ t ∈ l, ∃ o ∈ L, t.pyEq o = true) ↔ ∀ x ∈ l.map Term.norm, ∃ o ∈ L, x = o.norm := by
      intro l
      simp [Term.pyEq_iff]
    rw [e, e, h]
  have hstep : ∀ s t : Str × List Term, s.1 = t.1 → s.2.map Term.norm = t.2.map Term.norm →
      (Spec.StepOk d p s ↔ Spec.StepOk d' p' t) := by
    intro s t e1 e2
    have hl := lastNamed_congr2 hact h1 s.1
    have hlen : s.2.length = t.2.length := by simpa using congrArg List.length e2
    unfold Spec.StepOk
    rw [hterms _ _ _ e2, hlen]
    simp only [hmem]
    rw [← e1]
    cases ha : lastNamed s.1 d.actions <;> cases hb : lastNamed s.1 d'.actions <;> rw [ha, hb] at hl <;> simp at hl
    simp only [Option.some.injEq, exists_eq_left']
    simp only [Action.norm, Prod.mk.injEq] at hl
    have := congrArg List.length hl.2.1
    simp only [List.length_map] at this
    rw [this]
  have hall : (∀ s ∈ π.steps, Spec.StepOk d p s) ↔ ∀ s ∈ π'.steps, Spec.StepOk d' p' s := by
    have hs := eq_steps hπ
    generalize π.steps = l at hs
    generalize π'.steps = l' at hs
    induction hs with
    | nil => simp
    | cons h _ ih => simp only [List.forall_mem_cons]; exact and_congr (hstep _ _ h.1 h.2) ih
  have hiff : π.check d p = .ok () ↔ π'.check d' p' = .ok () := by rw [planCheck_ok, planCheck_ok, hall]
  cases ha : π.check d p with
  | ok => rw [ha] at hiff; exact (hiff.1 rfl).symm
  | error e =>
    cases hb : π'.check d' p' with
    | ok => rw [ha, hb] at hiff; simp at hiff
    | error e' => rw [planCheck_error ha, planCheck_error hb]

/-- Equal plans for equal domains have equal ground actions when both calls return. -/
theorem C87_inst {d d' : Domain} {π π' : Plan} {gs gs' : List Action} (h1 : OneNamed d) (hd : d.pyEq d' = true)
    (hπ : π.pyEq π' = true) (hg : π.inst d = .ok gs) (hg' : π'.inst d' = .ok gs') :
    List.Forall₂ (fun g g' => g.pyEq g' = true) gs gs' := by
  obtain ⟨hact, _⟩ := eq_actions hd
  have hs := eq_steps hπ
  have e := instSteps_ok.1 hg
  have e' := instSteps_ok.1 hg'
  clear hg hg'
  generalize π.steps = l at hs e
  generalize π'.steps = l' at hs e'
  induction hs generalizing gs gs' with
  | nil => cases e; cases e'; exact .nil
  | @cons s t _ _ h _ ih =>
    cases e with
    | cons ha e =>
      cases e' with
      | cons ha' e' =>
        obtain ⟨a, ha, hi⟩ := ha
        obtain ⟨a', ha', hi'⟩ := ha'
        have hl := lastNamed_congr2 hact h1 s.1
        rw [ha, h.1, ha'] at hl
        simp only [Option.map_some, Option.some.injEq] at hl
        exact .cons (Action.pyEq_iff.2 (actionInst_congr2 hl h.2 hi hi')) (ih e e')

/-- Equal ground actions solve equal problems together. -/
theorem C87_solves {D : Type} {p p' : Problem} {gs gs' : List Action} (hp : p.pyEq p' = true)
    (hg : List.Forall₂ (fun g g' => g.pyEq g' = true) gs gs') (I : Interp D) (ρ : Str → D) :
    Solves ρ p gs I ↔ Solves ρ p' gs' I := by
  have hn : ∀ {gs gs' : List Action}, List.Forall₂ (fun g g' => g.pyEq g' = true) gs gs' →
      List.Forall₂ (fun g g' => g.norm = g'.norm) gs gs' := fun h => h.imp fun _ _ h => Action.pyEq_iff.1 h
  have hone : ∀ {p p' : Problem} {gs gs' : List Action}, p.pyEq p' = true →
      List.Forall₂ (fun g g' => g.pyEq g' = true) gs gs' → Solves ρ p gs I → Solves ρ p' gs' I := by
    intro p p' gs gs' hp hg hs
    simp only [Problem.pyEq, Bool.and_eq_true, decide_eq_true_eq] at hp
    obtain ⟨⟨⟨⟨⟨⟨⟨_, _⟩, _⟩, _⟩, _⟩, h6⟩, h7⟩, _⟩ := hp
    obtain ⟨s1, J, s2, s3⟩ := hs
    exact ⟨startsIn_congr h6 s1, J, runs_congr (hn hg) s2, (holds_congr J h7 ρ).1 s3⟩
  refine ⟨hone hp hg, hone (Problem.pyEq_symm hp) ?_⟩
  clear hone hn
  induction hg with
  | nil => exact .nil
  | cons h _ ih => exact .cons (eqv_action.symm h) ih

/-- Equal problems minimise or maximise the same value. -/
theorem C87_metric {D : Type} {p p' : Problem} (hp : p.pyEq p' = true) (I : Interp D) (ρ : Str → D) :
    p.metric.map (fun m => (m.max, value I ρ m.expr)) = p'.metric.map (fun m => (m.max, value I ρ m.expr)) := by
  simp only [Problem.pyEq, Bool.and_eq_true, decide_eq_true_eq] at hp
  have h := hp.2
  cases hm : p.metric <;> cases hm' : p'.metric <;> rw [hm, hm'] at h <;> simp [metricEq] at h
  simp only [Metric.pyEq, Bool.and_eq_true, decide_eq_true_eq] at h
  simp only [Option.map_some, Option.some.injEq, Prod.mk.injEq]
  exact ⟨h.2, value_congr I ((Expr.pyEq_iff _ _).1 h.1)⟩

/-- When only equal actions share a name: `check` has the same outcome, and when both calls of `instantiate` return the
ground actions are equal and solve the same problems. Missing: homonymous actions, and constants that are equal but
have different types, for which `instantiate` may raise on one side only. -/
theorem C87_partial (d d' : Domain) (p p' : Problem) (π π' : Plan) (h1 : OneNamed d) (hd : d.pyEq d' = true)
    (hp : p.pyEq p' = true) (hπ : π.pyEq π' = true) :
    π.check d p = π'.check d' p' ∧ ∀ gs gs', π.inst d = .ok gs → π'.inst d' = .ok gs' →
      List.Forall₂ (fun g g' => g.pyEq g' = true) gs gs' ∧
      ∀ (D : Type) (I : Interp D) ρ, Solves ρ p gs I ↔ Solves ρ p' gs' I :=
  ⟨C87_check h1 hd hp hπ, fun _ _ hg hg' => ⟨C87_inst h1 hd hπ hg hg',
    fun _ I ρ => C87_solves hp (C87_inst h1 hd hπ hg hg') I ρ⟩⟩

/-- The full statement holds when moreover every name has one set of types in the actions and the plans, and the
actions have no conditional or universal effects. -/
theorem C87_partial_typed (d d' : Domain) (p p' : Problem) (π π' : Plan) (τ : Str → List Str) (h1 : OneNamed d)
    (hd : d.pyEq d' = true) (hp : p.pyEq p' = true) (hπ : π.pyEq π' = true) (hc : π.check d p = .ok ())
    (ha : ∀ x ∈ [d, d'], ∀ a ∈ x.actions, BuiltAction a ∧ NoEffectOpt a.pre ∧ NoEffectOpt a.eff ∧
      ∀ x ∈ atomsOpt a.pre ++ atomsOpt a.eff, ∀ t ∈ x.2, Conforms τ t)
    (ht : ∀ x ∈ [π, π'], ∀ s ∈ x.steps, ∀ t ∈ s.2, Conforms τ t) :
    π'.check d' p' = .ok () ∧ ∃ gs gs', π.inst d = .ok gs ∧ π'.inst d' = .ok gs' ∧
      List.Forall₂ (fun g g' => g.pyEq g' = true) gs gs' := by
  have hc' : π'.check d' p' = .ok () := by rw [← C87_check h1 hd hp hπ, hc]
  obtain ⟨gs, hg, _⟩ := C28_partial d p π τ (fun a h => (ha d (by simp) a h).1) hc
    (fun a h => ⟨(ha d (by simp) a h).2.1, (ha d (by simp) a h).2.2.1⟩)
    (fun a h => (ha d (by simp) a h).2.2.2) (ht π (by simp))
  obtain ⟨gs', hg', _⟩ := C28_partial d' p' π' τ (fun a h => (ha d' (by simp) a h).1) hc'
    (fun a h => ⟨(ha d' (by simp) a h).2.1, (ha d' (by simp) a h).2.2.1⟩)
    (fun a h => (ha d' (by simp) a h).2.2.2) (ht π' (by simp))
  exact ⟨hc', gs, gs', hg, hg', C87_inst h1 hd hπ hg hg'⟩

/-- The same two actions in the two orders that a set may have. -/
def swappedArgs (b : Bool) : DomainArgs :=
  let go : Action := ⟨s%"go", [.var ⟨s%"x", []⟩], some (.bin .and []), some (.pred ⟨s%"p", [.var ⟨s%"x", []⟩]⟩)⟩
  let stop : Action := ⟨s%"stop", [], some (.pred ⟨s%"p", [.const s%"c" none]⟩), some (.bin .and [])⟩
  { name := s%"d", constants := [.const s%"c" none], predicates := [⟨s%"p", [.var ⟨s%"x", []⟩]⟩]
    actions := if b then [go, stop] else [stop, go] }

def swappedPlan : Plan := ⟨[(s%"go", [.const s%"c" none]), (s%"stop", [])]⟩

/-- The hypotheses are met by domains whose sets have different orders, and both calls return. -/
example : (∀ b, mkDomain (swappedArgs b) = .ok (domainOf (swappedArgs b))) ∧ OneNamed (domainOf (swappedArgs true)) ∧ domainOf (swappedArgs true) ≠ domainOf (swappedArgs false) ∧
    (domainOf (swappedArgs true)).pyEq (domainOf (swappedArgs false)) = true ∧
    swappedPlan.check (domainOf (swappedArgs true)) demoProblem = .ok () ∧
    (∃ gs, swappedPlan.inst (domainOf (swappedArgs true)) = .ok gs ∧ gs.length = 2) ∧
    ∃ gs, swappedPlan.inst (domainOf (swappedArgs false)) = .ok gs ∧ gs.length = 2 := by
  refine ⟨fun b => by cases b <;> rfl, by unfold OneNamed; decide +kernel, fun h => ?_, by decide +kernel, by decide +kernel, ⟨_, rfl, rfl⟩, ⟨_, rfl, rfl⟩⟩
  have := congrArg Domain.actions h
  revert this
  decide +kernel

end Pddl.Props
