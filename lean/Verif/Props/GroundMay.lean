/-
C117 with choices: the ground actions of a plan may do what the plan may do.
-/
import Verif.Proofs.GroundMay
import Verif.Props.GroundPlan

namespace Pddl.Props
open Spec Spec.Grammar

/-- C117 with choices. Ground actions that may solve the problem come from a plan that may, also if there are actions of the same
name; conversely if actions have different names and no two choices are made one by the arguments. -/
theorem C117_may_partial {d : Domain} {p : Pddl.Problem} {plan : Plan} {gs : List Action} (hb : BuiltDomain d)
    (hs : SafeChoices d plan) (hg : plan.inst d = .ok gs) {D : Type} (I : Interp D) (ρ : Str → D) :
    (MaySolve ρ p gs I → TaskMaySolve ρ d p plan I) ∧
    (OneActionEach d → ApartChoices d plan → (MaySolve ρ p gs I ↔ TaskMaySolve ρ d p plan I)) := by
  have hfull : ∀ a ∈ d.actions, a.eff ≠ none := by
    obtain ⟨a, ha, hmk⟩ := id hb
    have hc := checked_of_mk ha.types hmk
    exact fun x hx => (hc.actions x hx).2.1
  have key := fun J => inst_mayRun (J := J) (I := I) (ρ := ρ) hb.actions hfull hs (instSteps_ok.1 hg)
  have hto : MaySolve ρ p gs I → TaskMaySolve ρ d p plan I := by
    rintro ⟨h1, J, h2, h3⟩
    exact ⟨h1, J, (key J).1 h2, h3⟩
  refine ⟨hto, fun ho hap => ⟨hto, ?_⟩⟩
  rintro ⟨h1, J, h2, h3⟩
  exact ⟨h1, J, (key J).2 ho hap h2, h3⟩

/-- With C116: the same for the printed plan, problem and domain; and what the ground actions cost is what the printed plan costs. -/
theorem C117_may_text_partial {F : FloatOf} {d : Domain} {p : Pddl.Problem} {plan : Plan} {gs : List Action} (hb : BuiltDomain d)
    (hd : SaidDomain F d) (hp : BuiltProblem p) (hq : SaidProblem F p) (hl : SaidPlan plan) (hg : plan.inst d = .ok gs) :
    ∃ dtext ts t s us, d.str = .ok dtext ∧ Brackets (lex dtext) [.node ts] ∧ Brackets (lex p.str) [t] ∧ s.Of t ∧
      Brackets (lex plan.str) us ∧
      (SafeChoices d plan → ∀ (D : Type) (I : Interp D) lit ρ, LitOk lit F → (MaySolve ρ p gs I → TextMaySolve lit ts s us ρ I) ∧
        (OneActionEach d → ApartChoices d plan → (MaySolve ρ p gs I ↔ TextMaySolve lit ts s us ρ I))) ∧
      (p.metric = none ↔ s.metric = none) ∧
      ∀ m, p.metric = some m → ∃ b u, s.metric = some b ∧ WrittenMetric m.max b u ∧
        (OneActionEach d → SafePlan d plan → ∀ (D : Type) (I : Interp D) lit ρ v, LitOk lit F →
          (SolvesFor lit ρ p m gs I v ↔ TextSolvesFor lit ts s u us ρ I v)) := by
  obtain ⟨dtext, ts, t, s, us, h1, h2, h3, h4, h5, h6, h7, h8⟩ := C116_partial hb hd hp hq hl
  refine ⟨dtext, ts, t, s, us, h1, h2, h3, h4, h5, fun hs D I lit ρ hlit => ?_, h7, fun m hm => ?_⟩
  · have key := C117_may_partial (p := p) hb hs hg I ρ
    have htext := (h6 D I lit ρ hlit).2
    exact ⟨fun h => htext.1 (key.1 h), fun ho hap => (key.2 ho hap).trans htext⟩
  · obtain ⟨b, u, k1, k2, k3⟩ := h8 m hm
    exact ⟨b, u, k1, k2, fun ho hs D I lit ρ v hlit => (C117_cost_partial hb ho hs hg I ρ lit v).trans (k3 D I lit ρ v hlit)⟩

/-! ### Choices that the arguments make one -/

/-- `(q)` -/
def plainQ : Expr := .pred ⟨s%"q", []⟩

/-- `(oneof (p t) (q))` -/
def eitherPQ (t : Term) : Expr := .bin .oneof [tokenOf t, plainQ]

/-- The effect `(and (oneof (p ?x) (q)) (oneof (p ?y) (q)))`. -/
def drawEff : Expr := .bin .and [eitherPQ (.var ⟨s%"x", []⟩), eitherPQ (.var ⟨s%"y", []⟩)]

def drawAction : Action := ⟨s%"draw", [.var ⟨s%"x", []⟩, .var ⟨s%"y", []⟩], some noCondition, some drawEff⟩

/-- The step `(draw a a)`. -/
def drawPlan : Plan := ⟨[(s%"draw", [.const s%"a" none, .const s%"a" none])]⟩

def drawDomain : DomainArgs where
  name := s%"d"
  reqs := [.nonDeterministic]
  predicates := [⟨s%"p", [.var ⟨s%"x", []⟩]⟩, ⟨s%"q", []⟩]
  actions := [drawAction]

/-- The problem to reach `(p a)` and `(q)`. -/
def drawProblem : ProblemArgs where
  name := s%"p"
  domainName := some s%"d"
  goal := some (.bin .and [tokenOf (.const s%"a" none), plainQ])

/-- The plan `(draw a a)` may solve the problem, its ground actions may not: both choices have become one. -/
theorem C117_may_fails : ∃ (d : Domain) (p : Pddl.Problem) (gs : List Action), BuiltDomain d ∧ BuiltProblem p ∧ OneActionEach d ∧
    SafeChoices d drawPlan ∧ drawPlan.inst d = .ok gs ∧ ∃ I : Interp Unit, TaskMaySolve (fun _ => ()) d p drawPlan I ∧
      ¬ MaySolve (fun _ => ()) p gs I := by
  have hnone : Built noCondition := built_and (as := []) (by decide +kernel) (by simp)
  have hb : ∀ t ∈ [Term.var ⟨s%"x", []⟩, .var ⟨s%"y", []⟩, .const s%"a" none], Built (tokenOf t) := by
    intro t ht
    refine .pred (n := s%"p") (ts := [t]) ?_
    revert t
    decide +kernel
  have hq : Built plainQ := .pred (n := s%"q") (ts := []) (by decide +kernel)
  have hpq : ∀ t ∈ [Term.var ⟨s%"x", []⟩, .var ⟨s%"y", []⟩], Built (eitherPQ t) := by
    intro t ht
    have e : construct (.bop .oneof) [tokenOf t, plainQ] = eitherPQ t := by
      revert t
      decide +kernel
    rw [← e]
    refine .op (.bop .oneof) ?_
    simp only [List.forall_mem_cons, List.not_mem_nil, false_imp_iff, implies_true, and_true]
    exact ⟨hb _ (by simp only [List.mem_cons, List.not_mem_nil, or_false] at ht ⊢; tauto), hq⟩
  have hsafe : ∀ n ∈ [s%"x", s%"y"], ∀ t ∈ [Term.var ⟨n, []⟩],
      SafeTerm (drawAction.params.zip [.const s%"a" none, .const s%"a" none]) [] t := by
    intro n hn t ht
    rw [List.mem_singleton.1 ht]
    refine ⟨by simp, fun _ _ => ?_⟩
    clear ht t
    simp only [List.mem_cons, List.not_mem_nil, or_false] at hn
    rcases hn with rfl | rfl <;> decide +kernel
  have hch : ∀ t, Chosen (eitherPQ t) := by
    intro t
    refine .oneof ?_
    simp only [List.forall_mem_cons, List.not_mem_nil, false_imp_iff, implies_true, and_true]
    exact ⟨.leaf (.pred _) (by simp [tokenOf]), .leaf (.pred _) (by simp [plainQ])⟩
  have hstep : SafeChoice drawAction [.const s%"a" none, .const s%"a" none] := by
    refine ⟨⟨[⟨s%"x", []⟩, ⟨s%"y", []⟩], rfl, by decide +kernel⟩, by simp, ?_, ?_⟩
    · rintro _ ⟨rfl⟩
      exact ⟨trivial, trivial, trivial⟩
    · rintro _ ⟨rfl⟩
      refine ⟨⟨⟨⟨trivial, trivial, trivial⟩, ⟨trivial, trivial, trivial⟩, trivial⟩,
        ⟨⟨hsafe _ (by simp), by simp [plainQ, Safe], trivial⟩, ⟨hsafe _ (by simp), by simp [plainQ, Safe], trivial⟩, trivial⟩,
        ⟨⟨trivial, trivial, trivial⟩, ⟨trivial, trivial, trivial⟩, trivial⟩⟩, .and ?_ ?_⟩
      · simp only [List.forall_mem_cons, List.not_mem_nil, false_imp_iff, implies_true, and_true]
        exact ⟨hch _, hch _⟩
      · simp [eitherPQ]
  have hba : BuiltDomainArgs drawDomain := by
    refine ⟨by simp [IsDict, drawDomain], ?_, by unfold IsFunDict; decide +kernel, by simp [drawDomain], ?_, by simp [drawDomain], by decide +kernel⟩
    · simp only [drawDomain, List.forall_mem_cons, List.not_mem_nil, false_imp_iff, implies_true, and_true]
      exact ⟨⟨s%"p", [.var ⟨s%"x", []⟩], by decide +kernel⟩, ⟨s%"q", [], by decide +kernel⟩⟩
    · intro x hx
      rw [List.mem_singleton.1 hx]
      refine ⟨hnone, built_and (by decide +kernel) ?_, ⟨s%"draw", by decide +kernel⟩⟩
      simp only [List.forall_mem_cons, List.not_mem_nil, false_imp_iff, implies_true, and_true]
      exact ⟨hpq _ (by simp), hpq _ (by simp)⟩
  have hd : (match mkDomain drawDomain with | .ok _ => true | .error _ => false) = true := by decide +kernel
  have hp : (match mkProblem drawProblem with | .ok _ => true | .error _ => false) = true := by decide +kernel
  have hi : drawAction.inst [.const s%"a" none, .const s%"a" none] = .ok ⟨s%"draw", [.const s%"a" none, .const s%"a" none], some noCondition,
      some (eitherPQ (.const s%"a" none))⟩ := by decide +kernel
  cases h : mkDomain drawDomain with
  | error e => rw [h] at hd; simp at hd
  | ok d =>
  cases h' : mkProblem drawProblem with
  | error e => rw [h'] at hp; simp at hp
  | ok p =>
    obtain ⟨_, _, _, _, _, _, _, _, hdd⟩ := (mkDomain_ok hba.types).1 h
    have e6 : d.actions = [drawAction] := by rw [hdd]; decide +kernel
    obtain ⟨_, _, _, k4, k5, _⟩ := mkProblem_fields h'
    have hinit : p.init = [] := by rw [k4]; rfl
    have hgoal : p.goal = .bin .and [tokenOf (.const s%"a" none), plainQ] := by rw [k5]; rfl
    have hb' : BuiltProblem p := by
      refine ⟨drawProblem, ⟨by simp [drawProblem], ?_, by simp [drawProblem]⟩, h'⟩
      rintro _ ⟨rfl⟩
      refine built_and (by decide +kernel) ?_
      simp only [List.forall_mem_cons, List.not_mem_nil, false_imp_iff, implies_true, and_true]
      exact ⟨hb _ (by simp), hq⟩
    refine ⟨d, p, [⟨s%"draw", [.const s%"a" none, .const s%"a" none], some noCondition, some (eitherPQ (.const s%"a" none))⟩],
      ⟨_, hba, h⟩, hb', ?_, ?_, ?_, ⟨fun _ => (), fun _ _ => True, fun _ _ => False, fun _ _ => none⟩, ?_, ?_⟩
    rotate_left 2
    · unfold Plan.inst
      rw [instSteps_ok]
      exact .cons ⟨drawAction, by rw [e6]; decide +kernel, hi⟩ .nil
    · refine ⟨by rw [hinit]; exact ⟨by simp, by simp, by simp, by simp⟩, ?_⟩
      refine ⟨⟨fun _ => (), fun _ _ => True, fun n ds => n = s%"p" ∧ ds = [()] ∨ n = s%"q" ∧ ds = [], fun _ _ => none⟩,
        .cons ⟨drawAction, by rw [e6]; simp, fun _ => (), rfl, rfl, ⟨fun _ _ => rfl, fun _ _ => rfl⟩, ?_, drawEff,
          fun c => c = .add s%"p" [()] ∨ c = .add s%"q" [], rfl, ?_, ?_⟩ .nil, ?_⟩
      · rintro _ ⟨rfl⟩
        exact trivial
      · refine ⟨fun c => c = .add s%"p" [()], fun c => c = .add s%"q" [], .inl fun c => Iff.rfl,
          ⟨fun c => c = .add s%"q" [], fun _ => False, .inr (.inl fun c => Iff.rfl), fun _ => id, fun c => by simp⟩, fun c => Iff.rfl⟩
      · refine ⟨rfl, rfl, ?_, fun _ _ _ => rfl, ?_⟩
        · intro n ds
          simp
        · rintro f ds op v (h | h) <;> simp at h
      · rw [hgoal]
        exact ⟨.inl ⟨rfl, rfl⟩, .inr ⟨rfl, rfl⟩, trivial⟩
    · rintro ⟨_, J, hr, hg⟩
      rw [hgoal] at hg
      obtain ⟨hgp, hgq, -⟩ := hg
      cases hr with
      | cons h1 h2 =>
        cases h2
        obtain ⟨-, C, hC, -, hn⟩ := h1
        have hgp : J.pred s%"p" [()] := hgp
        have hgq : J.pred s%"q" [] := hgq
        rw [hn.pred] at hgp hgq
        simp only [false_and, or_false] at hgp hgq
        rcases hC _ rfl with h | h | h
        · have := (h _).1 hgq
          simp [makes, tokenOf] at this
        · have := (h _).1 hgp
          simp [makes, plainQ] at this
        · exact h
    · intro a ha b hb _
      rw [e6] at ha hb
      rw [List.mem_singleton.1 ha, List.mem_singleton.1 hb]
    · intro st hst a ha _
      rw [e6] at ha
      rw [List.mem_singleton.1 hst, List.mem_singleton.1 ha]
      exact hstep

/-! ### A plan that meets the hypotheses -/

/-- The effect `(and (not (p ?x)) (oneof (p ?y) (and)))`. -/
def tossEff : Expr := .bin .and [.not (tokenOf (.var ⟨s%"x", []⟩)), .bin .oneof [tokenOf (.var ⟨s%"y", []⟩), .bin .and []]]

/-- An action with a choice. -/
def tossAction : Action := ⟨s%"toss", [.var ⟨s%"x", []⟩, .var ⟨s%"y", []⟩], some (tokenOf (.var ⟨s%"x", []⟩)), some tossEff⟩

/-- The step `(toss a b)`. -/
def tossArgs : List Term := [.const s%"a" none, .const s%"b" none]

/-- A domain with the action. -/
def tossDomain : DomainArgs where
  name := s%"d"
  reqs := [.nonDeterministic]
  predicates := [⟨s%"p", [.var ⟨s%"x", []⟩]⟩]
  actions := [tossAction]

example : ∃ d gs, BuiltDomain d ∧ OneActionEach d ∧ SafeChoices d ⟨[(s%"toss", tossArgs)]⟩ ∧ ApartChoices d ⟨[(s%"toss", tossArgs)]⟩ ∧
    (⟨[(s%"toss", tossArgs)]⟩ : Plan).inst d = .ok gs ∧ gs.length = 1 := by
  have hb : ∀ n ∈ [s%"x", s%"y"], Built (tokenOf (.var ⟨n, []⟩)) := by
    intro n hn
    refine .pred (n := s%"p") (ts := [.var ⟨n, []⟩]) ?_
    revert n
    decide +kernel
  have hsafe : ∀ n ∈ [s%"x", s%"y"], ∀ t ∈ [Term.var ⟨n, []⟩], SafeTerm (tossAction.params.zip tossArgs) [] t := by
    intro n hn t ht
    rw [List.mem_singleton.1 ht]
    refine ⟨by simp, fun _ _ => ?_⟩
    clear ht t
    simp only [List.mem_cons, List.not_mem_nil, or_false] at hn
    rcases hn with rfl | rfl <;> decide +kernel
  have hlast : Chosen (.bin .oneof [tokenOf (.var ⟨s%"y", []⟩), .bin .and []]) := by
    refine .oneof ?_
    simp only [List.forall_mem_cons, List.not_mem_nil, false_imp_iff, implies_true, and_true]
    exact ⟨.leaf (.pred _) (by simp [tokenOf]), .and (by simp) (by simp)⟩
  have hstep : SafeChoice tossAction tossArgs := by
    refine ⟨⟨[⟨s%"x", []⟩, ⟨s%"y", []⟩], rfl, by decide +kernel⟩, by simp [tossArgs], ?_, ?_⟩
    · rintro _ ⟨rfl⟩
      exact ⟨trivial, hsafe _ (by simp), trivial⟩
    · rintro _ ⟨rfl⟩
      refine ⟨⟨⟨trivial, ⟨trivial, trivial, trivial⟩, trivial⟩, ⟨hsafe _ (by simp), ⟨hsafe _ (by simp), trivial, trivial⟩, trivial⟩,
        ⟨trivial, ⟨trivial, trivial, trivial⟩, trivial⟩⟩, .and ?_ ?_⟩
      · simp only [List.forall_mem_cons, List.not_mem_nil, false_imp_iff, implies_true, and_true]
        exact ⟨.leaf (.not _) (by simp), hlast⟩
      · simp
  have hba : BuiltDomainArgs tossDomain := by
    refine ⟨by simp [IsDict, tossDomain], ?_, by unfold IsFunDict; decide +kernel, by simp [tossDomain], ?_, by simp [tossDomain], by decide +kernel⟩
    · intro p hp
      rw [List.mem_singleton.1 hp]
      exact ⟨s%"p", [.var ⟨s%"x", []⟩], by decide +kernel⟩
    · intro x hx
      rw [List.mem_singleton.1 hx]
      refine ⟨hb _ (by simp), built_and (by decide +kernel) ?_, ⟨s%"toss", by decide +kernel⟩⟩
      simp only [List.forall_mem_cons, List.not_mem_nil, false_imp_iff, implies_true, and_true]
      refine ⟨.not (hb _ (by simp)), ?_⟩
      have e : construct (.bop .oneof) [tokenOf (.var ⟨s%"y", []⟩), .bin .and []] = .bin .oneof [tokenOf (.var ⟨s%"y", []⟩), .bin .and []] := by
        decide +kernel
      rw [← e]
      refine .op (.bop .oneof) ?_
      simp only [List.forall_mem_cons, List.not_mem_nil, false_imp_iff, implies_true, and_true]
      exact ⟨hb _ (by simp), built_and (as := []) (by decide +kernel) (by simp)⟩
  have hd : (match mkDomain tossDomain with | .ok _ => true | .error _ => false) = true := by decide +kernel
  have hi : (match tossAction.inst tossArgs with | .ok _ => true | .error _ => false) = true := by decide +kernel
  cases hg : tossAction.inst tossArgs with
  | error e => rw [hg] at hi; simp at hi
  | ok g =>
  cases h : mkDomain tossDomain with
  | error e => rw [h] at hd; simp at hd
  | ok d =>
    obtain ⟨_, _, _, _, _, _, _, _, hdd⟩ := (mkDomain_ok hba.types).1 h
    have e6 : d.actions = [tossAction] := by rw [hdd]; decide +kernel
    refine ⟨d, [g], ⟨_, hba, h⟩, ?_, ?_, ?_, ?_, rfl⟩
    · intro a ha b hb _
      rw [e6] at ha hb
      rw [List.mem_singleton.1 ha, List.mem_singleton.1 hb]
    · intro st hst a ha _
      rw [e6] at ha
      rw [List.mem_singleton.1 hst, List.mem_singleton.1 ha]
      exact hstep
    · intro st hst a ha _ e he
      rw [e6] at ha
      rw [List.mem_singleton.1 ha] at he
      cases he
      refine .and ?_ ?_
      · simp only [List.forall_mem_cons, List.not_mem_nil, false_imp_iff, implies_true, and_true]
        refine ⟨.leaf (.not _) (by simp), .oneof ?_⟩
        simp only [List.forall_mem_cons, List.not_mem_nil, false_imp_iff, implies_true, and_true]
        exact ⟨.leaf (.pred _) (by simp [tokenOf]), .and (by simp) (fun bs hbs => by cases hbs; exact .nil)⟩
      · rintro _ (_ | ⟨h1, _ | ⟨_, _ | _⟩⟩)
        obtain ⟨b, _, rfl⟩ := inst_not_ok.1 h1
        simp [choiceFree]
    · unfold Plan.inst
      rw [instSteps_ok]
      exact .cons ⟨tossAction, by rw [e6]; decide +kernel, hg⟩ .nil

end Pddl.Props
