/-
C103: plans of actions with choices may do what is written.
-/
import Verif.Proofs.MayRun

namespace Pddl.Props
open Spec Spec.Grammar

/-- C103. A domain, a problem and a plan are read, and the plan is grounded. Whatever the objects and the first state,
the ground actions may lead to the goal exactly if the written steps may lead to the written goal, and they never end
elsewhere exactly if the written steps never end elsewhere. (The conditions are those of C81, but `oneof` is allowed.) -/
def C103_full : Prop :=
  ∀ (F : FloatOf) (σ : PState) (dtext : Str) (d : Domain) (σ' : PState) (τ : List (Str × Term)) (ptext : Str) (p : Pddl.Problem)
    (τ' : List (Str × Term)) (ltext : Str) (plan : Plan) (gs : List Action),
    ParserState F σ → OwnNames τ → parseDomain F σ dtext = .ok (d, σ') → parseProblem F τ ptext = .ok (p, τ') →
    parsePlan ltext = .ok plan → plan.inst d = .ok gs →
    ∃ ts t s us, Brackets (lex dtext) [.node ts] ∧ Brackets (lex ptext) [t] ∧ s.Of t ∧ Brackets (lex ltext) us ∧
      (UsualActions ts → OperandsStay F ts us → KeepsOperands (goalEnv F) s.goal →
        ∀ (D : Type) (I : Interp D) ρ lit, LitOk lit F → (MaySolve ρ p gs I ↔ TextMaySolve lit ts s us ρ I) ∧
          (NeverFails ρ p gs I ↔ TextNeverFails lit ts s us ρ I))

/-- What holds: a plan that may reach the goal may reach the written goal; a plan that never fails as it is written never
fails as it is read; and both are equivalent if no choice is written twice in an `and` with the arguments of the steps
written in. -/
theorem C103_partial {F : FloatOf} {σ : PState} {dtext : Str} {d : Domain} {σ' : PState} {τ : List (Str × Term)} {ptext : Str}
    {p : Pddl.Problem} {τ' : List (Str × Term)} {ltext : Str} {plan : Plan} {gs : List Action}
    (hσ : ParserState F σ) (hτ : OwnNames τ) (hd : parseDomain F σ dtext = .ok (d, σ')) (hp : parseProblem F τ ptext = .ok (p, τ'))
    (hl : parsePlan ltext = .ok plan) (hg : plan.inst d = .ok gs) :
    ∃ ts t s us, Brackets (lex dtext) [.node ts] ∧ Brackets (lex ptext) [t] ∧ s.Of t ∧ Brackets (lex ltext) us ∧
      (UsualActions ts → OperandsStay F ts us → KeepsOperands (goalEnv F) s.goal →
        ∀ (D : Type) (I : Interp D) ρ lit, LitOk lit F → (MaySolve ρ p gs I → TextMaySolve lit ts s us ρ I) ∧
          (TextNeverFails lit ts s us ρ I → NeverFails ρ p gs I) ∧
          (ChoicesStay F ts us → (MaySolve ρ p gs I ↔ TextMaySolve lit ts s us ρ I) ∧
            (NeverFails ρ p gs I ↔ TextNeverFails lit ts s us ρ I))) := by
  obtain ⟨ts, hts, _⟩ := parseDomain_ok hd
  obtain ⟨t, s, ht, hs, hw⟩ := C58_partial hτ hp
  obtain ⟨us, hus, hsteps, hvalid⟩ := C59_steps.1 hl
  refine ⟨ts, t, s, us, readText_brackets.1 hts, ht, hs, hus, ?_⟩
  intro hpl hk hgoal D I ρ lit hlit
  have hrun := fun J => mayRun_text hσ hd hts hpl hk hsteps hvalid hg hlit ρ I J
  unfold MaySolve TextMaySolve NeverFails TextNeverFails
  rw [starts_iff hw.init hw.allInit hlit ρ I]
  simp only [fun J : Interp D => hw.goal hgoal D J lit ρ hlit]
  refine ⟨?_, ?_, fun hc => ⟨?_, ?_⟩⟩
  · rintro ⟨h1, J, h2, h3⟩; exact ⟨h1, J, (hrun J).1 h2, h3⟩
  · rintro ⟨h1, h2⟩; exact ⟨h1, fun J h => h2 J ((hrun J).1 h)⟩
  · have : ∀ J, MayRun ρ gs I J ↔ TextMayRun lit ts ρ us I J := fun J => ⟨(hrun J).1, (hrun J).2 hc⟩
    simp only [this]
  · have : ∀ J, MayRun ρ gs I J ↔ TextMayRun lit ts ρ us I J := fun J => ⟨(hrun J).1, (hrun J).2 hc⟩
    simp only [this]

/-- A plan that surely leads from the start to the goal as it is written does so as it is read, and conversely if no
choice is written twice in an `and` with the arguments of the steps written in. -/
theorem C103_surely_partial {F : FloatOf} {σ : PState} {dtext : Str} {d : Domain} {σ' : PState} {τ : List (Str × Term)} {ptext : Str}
    {p : Pddl.Problem} {τ' : List (Str × Term)} {ltext : Str} {plan : Plan} {gs : List Action}
    (hσ : ParserState F σ) (hτ : OwnNames τ) (hd : parseDomain F σ dtext = .ok (d, σ')) (hp : parseProblem F τ ptext = .ok (p, τ'))
    (hl : parsePlan ltext = .ok plan) (hg : plan.inst d = .ok gs) :
    ∃ ts t s us, Brackets (lex dtext) [.node ts] ∧ Brackets (lex ptext) [t] ∧ s.Of t ∧ Brackets (lex ltext) us ∧
      (UsualActions ts → OperandsStay F ts us → KeepsOperands (goalEnv F) s.goal →
        ∀ (D : Type) (I : Interp D) ρ lit, LitOk lit F → (TextSurelySolves lit ts s us ρ I → SurelySolves ρ p gs I) ∧
          (ChoicesStay F ts us → (SurelySolves ρ p gs I ↔ TextSurelySolves lit ts s us ρ I))) := by
  obtain ⟨ts, hts, _⟩ := parseDomain_ok hd
  obtain ⟨t, s, ht, hs, hw⟩ := C58_partial hτ hp
  obtain ⟨us, hus, hsteps, hvalid⟩ := C59_steps.1 hl
  refine ⟨ts, t, s, us, readText_brackets.1 hts, ht, hs, hus, ?_⟩
  intro hpl hk hgoal D I ρ lit hlit
  have hrun := surely_text hσ hd hts hpl hk hsteps hvalid hg hlit ρ (fun J => hw.goal hgoal D J lit ρ hlit) I
  unfold SurelySolves TextSurelySolves
  rw [starts_iff hw.init hw.allInit hlit ρ I]
  exact ⟨fun h => ⟨h.1, hrun.1 h.2⟩, fun hc => ⟨fun h => ⟨h.1, hrun.2 hc h.2⟩, fun h => ⟨h.1, hrun.1 h.2⟩⟩⟩

/-- A ground action without choices does what C81 says. -/
theorem C103_deterministic {D : Type} (ρ : Str → D) (g : Action) (h : ∀ e, g.eff = some e → choiceFree e) (I J : Interp D) :
    MayAct ρ g I J ↔ Acts ρ g I J := by
  unfold MayAct Acts
  refine and_congr_right (fun _ => ?_)
  cases he : g.eff with
  | none =>
    constructor
    · rintro ⟨C, _, h2, h3⟩
      exact h3.congr (fun c => by simp [h2 rfl c])
    · intro h3
      exact ⟨_, by simp, by simp, h3⟩
  | some e =>
    constructor
    · rintro ⟨C, h1, _, h3⟩
      have := (outcome_free I (h e he)).1 (h1 e rfl)
      exact h3.congr (fun c => by simp [this c])
    · intro h3
      refine ⟨_, fun x hx => ?_, by simp, h3⟩
      injection hx with hx
      subst hx
      rw [outcome_free I (h e he)]
      simp

/-! ### The full statement is false -/

def bothDomain : Str := s%"(define (domain d) (:requirements :strips :non-deterministic) (:predicates (p) (q) (r))
  (:action a :parameters () :precondition (r) :effect (and (oneof (p) (q)) (oneof (p) (q)))))"
def bothProblem : Str := s%"(define (problem x) (:domain d) (:init (r)) (:goal (and (p) (q))))"
def bothPlan : Str := s%"(a)"

def bothTrees : List Tree := [word s%"define", .node [word s%"domain", word s%"d"],
  section_ s%"requirements" [.atom (.kw s%"strips"), .atom (.kw s%"non-deterministic")],
  section_ s%"predicates" [.node [word s%"p"], .node [word s%"q"], .node [word s%"r"]],
  actionText s%"a" [] (.node [word s%"r"]) coinsEff]

theorem bothTrees_action {n ps pre eff} (h : actionText n ps pre eff ∈ bothTrees) : n = s%"a" ∧ ps = [] ∧
    pre = .node [word s%"r"] ∧ eff = coinsEff := by
  simpa [bothTrees, actionText, section_, word, varTrees] using h

theorem bothUsual : UsualActions bothTrees := by
  refine ⟨?_, ?_, ?_, ?_⟩
  · intro n ps pre eff ps' pre' eff' h h'
    obtain ⟨_, rfl, rfl, rfl⟩ := bothTrees_action h
    obtain ⟨_, rfl, rfl, rfl⟩ := bothTrees_action h'
    exact ⟨rfl, rfl, rfl⟩
  · intro n ps pre eff l h hv
    obtain ⟨_, rfl, rfl, rfl⟩ := bothTrees_action h
    rw [hv.names]
    decide +kernel
  · intro n ps pre eff h
    obtain ⟨_, rfl, rfl, rfl⟩ := bothTrees_action h
    simp
  · intro n ps pre eff l h hv w vs c l' hw hi
    obtain ⟨_, rfl, rfl, rfl⟩ := bothTrees_action h
    have := Tree.mem_parts.2 hi
    simp [Tree.parts, Tree.partss, word] at this

theorem bothParsed : ∃ d σ' p τ' plan gs g, parseDomain (fun _ => none) .fresh bothDomain = .ok (d, σ') ∧
    parseProblem (fun _ => none) [] bothProblem = .ok (p, τ') ∧ parsePlan bothPlan = .ok plan ∧ plan.inst d = .ok gs ∧
    gs = [⟨s%"a", [], some g, some (.bin .oneof [.pred ⟨s%"p", []⟩, .pred ⟨s%"q", []⟩])⟩] ∧
    p.goal = .bin .and [.pred ⟨s%"p", []⟩, .pred ⟨s%"q", []⟩] := by
  have h0 : (match parseDomain (fun _ => none) .fresh bothDomain, parseProblem (fun _ => none) [] bothProblem, parsePlan bothPlan with
    | .ok (d, _), .ok (p, _), .ok plan => match plan.inst d with
      | .ok gs => decide (gs = [⟨s%"a", [], some (.pred ⟨s%"r", []⟩), some (.bin .oneof [.pred ⟨s%"p", []⟩, .pred ⟨s%"q", []⟩])⟩] ∧
          p.goal = .bin .and [.pred ⟨s%"p", []⟩, .pred ⟨s%"q", []⟩])
      | _ => false
    | _, _, _ => false) = true := by decide +kernel
  cases h1 : parseDomain (fun _ => none) .fresh bothDomain with
  | error e => rw [h1] at h0; cases h0
  | ok r =>
    cases h2 : parseProblem (fun _ => none) [] bothProblem with
    | error e => rw [h1, h2] at h0; cases h0
    | ok r2 =>
      cases h3 : parsePlan bothPlan with
      | error e => rw [h1, h2, h3] at h0; cases h0
      | ok plan =>
        rw [h1, h2, h3] at h0
        simp only at h0
        cases h4 : plan.inst r.1 with
        | error e => rw [h4] at h0; cases h0
        | ok gs =>
          rw [h4] at h0
          have := of_decide_eq_true h0
          exact ⟨r.1, r.2, r2.1, r2.2, plan, gs, _, rfl, rfl, rfl, h4, this.1, this.2⟩

/-- C103 is false: with two coins the goal may be reached, but the two coins are read as one. -/
theorem C103_fails : ¬ C103_full := by
  intro H
  obtain ⟨d, σ', p, τ', plan, gs, g, h1, h2, h3, h4, rfl, hgoal⟩ := bothParsed
  obtain ⟨ts, t, s, us, b1, b2, hs, b3, h⟩ := H _ _ _ _ _ _ _ _ _ _ _ _ .fresh C58_parser.1 h1 h2 h3 h4
  let I : Interp Unit := ⟨fun _ => (), fun _ _ => True, fun n ds => n = s%"r" ∧ ds = [], fun _ _ => none⟩
  let J : Interp Unit := ⟨fun _ => (), fun _ _ => True,
    fun n ds => (n = s%"p" ∧ ds = [] ∨ n = s%"q" ∧ ds = []) ∨ n = s%"r" ∧ ds = [], fun _ _ => none⟩
  let lit : Str → Option Rat := fun s => (numLiteral (fun _ => none) s).toOption.bind numVal
  have hlit : LitOk lit (fun _ => none) := by
    intro s n h
    simp [lit, h, Except.toOption]
  have e1 := readText_brackets.2 b1
  have e2 := readText_brackets.2 b2
  have e3 := readText_brackets.2 b3
  have k1 : readText bothDomain = .ok [.node bothTrees] := by decide +kernel
  have k2 : readText bothProblem = .ok [.node [word s%"define", .node [word s%"problem", word s%"x"], section_ s%"domain" [word s%"d"],
      section_ s%"init" [applied s%"r" []], section_ s%"goal" [.node [word s%"and", applied s%"p" [], applied s%"q" []]]]] := by
    decide +kernel
  have k3 : readText bothPlan = .ok [applied s%"a" []] := by decide +kernel
  rw [k1] at e1
  rw [k2] at e2
  rw [k3] at e3
  simp only [Except.ok.injEq, List.cons.injEq, Tree.node.injEq, and_true] at e1 e2 e3
  subst e3 e1
  obtain ⟨hd, _, e4⟩ := hs
  have e5 : s.init = [applied s%"r" []] ∧ s.goal = .node [word s%"and", applied s%"p" [], applied s%"q" []] := by
    rw [e4] at e2
    obtain ⟨n, dn, rq, os, is, g, ms⟩ := s
    cases rq <;> cases os <;> cases ms <;> simp [optText, section_, word, applied] at e2
    exact ⟨by rw [← e2.2.2.1]; simp [applied], by rw [← e2.2.2.2]; simp [applied, word]⟩
  have hk : OperandsStay (fun _ => none) bothTrees [applied s%"a" []] := by
    intro n ns ps pre eff l hu hin hv
    obtain ⟨rfl, rfl, rfl, rfl⟩ := bothTrees_action hin
    rw [hv.names]
    obtain ⟨_, e⟩ := applied_inj (List.mem_singleton.1 hu)
    subst e
    exact ⟨keeps_of_check (by decide +kernel), keeps_of_check (by decide +kernel)⟩
  have hkg : KeepsOperands (goalEnv (fun _ => none)) s.goal := by
    rw [e5.2]; exact keeps_of_check (by decide +kernel)
  have hsol : TextMaySolve lit bothTrees s [applied s%"a" []] (fun _ => ()) I := by
    refine ⟨⟨?_, ?_, ?_, ?_⟩, J, .cons (J := J) ?_ .nil, ?_⟩
    · intro n ds; rw [e5.1]
      constructor
      · rintro ⟨rfl, rfl⟩; exact ⟨[], by simp, rfl⟩
      · rintro ⟨ns, h, rfl⟩
        simp only [List.mem_singleton, applied, Tree.node.injEq, List.cons.injEq, Tree.atom.injEq, Tok.name.injEq, List.map_nil,
          List.map_eq_nil_iff] at h
        obtain ⟨rfl, rfl⟩ := h
        exact ⟨rfl, rfl⟩
    · intro n ns h; rw [e5.1] at h; simp [applied, word] at h
    · intro t f ns s' h; rw [e5.1] at h; simp [applied] at h
    · intro n ds h; simp [I] at h
    · refine ⟨s%"a", [], [], .node [word s%"r"], coinsEff, ⟨[], []⟩, fun _ => (), rfl, by simp [bothTrees], .rest [], rfl,
        fun _ _ => rfl, fun _ _ => rfl, .inr ?_, fun c => c = .add s%"p" [] ∨ c = .add s%"q" [], ?_, ⟨rfl, rfl, ?_, fun _ _ _ => rfl, ?_⟩⟩
      · simp [word, treeHolds, treeTerms, I]
      · exact coins_outcome I lit _
      · intro n ds
        simp [I, J]
      · intro f ds op v hc
        simp at hc
    · rw [e5.2]
      simp [applied, word, treeHolds, treeHoldsAll, treeTerms, J]
  obtain ⟨_, K, hr, hK⟩ := (h bothUsual hk hkg Unit I (fun _ => ()) lit hlit).1.2 hsol
  rw [hgoal] at hK
  cases hr with
  | cons ha hn =>
    cases hn
    obtain ⟨_, C, h5, _, h6⟩ := ha
    have h5 := h5 _ rfl
    have e6 := (h6.pred s%"p" []).1 (by simpa [holds, holdsAll] using (by simp only [holds, holdsAll] at hK; exact hK.1))
    have e7 := (h6.pred s%"q" []).1 (by simpa [holds, holdsAll] using (by simp only [holds, holdsAll] at hK; exact hK.2.1))
    simp only [I] at e6 e7
    simp only [outcome, outcomeSome, makes, List.map_nil, or_false] at h5
    rcases h5 with h5 | h5 <;> simp [h5] at e6 e7

/-! ### Texts that meet the conditions -/

def luckDomain : Str := s%"(define (domain d) (:requirements :strips :non-deterministic) (:predicates (p ?x) (q ?x))
  (:action a :parameters (?x ?y) :precondition (p ?x) :effect (and (oneof (p ?x) (q ?x)) (oneof (q ?y) (p ?y)))))"
def luckProblem : Str := s%"(define (problem x) (:domain d) (:objects k) (:init (p k)) (:goal (and (p k) (q k))))"
def luckPlan : Str := s%"(a k k)"

example : (match parseDomain (fun _ => none) .fresh luckDomain, parseProblem (fun _ => none) [] luckProblem, parsePlan luckPlan with
    | .ok (d, _), .ok _, .ok plan => match plan.inst d with
      | .ok gs => decide (gs.length = 1)
      | _ => false
    | _, _, _ => false) = true := by decide +kernel

def luckTrees : List Tree := [word s%"define", .node [word s%"domain", word s%"d"],
  section_ s%"requirements" [.atom (.kw s%"strips"), .atom (.kw s%"non-deterministic")],
  section_ s%"predicates" [.node (word s%"p" :: varTrees s%"x"), .node (word s%"q" :: varTrees s%"x")],
  actionText s%"a" (varTrees s%"x" ++ varTrees s%"y") twoCoinsPre keptChoicesEff]

example : Brackets (lex luckDomain) [.node luckTrees] := readText_brackets.1 (by decide +kernel)
example : Brackets (lex luckPlan) [applied s%"a" [s%"k", s%"k"]] := readText_brackets.1 (by decide +kernel)

theorem luckTrees_action {n ps pre eff} (h : actionText n ps pre eff ∈ luckTrees) : n = s%"a" ∧ ps = varTrees s%"x" ++ varTrees s%"y" ∧
    pre = twoCoinsPre ∧ eff = keptChoicesEff := by
  simpa [luckTrees, actionText, section_, word, varTrees] using h

example : UsualActions luckTrees := by
  refine ⟨?_, ?_, ?_, ?_⟩
  · intro n ps pre eff ps' pre' eff' h h'
    obtain ⟨_, rfl, rfl, rfl⟩ := luckTrees_action h
    obtain ⟨_, rfl, rfl, rfl⟩ := luckTrees_action h'
    exact ⟨rfl, rfl, rfl⟩
  · intro n ps pre eff l h hv
    obtain ⟨_, rfl, rfl, rfl⟩ := luckTrees_action h
    rw [hv.names]
    decide +kernel
  · intro n ps pre eff h
    obtain ⟨_, rfl, rfl, rfl⟩ := luckTrees_action h
    simp [twoCoinsPre]
  · intro n ps pre eff l h hv w vs c l' hw hi
    obtain ⟨_, rfl, rfl, rfl⟩ := luckTrees_action h
    have := Tree.mem_parts.2 hi
    simp [twoCoinsPre, Tree.parts, Tree.partss] at this

/-- The choices stay different for equal arguments. -/
example : OperandsStay (fun _ => none) luckTrees [applied s%"a" [s%"k", s%"k"]] ∧
    ChoicesStay (fun _ => none) luckTrees [applied s%"a" [s%"k", s%"k"]] := by
  constructor
  · intro n ns ps pre eff l hu hin hv
    obtain ⟨rfl, rfl, rfl, rfl⟩ := luckTrees_action hin
    rw [hv.names]
    obtain ⟨_, e⟩ := applied_inj (List.mem_singleton.1 hu)
    subst e
    exact ⟨keeps_of_check (by decide +kernel), keeps_of_check (by decide +kernel)⟩
  · intro n ns ps pre eff l hu hin hv
    obtain ⟨rfl, rfl, rfl, rfl⟩ := luckTrees_action hin
    rw [hv.names]
    obtain ⟨_, e⟩ := applied_inj (List.mem_singleton.1 hu)
    subst e
    exact once_of_check (by decide +kernel)

end Pddl.Props
