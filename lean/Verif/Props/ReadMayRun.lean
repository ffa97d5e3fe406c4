/-
C101, C102 and C103, exactly: effects with choices, and plans of them, as the texts are read.
-/
import Verif.Spec.ReadMayRun
import Verif.Proofs.AsReadOutcome
import Verif.Props.ReadExecute
import Verif.Props.ReadMetric
import Verif.Props.MayRun

namespace Pddl.Props
open Spec Spec.Grammar

/-- C101, also for texts that lose operands: whatever the parsed effect can do is a possible outcome of the written effect as it
is read; and if no choice is written twice in an `and` the outcomes are exactly those. -/
theorem C101_exact {F : FloatOf} {σ : PState} {text : Str} {d : Domain} {σ' : PState}
    (hσ : ParserState F σ) (h : parseDomain F σ text = .ok (d, σ')) {a : Action} (ha : a ∈ d.actions) :
    ∃ ts n ps pre eff e, readText text = .ok [.node ts] ∧ actionText n ps pre eff ∈ ts ∧ a.name = n ∧ a.eff = some e ∧
      ∀ (D : Type) (I : Interp D) lit ρ C, LitOk lit F → (outcome I e ρ C → treeOutcome I lit (readEff F eff) ρ C) ∧
        (ChoicesOnce F eff → (outcome I e ρ C ↔ treeOutcome I lit (readEff F eff) ρ C)) := by
  obtain ⟨ts, n, ps, pre, eff, E, p, e, hr, hin, hn, -, he, hE, hP, rfl, hv, -, heff, hw⟩ := action_parts hσ h ha
  refine ⟨ts, n, ps, pre, eff, e, hr, hin, hn, he, ?_⟩
  intro D I lit ρ C hlit
  unfold GEnv.effOpt at heff
  split at heff
  · simp only [pure_ok, Except.ok.injEq] at heff
    subst heff
    have : mkOr [] = .bin .or [] := by decide +kernel
    rw [this]
    simp [outcome, readEff, treeOutcome, makes, treeMakes]
  · have hw' : ∀ w, Inside (.atom (.name w)) eff → nameRegex w = true :=
      fun w hi => hw w (hi.trans (.node hin (.node (by simp) .refl)))
    have h1 : outcome I e ρ C → treeOutcome I lit (readEff E.float eff) ρ C :=
      (effect_iff.1 heff).outcome_read I lit hE hlit hw' (fun _ toks r hr => by rw [hv] at hr; exact hr)
    exact ⟨h1, fun ho => ⟨h1, (effect_iff.1 heff).read_outcome I lit hE hlit hw' ho
      (fun _ toks r hr => by rw [hv] at hr; exact hr)⟩⟩

/-- C102, also where operands are lost: whatever the effect of a ground action can do is a possible outcome of the written effect
as it is read with the names of the arguments in place of the parameters; and if no choice is then written twice in an
`and` the outcomes are exactly those. -/
theorem C102_exact {F : FloatOf} {σ : PState} {text : Str} {d : Domain} {σ' : PState} {a : Action} {args : List Term}
    {g : Action} (hσ : ParserState F σ) (h : parseDomain F σ text = .ok (d, σ')) (ha : a ∈ d.actions)
    (hargs : ∀ t ∈ args, ∃ n tag, t = .const n tag ∧ ValidName n) (hg : a.inst args = .ok g) :
    ∃ ts n ps pre eff ge, readText text = .ok [.node ts] ∧ actionText n ps pre eff ∈ ts ∧ a.name = n ∧ g.eff = some ge ∧
      ∀ (D : Type) (I : Interp D) lit ρ C, LitOk lit F →
        (outcome I ge ρ C → treeOutcome I lit (readEff F (writeIn (argumentOf a.params args) eff)) ρ C) ∧
        (ChoicesOnce F (writeIn (argumentOf a.params args) eff) →
          (outcome I ge ρ C ↔ treeOutcome I lit (readEff F (writeIn (argumentOf a.params args) eff)) ρ C)) := by
  obtain ⟨ts, n, ps, pre, eff, l, vs, hr, hin, hl, hn, hps, hnd, hsub, hall, -, hocc, E, p, e, hp, he, hE, hF, hv, hpre,
    heff, hw, hpar⟩ := action_reading_env hσ h ha
  unfold Action.inst at hg
  split at hg
  · cases hg
  next hlen =>
  have hlen : args.length = vs.length := by
    rw [hps, List.length_map] at hlen
    omega
  simp only [] at hg
  obtain ⟨gpre, h1, hg⟩ := bind_ok_iff.1 hg
  obtain ⟨geff, h2, hg⟩ := bind_ok_iff.1 hg
  rw [he] at h2
  obtain ⟨ge, g2, e2⟩ := bind_ok_iff.1 h2
  simp only [pure_ok, Except.ok.injEq] at e2
  subst e2
  unfold mkAction at hg
  obtain ⟨n', hn', hg⟩ := bind_ok_iff.1 hg
  simp only [pure_ok, Except.ok.injEq] at hg
  subst hg
  refine ⟨ts, n, ps, pre, eff, ge, hr, hin, hn, rfl, ?_⟩
  intro D I lit ρ C hlit
  have hargs' : ∀ t ∈ args, ∃ n tag, t = .const n tag := fun t ht => by
    obtain ⟨n, tag, h, _⟩ := hargs t ht
    exact ⟨n, tag, h⟩
  have S := swap_args hnd hlen hargs' hE hpar (ground_parser hE) rfl rfl rfl
  have hc := args_cover (args := args) hlen hpar
  have hvalid : ∀ x b, argumentOf a.params args x = some b → ValidName b := by
    intro x b hx
    obtain ⟨q, t, k1, _, k3⟩ := argumentOf_some hx
    obtain ⟨m, tag, rfl, hm⟩ := hargs t (List.of_mem_zip k1).2
    rw [← k3]
    exact hm
  have hlit' : LitOk lit E.ground.float := by
    rw [show E.ground.float = E.float from rfl, hF]
    exact hlit
  rw [← hps] at S hc
  have hw' : ∀ w, Inside (.atom (.name w)) eff → nameRegex w = true :=
    fun w hi => hw w (hi.trans (.node hin (.node (by simp) .refl)))
  unfold GEnv.effOpt at heff
  split at heff
  · simp only [pure_ok, Except.ok.injEq] at heff
    subst heff
    have e1 : mkOr [] = .bin .or [] := by decide +kernel
    rw [e1] at g2
    obtain ⟨bs, h3, rfl⟩ := inst_bin_ok.mp g2
    cases h3
    have e2 : construct (.bop .or) [] = .bin .or [] := by decide +kernel
    rw [e2, writeIn_empty]
    simp [outcome, readEff, treeOutcome, makes, treeMakes]
  · have hrel := effect_iff.1 heff
    have hne := inst_not_effy g2
    obtain ⟨e', he'⟩ := hrel.ground hc hne
    have hvars : E.ground.ext = [] → ∀ toks r, E.ground.typedVars toks = .ok r → typedListVariable toks = .ok r :=
      fun _ toks r hr => by rw [show E.ground.typedVars = E.typedVars from rfl, hv] at hr; exact hr
    have heq := inst_sub g2 ▸ hrel.swap S he'
    have hfl : E.ground.float = F := hF
    have h1 : outcome I ge ρ C → treeOutcome I lit (readEff F (writeIn (argumentOf a.params args) eff)) ρ C := fun h => by
      have := he'.outcome_read I lit (ground_parser hE) hlit' (names_writeIn hw' hvalid) hvars (outcome_congr I heq h)
      rwa [hfl] at this
    refine ⟨h1, fun ho => ⟨h1, fun h => ?_⟩⟩
    refine outcome_congr I heq.symm (he'.read_outcome I lit (ground_parser hE) hlit' (names_writeIn hw' hvalid) ?_ hvars ?_)
    · rw [hfl]; exact ho
    · rw [hfl]; exact h

theorem reads_mayAct {F : FloatOf} {σ : PState} {text : Str} {d : Domain} {σ' : PState} {a g : Action} {ts : List Tree} {n : Str} {ns : List Str}
    (hσ : ParserState F σ) (h : parseDomain F σ text = .ok (d, σ')) (hts : readText text = .ok [.node ts]) (hp : DistinctActions ts)
    {us : List Tree} (hu : applied n ns ∈ us) (hvalid : ∀ m ∈ ns, ValidName m)
    (ha : a ∈ d.actions) (hn : a.name = n) (hg : a.inst (ns.map (.const · none)) = .ok g)
    {D : Type} {lit : Str → Option Rat} (hlit : LitOk lit F) (ρ : Str → D) (I J : Interp D) :
    (MayAct ρ g I J → ReadMayAct F lit ts ρ (applied n ns) I J) ∧
      (ChoicesStay F ts us → ReadMayAct F lit ts ρ (applied n ns) I J → MayAct ρ g I J) ∧
      ((∀ e, g.pre = some e → holds I e ρ) ↔ ReadApplies F lit ts ρ (applied n ns) I) := by
  have hargs : ∀ t ∈ ns.map (Term.const · none), ∃ n tag, t = .const n tag ∧ ValidName n := by
    intro t ht
    obtain ⟨m, hm, rfl⟩ := List.mem_map.1 ht
    exact ⟨m, none, rfl, hvalid m hm⟩
  obtain ⟨ts', n', ps, pre, eff, l, hr, hin, hv, hnd, hsub, hmem, hlen, rfl, _, _, gp, _, hgp, _, hall⟩ := C74_exact hσ h ha hargs hg
  rw [hts] at hr
  injection hr with hr
  injection hr with hr
  injection hr with hr
  subst hr
  subst hn
  obtain ⟨ts2, n2, ps2, pre2, eff2, ge, hr2, hin2, rfl, hge, hout⟩ := C102_exact hσ h ha hargs hg
  rw [hts] at hr2
  injection hr2 with hr2
  injection hr2 with hr2
  injection hr2 with hr2
  subst hr2
  obtain ⟨rfl, rfl, rfl⟩ := hp.names _ _ _ _ _ _ _ hin hin2
  have hpar := sublist_members hsub (hp.params _ _ _ _ l hin hv) hmem
  have hb := hp.bound _ _ _ _ l hin hv
  rw [← hpar] at hb
  have hlen' : ns.length = l.vars.length := by
    have h1 := congrArg List.length hpar
    simp only [List.length_map] at h1 hlen
    omega
  have k1 := (hall D I lit ρ hlit).1 hb
  have k2 := fun C => hout D I lit ρ C hlit
  rw [argumentOf_consts, hpar] at k1 k2
  refine ⟨?_, ?_, ?_⟩
  · rintro ⟨h1, C, h2, _, h3⟩
    exact ⟨_, ns, ps, pre, eff, l, rfl, hin, hv, hlen', k1.1 (h1 gp hgp), C, (k2 C).1 (h2 ge hge), h3⟩
  · rintro hc ⟨n', ns', ps', pre', eff', l', e, hin', hv', _, h1, C, h2, h3⟩
    obtain ⟨e1, e2⟩ := applied_inj (n := a.name) (ns := ns) e
    subst e1 e2
    obtain ⟨rfl, rfl, rfl⟩ := hp.names _ _ _ _ _ _ _ hin hin'
    rw [hv'.names, ← hv.names] at h1 h2
    refine ⟨?_, C, ?_, ?_, h3⟩
    · intro x hx
      rw [hgp] at hx
      injection hx with hx
      subst hx
      exact k1.2 h1
    · intro x hx
      rw [hge] at hx
      injection hx with hx
      subst hx
      exact ((k2 C).2 (hc _ _ _ _ _ l hu hin hv)).2 h2
    · intro hx
      rw [hge] at hx
      cases hx
  · constructor
    · intro h1
      exact ⟨_, ns, ps, pre, eff, l, rfl, hin, hv, hlen', k1.1 (h1 gp hgp)⟩
    · rintro ⟨n', ns', ps', pre', eff', l', e, hin', hv', _, h1⟩
      obtain ⟨e1, e2⟩ := applied_inj (n := a.name) (ns := ns) e
      subst e1 e2
      obtain ⟨rfl, rfl, rfl⟩ := hp.names _ _ _ _ _ _ _ hin hin'
      rw [hv'.names, ← hv.names] at h1
      intro x hx
      rw [hgp] at hx
      injection hx with hx
      subst hx
      exact k1.2 h1

theorem reads_mayRun {F : FloatOf} {σ : PState} {text : Str} {d : Domain} {σ' : PState} {ts : List Tree} {plan : Plan} {us : List Tree}
    {gs : List Action} (hσ : ParserState F σ) (h : parseDomain F σ text = .ok (d, σ')) (hts : readText text = .ok [.node ts])
    (hp : DistinctActions ts) (hw : List.Forall₂ StepWritten us plan.steps)
    (hvalid : ∀ s ∈ plan.steps, ∀ c ∈ s.2, ValidName c.name) (hg : plan.inst d = .ok gs)
    {D : Type} {lit : Str → Option Rat} (hlit : LitOk lit F) (ρ : Str → D) {P Q : Interp D → Prop} (hPQ : ∀ J, P J ↔ Q J)
    (I : Interp D) :
    (∀ J, (MayRun ρ gs I J → ReadMayRun F lit ts ρ us I J) ∧
      (ChoicesStay F ts us → ReadMayRun F lit ts ρ us I J → MayRun ρ gs I J)) ∧
    (ReadSurely F lit ts ρ Q us I → Surely ρ P gs I) ∧
      (ChoicesStay F ts us → Surely ρ P gs I → ReadSurely F lit ts ρ Q us I) := by
  have h1 := instSteps_ok.mp hg
  clear hg
  revert h1 hw hvalid
  generalize plan.steps = l
  intro hw hvalid h1
  induction hw generalizing gs I with
  | nil =>
    cases h1
    exact ⟨fun J => ⟨fun h => by cases h; exact .nil, fun _ h => by cases h; exact .nil⟩, (hPQ I).2, fun _ => (hPQ I).1⟩
  | @cons u s us l hu _ ih =>
    cases h1 with
    | @cons _ g _ gs h1 h2 =>
      obtain ⟨a, ha, hi⟩ := h1
      obtain ⟨hm, hn⟩ := lastNamed_mem ha
      obtain ⟨ns, rfl, hs⟩ := hu
      rw [hs] at hi
      have key := fun J => reads_mayAct hσ h hts hp (us := applied s.1 ns :: us) (n := s.1) (ns := ns) List.mem_cons_self
        (fun m hm => hvalid s List.mem_cons_self (.const m none) (by
          rw [hs]; exact List.mem_map.2 ⟨m, hm, rfl⟩)) hm hn hi hlit ρ I J
      have ih := fun J => ih (gs := gs) J (fun s hs => hvalid s (List.mem_cons_of_mem _ hs)) h2
      have hst : ChoicesStay F ts (applied s.1 ns :: us) → ChoicesStay F ts us :=
        fun hc n ns ps pre eff l hu => hc n ns ps pre eff l (List.mem_cons_of_mem _ hu)
      refine ⟨fun K => ⟨?_, ?_⟩, ?_, ?_⟩
      · intro h
        cases h with
        | cons k1 k2 => exact .cons ((key _).1 k1) (((ih _).1 _).1 k2)
      · intro hc h
        cases h with
        | cons k1 k2 => exact .cons ((key _).2.1 hc k1) (((ih _).1 _).2 (hst hc) k2)
      · rintro ⟨k1, k2⟩
        exact ⟨(key I).2.2.2 k1, fun J hJ => (ih J).2.1 (k2 J ((key J).1 hJ))⟩
      · rintro hc ⟨k1, k2⟩
        exact ⟨(key I).2.2.1 k1, fun J hJ => (ih J).2.2 (hst hc) (k2 J ((key J).2.1 hc hJ))⟩

/-- C103, also for texts that lose operands and with `()` as a precondition: a plan that may reach the goal may reach the written
goal as it is read; a plan that, as its text is read, never fails or surely reaches the goal does so; and all three are
equivalent if no choice is written twice in an `and` with the arguments of the steps written in. -/
theorem C103_exact {F : FloatOf} {σ : PState} {dtext : Str} {d : Domain} {σ' : PState} {τ : List (Str × Term)} {ptext : Str}
    {p : Pddl.Problem} {τ' : List (Str × Term)} {ltext : Str} {plan : Plan} {gs : List Action}
    (hσ : ParserState F σ) (hτ : OwnNames τ) (hd : parseDomain F σ dtext = .ok (d, σ')) (hp : parseProblem F τ ptext = .ok (p, τ'))
    (hl : parsePlan ltext = .ok plan) (hg : plan.inst d = .ok gs) :
    ∃ ts t s us, Brackets (lex dtext) [.node ts] ∧ Brackets (lex ptext) [t] ∧ s.Of t ∧ Brackets (lex ltext) us ∧
      (DistinctActions ts → ∀ (D : Type) (I : Interp D) ρ lit, LitOk lit F →
        (MaySolve ρ p gs I → ReadMaySolve F lit ts s us ρ I) ∧
        (ReadNeverFails F lit ts s us ρ I → NeverFails ρ p gs I) ∧
        (ReadSurelySolves F lit ts s us ρ I → SurelySolves ρ p gs I) ∧
        (ChoicesStay F ts us → (MaySolve ρ p gs I ↔ ReadMaySolve F lit ts s us ρ I) ∧
          (NeverFails ρ p gs I ↔ ReadNeverFails F lit ts s us ρ I) ∧
          (SurelySolves ρ p gs I ↔ ReadSurelySolves F lit ts s us ρ I))) := by
  obtain ⟨ts, hts, _⟩ := parseDomain_ok hd
  obtain ⟨us, hus, hsteps, hvalid⟩ := C59_steps.1 hl
  obtain ⟨ps, hr, ⟨P⟩⟩ := parseProblem_ok hp
  have hwords : ∀ w, Inside (.atom (.name w)) (.node ps) → nameRegex w = true :=
    fun w hw => readText_words hr (t := .node ps) (by simp) hw
  have hw := P.written (fun n x hx => (hτ n x hx).2) hwords
  refine ⟨ts, .node ps, P.sections, us, readText_brackets.1 hts, readText_brackets.1 hr, P.sections_of, hus, ?_⟩
  intro hpl D I ρ lit hlit
  have hgoal : ∀ J : Interp D, holds J p.goal ρ ↔ treeHolds J lit (readCond F P.sections.goal) ρ := by
    intro J
    rw [(mkProblem_fields P.hproblem).2.2.2.2.1]
    exact (gd_iff.1 P.hgoal).exact J lit (goalEnv_ok F) hlit
      (fun w hi => hwords w (hi.trans (.node P.goal_mem (.node (by simp) .refl)))) ρ
  obtain ⟨hrun, hs1, hs2⟩ := reads_mayRun hσ hd hts hpl hsteps hvalid hg hlit ρ hgoal I
  unfold MaySolve ReadMaySolve NeverFails ReadNeverFails SurelySolves ReadSurelySolves
  rw [starts_iff hw.init hw.allInit hlit ρ I]
  have m1 : _ → _ := fun (h : TextStarts lit P.sections.init I ∧ ∃ J, MayRun ρ gs I J ∧ holds J p.goal ρ) =>
    (⟨h.1, h.2.imp fun J hJ => ⟨(hrun J).1 hJ.1, (hgoal J).1 hJ.2⟩⟩ :
      TextStarts lit P.sections.init I ∧ ∃ J, ReadMayRun F lit ts ρ us I J ∧ treeHolds J lit (readCond F P.sections.goal) ρ)
  refine ⟨m1, fun h => ⟨h.1, fun J hJ => (hgoal J).2 (h.2 J ((hrun J).1 hJ))⟩, fun h => ⟨h.1, hs1 h.2⟩, fun hc => ⟨?_, ?_, ?_⟩⟩
  · exact ⟨m1, fun h => ⟨h.1, h.2.imp fun J hJ => ⟨(hrun J).2 hc hJ.1, (hgoal J).2 hJ.2⟩⟩⟩
  · exact ⟨fun h => ⟨h.1, fun J hJ => (hgoal J).1 (h.2 J ((hrun J).2 hc hJ))⟩,
      fun h => ⟨h.1, fun J hJ => (hgoal J).2 (h.2 J ((hrun J).1 hJ))⟩⟩
  · exact ⟨fun h => ⟨h.1, hs2 hc h.2⟩, fun h => ⟨h.1, hs1 h.2⟩⟩

/-! ### A text with choices that loses operands -/

/-- In each of the choices a number may be increased. A sum `(+ 1 1)` is read as `(+ 1)`. -/
def hopText : Str := s%"(define (domain d) (:requirements :strips :numeric-fluents :non-deterministic) (:predicates (p ?x) (q ?x)) (:functions (n ?x))
  (:action hop :parameters (?x ?y) :precondition (p ?x)
    :effect (and (oneof (q ?x) (increase (n ?x) (+ 1 1))) (oneof (p ?y) (increase (n ?x) (+ (n ?x) (n ?y)))))))"

/-- The written effect. -/
def hopEff : Tree :=
  let v (p x : Str) : Tree := .node [.atom (.name p), .atom .qmark, .atom (.name x)]
  .node [word s%"and", .node [word s%"oneof", v s%"q" s%"x",
      .node [word s%"increase", v s%"n" s%"x", .node [.atom .plus, .atom (.num s%"1"), .atom (.num s%"1")]]],
    .node [word s%"oneof", v s%"p" s%"y", .node [word s%"increase", v s%"n" s%"x", .node [.atom .plus, v s%"n" s%"x", v s%"n" s%"y"]]]]

example : actionText s%"hop" [.atom .qmark, word s%"x", .atom .qmark, word s%"y"]
    (.node [word s%"p", .atom .qmark, word s%"x"]) hopEff ∈ treesOf hopText := by decide +kernel

/-- `(hop a a)` is read with the sum of one operand each. -/
example : readEff (fun _ => none) (writeIn (nameFor [s%"x", s%"y"] [s%"a", s%"a"]) hopEff) =
    .node [word s%"and", .node [word s%"oneof", .node [word s%"q", word s%"a"],
        .node [word s%"increase", .node [word s%"n", word s%"a"], .node [.atom .plus, .atom (.num s%"1")]]],
      .node [word s%"oneof", .node [word s%"p", word s%"a"],
        .node [word s%"increase", .node [word s%"n", word s%"a"], .node [.atom .plus, .node [word s%"n", word s%"a"]]]]] := by
  decide +kernel

/-- The operands are not kept, but the choices stay different. -/
example : ChoicesOnce (fun _ => none) (writeIn (nameFor [s%"x", s%"y"] [s%"a", s%"a"]) hopEff) :=
  once_of_check (by decide +kernel)

/-- The domain is accepted, and its action can be grounded with equal arguments. -/
example : (match parseDomain (fun _ => none) .fresh hopText with
    | .ok (d, _) => match d.actions with
      | [a] => decide (a.params = tripParams) && (a.inst [.const s%"a" none, .const s%"a" none]).toOption.isSome
      | _ => false
    | .error _ => false) = true := by decide +kernel

end Pddl.Props
