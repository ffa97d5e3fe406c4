/-
C81 and C92, exactly: which plans solve the problem that was read, whatever operands are lost.
-/
import Verif.Spec.ReadExecute
import Verif.Props.AsRead
import Verif.Props.Execute
import Verif.Props.DerivedSem

namespace Pddl.Props
open Spec Spec.Grammar

theorem reads_acts {F : FloatOf} {σ : PState} {text : Str} {d : Domain} {σ' : PState} {a g : Action} {ts : List Tree} {n : Str} {ns : List Str}
    (hσ : ParserState F σ) (h : parseDomain F σ text = .ok (d, σ')) (hts : readText text = .ok [.node ts]) (hp : ClearActions ts)
    (hvalid : ∀ m ∈ ns, ValidName m) (ha : a ∈ d.actions) (hn : a.name = n) (hg : a.inst (ns.map (.const · none)) = .ok g)
    {D : Type} {lit : Str → Option Rat} (hlit : LitOk lit F) (ρ : Str → D) (I' I J : Interp D) :
    ActsAt ρ g I' I J ↔ ReadActsAt F lit ts ρ (applied n ns) I' I J := by
  obtain ⟨ts', n', ps, pre, eff, l, hr, hin, hv, hnd, hsub, hmem, hlen, rfl, _, _, gp, ge, hgp, hge, hall⟩ :=
    C74_exact hσ h ha (by
      intro t ht
      obtain ⟨m, hm, rfl⟩ := List.mem_map.1 ht
      exact ⟨m, none, rfl, hvalid m hm⟩) hg
  rw [hts] at hr
  injection hr with hr
  injection hr with hr
  injection hr with hr
  subst hr
  subst hn
  have hpar := sublist_members hsub (hp.params _ _ _ _ l hin hv) hmem
  have hb := hp.bound _ _ _ _ l hin hv
  rw [← hpar] at hb
  have hlen' : ns.length = l.vars.length := by
    have h1 := congrArg List.length hpar
    simp only [List.length_map] at h1 hlen
    omega
  obtain ⟨k1, k2⟩ := hall D I' lit ρ hlit
  have k1 := k1 hb
  have k2 := k2 (hp.eff _ _ _ _ hin)
  rw [argumentOf_consts, hpar] at k1 k2
  constructor
  · rintro ⟨h1, h2⟩
    refine ⟨_, ns, ps, pre, eff, l, rfl, hin, hv, hlen', k1.1 (h1 gp hgp), h2.congr ?_⟩
    intro c
    rw [← k2 c, hge]
    simp
  · rintro ⟨n', ns', ps', pre', eff', l', e, hin', hv', _, h1, h2⟩
    obtain ⟨rfl, rfl⟩ := applied_inj e
    obtain ⟨rfl, rfl, rfl⟩ := hp.names _ _ _ _ _ _ _ hin hin'
    rw [hv'.names, ← hv.names] at h1 h2
    refine ⟨?_, h2.congr ?_⟩
    · intro x hx
      rw [hgp] at hx
      injection hx with hx
      subst hx
      exact k1.2 h1
    · intro c
      rw [← k2 c, hge]
      simp

theorem reads_runs {F : FloatOf} {σ : PState} {text : Str} {d : Domain} {σ' : PState} {ts : List Tree} {plan : Plan} {us : List Tree}
    {gs : List Action} (hσ : ParserState F σ) (h : parseDomain F σ text = .ok (d, σ')) (hts : readText text = .ok [.node ts])
    (hp : ClearActions ts) (hw : List.Forall₂ StepWritten us plan.steps)
    (hvalid : ∀ s ∈ plan.steps, ∀ c ∈ s.2, ValidName c.name) (hg : plan.inst d = .ok gs)
    {D : Type} {lit : Str → Option Rat} (hlit : LitOk lit F) (ρ : Str → D) (I J : Interp D) :
    Runs ρ gs I J ↔ ReadRuns F lit ts ρ us I J := by
  have h1 := instSteps_ok.mp hg
  clear hg
  revert h1 hw hvalid
  generalize plan.steps = l
  intro hw hvalid h1
  induction hw generalizing gs I with
  | nil =>
    cases h1
    constructor <;> (intro h; cases h; exact .nil)
  | @cons u s us l hu _ ih =>
    cases h1 with
    | @cons _ g _ gs h1 h2 =>
      obtain ⟨a, ha, hi⟩ := h1
      obtain ⟨hm, hn⟩ := lastNamed_mem ha
      obtain ⟨ns, rfl, hs⟩ := hu
      rw [hs] at hi
      have key := fun J => reads_acts hσ h hts hp (n := s.1) (ns := ns) (fun m hm => hvalid s List.mem_cons_self (.const m none) (by
        rw [hs]; exact List.mem_map.2 ⟨m, hm, rfl⟩)) hm hn hi hlit ρ I I J
      have ih := fun J => ih (gs := gs) J (fun s hs => hvalid s (List.mem_cons_of_mem _ hs))
      constructor
      · intro h
        cases h with
        | cons k1 k2 => exact .cons ((key _).1 k1) ((ih _ h2).1 k2)
      · intro h
        cases h with
        | cons k1 k2 => exact .cons ((key _).2 k1) ((ih _ h2).2 k2)

theorem reads_runsBy {F : FloatOf} {σ : PState} {text : Str} {d : Domain} {σ' : PState} {ts : List Tree} {plan : Plan} {us : List Tree}
    {gs : List Action} (hσ : ParserState F σ) (h : parseDomain F σ text = .ok (d, σ')) (hts : readText text = .ok [.node ts])
    (hp : ClearActions ts) (hw : List.Forall₂ StepWritten us plan.steps)
    (hvalid : ∀ s ∈ plan.steps, ∀ c ∈ s.2, ValidName c.name) (hg : plan.inst d = .ok gs)
    {D : Type} {lit : Str → Option Rat} (hlit : LitOk lit F) (E : Interp D → Interp D → Prop) (ρ : Str → D) (I J : Interp D) :
    RunsBy E ρ gs I J ↔ ReadRunsBy E F lit ts ρ us I J := by
  have h1 := instSteps_ok.mp hg
  clear hg
  revert h1 hw hvalid
  generalize plan.steps = l
  intro hw hvalid h1
  induction hw generalizing gs I with
  | nil =>
    cases h1
    constructor <;> (intro h; cases h; exact .nil)
  | @cons u s us l hu _ ih =>
    cases h1 with
    | @cons _ g _ gs h1 h2 =>
      obtain ⟨a, ha, hi⟩ := h1
      obtain ⟨hm, hn⟩ := lastNamed_mem ha
      obtain ⟨ns, rfl, hs⟩ := hu
      rw [hs] at hi
      have key := fun I' J => reads_acts hσ h hts hp (n := s.1) (ns := ns) (fun m hm => hvalid s List.mem_cons_self (.const m none) (by
        rw [hs]; exact List.mem_map.2 ⟨m, hm, rfl⟩)) hm hn hi hlit ρ I' I J
      have ih := fun J => ih (gs := gs) J (fun s hs => hvalid s (List.mem_cons_of_mem _ hs))
      constructor
      · intro h
        cases h with
        | cons k0 k1 k2 => exact .cons k0 ((key _ _).1 k1) ((ih _ h2).1 k2)
      · intro h
        cases h with
        | cons k0 k1 k2 => exact .cons k0 ((key _ _).2 k1) ((ih _ h2).2 k2)

/-- What is derived. -/
theorem reads_derives {F : FloatOf} {s : DomainSections} {xs : List Derived}
    (h1 : ∀ x ∈ xs, ∃ b c l l' b', section_ s%"derived" [.node (word x.pred.name :: b), c] ∈ s.structures ∧ DerivedReads F s b c x l l' b')
    (h2 : ∀ n b c, section_ s%"derived" [.node (word n :: b), c] ∈ s.structures →
      ∃ x ∈ xs, x.pred.name = n ∧ ∃ l l' b', DerivedReads F s b c x l l' b')
    (hp : ClearDerived s) {D : Type} {lit : Str → Option Rat} (hlit : LitOk lit F) (ρ : Str → D) (I : Interp D) (n : Str) (ds : List D) :
    Derives ρ xs I n ds ↔ ReadDerives F lit s ρ I n ds := by
  constructor
  · rintro ⟨x, hx, rfl, ρ', k1, k2, k3, k4⟩
    obtain ⟨b, c, l, l', b', ht, hr⟩ := h1 x hx
    have hh := hr.head (hp.vars _ _ _ _ ht hr.text)
    obtain ⟨z1, z2, z3⟩ := hh.denote I ρ'
    rw [z2] at k1
    rw [z1] at k2
    exact ⟨b, c, l, b', l', ρ', ht, hr.text, hr.decl, hr.declText, hh.length, k1, k2, z3.1 k3, (hr.exact D I lit ρ' hlit).1 k4⟩
  · rintro ⟨b, c, l, b', l', ρ', ht, hl, hd, hl', _, k1, k2, k3, k4⟩
    obtain ⟨x, hx, rfl, l1, l1', b1, hr⟩ := h2 n b c ht
    have e := hr.text.unique hl
    subst e
    have e := hp.once _ _ _ _ _ ht hr.decl hd
    subst e
    have e := hr.declText.unique hl'
    subst e
    have hh := hr.head (hp.vars _ _ _ _ ht hr.text)
    obtain ⟨z1, z2, z3⟩ := hh.denote I ρ'
    refine ⟨x, hx, rfl, ρ', ?_, ?_, z3.2 k3, (hr.exact D I lit ρ' hlit).2 k4⟩
    · rw [z2]; exact k1
    · rw [z1]; exact k2

/-- C81, exactly. A plan solves the problem that was read exactly if the written plan, with the arguments written in place of the
parameters and all texts taken as they are read, leads from the written start to the written goal. Operands may be lost, and
`()` may be a precondition. -/
theorem C81_exact {F : FloatOf} {σ : PState} {dtext : Str} {d : Domain} {σ' : PState} {τ : List (Str × Term)} {ptext : Str}
    {p : Pddl.Problem} {τ' : List (Str × Term)} {ltext : Str} {plan : Plan} {gs : List Action}
    (hσ : ParserState F σ) (hτ : OwnNames τ) (hd : parseDomain F σ dtext = .ok (d, σ')) (hp : parseProblem F τ ptext = .ok (p, τ'))
    (hl : parsePlan ltext = .ok plan) (hg : plan.inst d = .ok gs) :
    ∃ ts t s us, Brackets (lex dtext) [.node ts] ∧ Brackets (lex ptext) [t] ∧ s.Of t ∧ Brackets (lex ltext) us ∧
      (ClearActions ts →
        ∀ (D : Type) (I : Interp D) ρ lit, LitOk lit F → (Solves ρ p gs I ↔ ReadSolves F lit ts s us ρ I)) := by
  obtain ⟨ts, hts, _⟩ := parseDomain_ok hd
  obtain ⟨us, hus, hsteps, hvalid⟩ := C59_steps.1 hl
  obtain ⟨ps, hr, ⟨P⟩⟩ := parseProblem_ok hp
  have hwords : ∀ w, Inside (.atom (.name w)) (.node ps) → nameRegex w = true :=
    fun w hw => readText_words hr (t := .node ps) (by simp) hw
  have hw := P.written (fun n x hx => (hτ n x hx).2) hwords
  refine ⟨ts, .node ps, P.sections, us, readText_brackets.1 hts, readText_brackets.1 hr, P.sections_of, hus, ?_⟩
  intro hpl D I ρ lit hlit
  unfold Solves ReadSolves
  rw [starts_iff hw.init hw.allInit hlit ρ I]
  have hgoal : ∀ J : Interp D, holds J p.goal ρ ↔ treeHolds J lit (readCond F P.sections.goal) ρ := by
    intro J
    rw [(mkProblem_fields P.hproblem).2.2.2.2.1]
    exact (gd_iff.1 P.hgoal).exact J lit (goalEnv_ok F) hlit
      (fun w hi => hwords w (hi.trans (.node P.goal_mem (.node (by simp) .refl)))) ρ
  simp only [reads_runs hσ hd hts hpl hsteps hvalid hg hlit ρ I, hgoal]

/-- C92, exactly, with derived predicates: in whatever way `E` states are completed by rules, a plan solves the problem that was
read exactly if the written plan does with all texts taken as they are read. -/
theorem C92_exact {F : FloatOf} {σ : PState} {dtext : Str} {d : Domain} {σ' : PState} {τ : List (Str × Term)} {ptext : Str}
    {p : Pddl.Problem} {τ' : List (Str × Term)} {ltext : Str} {plan : Plan} {gs : List Action}
    (hσ : ParserState F σ) (hτ : OwnNames τ) (hd : parseDomain F σ dtext = .ok (d, σ')) (hp : parseProblem F τ ptext = .ok (p, τ'))
    (hl : parsePlan ltext = .ok plan) (hg : plan.inst d = .ok gs) :
    ∃ ts r t s us, Brackets (lex dtext) [.node ts] ∧ r.Of (.node ts) ∧ DomainWritten F FunctionRead r d ∧ Brackets (lex ptext) [t] ∧
      s.Of t ∧ Brackets (lex ltext) us ∧
      (ClearDerived r → σ.preds = [] ∨ r.predicates ≠ none → ∀ (D : Type) ρ lit, LitOk lit F →
        (∀ (I : Interp D) n ds, Derives ρ d.derived I n ds ↔ ReadDerives F lit r ρ I n ds) ∧
        (ClearActions ts → ∀ (E : RuleSet D → Interp D → Interp D → Prop) (I : Interp D),
          (SolvesBy (E (Derives ρ d.derived)) ρ p gs I ↔ ReadSolvesBy (E (ReadDerives F lit r ρ)) F lit ts s us ρ I))) := by
  obtain ⟨ts, hts, hdd⟩ := parseDomain_ok hd
  obtain ⟨Q⟩ := domainDef_ok hdd
  obtain ⟨us, hus, hsteps, hvalid⟩ := C59_steps.1 hl
  obtain ⟨ps, hr, ⟨P⟩⟩ := parseProblem_ok hp
  have hwords : ∀ w, Inside (.atom (.name w)) (.node ps) → nameRegex w = true :=
    fun w hw => readText_words hr (t := .node ps) (by simp) hw
  have hwords' : ∀ w, Inside (.atom (.name w)) (.node ts) → nameRegex w = true :=
    fun w hw => readText_words hts (t := .node ts) (by simp) hw
  have hw := P.written (fun n x hx => (hτ n x hx).2) hwords
  refine ⟨ts, Q.sections, .node ps, P.sections, us, readText_brackets.1 hts, Q.sections_of, Q.written hσ hwords',
    readText_brackets.1 hr, P.sections_of, hus, ?_⟩
  intro hcd hpr D ρ lit hlit
  obtain ⟨h1, h2⟩ := Q.derivedReads hσ hwords' hpr
  refine ⟨fun I n ds => reads_derives h1 h2 hcd hlit ρ I n ds, ?_⟩
  intro hpl E I
  have e : Derives ρ d.derived = ReadDerives F lit Q.sections ρ := by
    funext I n ds
    exact propext (reads_derives h1 h2 hcd hlit ρ I n ds)
  rw [e]
  unfold SolvesBy ReadSolvesBy
  rw [starts_iff hw.init hw.allInit hlit ρ I]
  have hgoal : ∀ J : Interp D, holds J p.goal ρ ↔ treeHolds J lit (readCond F P.sections.goal) ρ := by
    intro J
    rw [(mkProblem_fields P.hproblem).2.2.2.2.1]
    exact (gd_iff.1 P.hgoal).exact J lit (goalEnv_ok F) hlit
      (fun w hi => hwords w (hi.trans (.node P.goal_mem (.node (by simp) .refl)))) ρ
  simp only [reads_runsBy hσ hd hts hpl hsteps hvalid hg hlit _ ρ I, hgoal]

/-- The conditions of `C81_partial` on the actions are more than those of `C81_exact`. -/
theorem C81_exact_plain {ts : List Tree} (h : PlainActions ts) : ClearActions ts := ⟨h.names, h.params, h.bound, h.eff⟩

/-- The conditions of `C92_partial` on the derived predicates are more than those of `C92_exact`. -/
theorem C92_exact_plain {F : FloatOf} {s : DomainSections} (h : PlainDerived F s) : ClearDerived s := ⟨h.once, h.vars⟩

/-! ### A plan for which operands are lost -/

example : ClearActions goTrees := by
  refine ⟨?_, ?_, ?_, ?_⟩
  · intro n ps pre eff ps' pre' eff' h h'
    obtain ⟨_, rfl, rfl, rfl⟩ := goTrees_action h
    obtain ⟨_, rfl, rfl, rfl⟩ := goTrees_action h'
    exact ⟨rfl, rfl, rfl⟩
  · intro n ps pre eff l h hv
    obtain ⟨_, rfl, rfl, rfl⟩ := goTrees_action h
    rw [hv.names]
    decide +kernel
  · intro n ps pre eff l h hv w vs c l' hw hi
    obtain ⟨_, rfl, rfl, rfl⟩ := goTrees_action h
    have := Tree.mem_parts.2 hi
    simp [goPre, distText, Tree.parts, Tree.partss, word, varTrees] at this
    rcases hw with rfl | rfl <;> simp at this
  · intro n ps pre eff h
    obtain ⟨_, rfl, rfl, rfl⟩ := goTrees_action h
    exact noOneof_of_check (by decide +kernel)

/-- The step `(go a a)` is grounded, and of the sum of the distances one is left, as `Spec.readPre` says. -/
example : (match parseDomain (fun _ => none) .fresh goDomain, parsePlan s%"(go a a)" with
    | .ok (d, _), .ok plan => (plan.inst d).toOption.isSome
    | _, _ => false) = true ∧
    .ok [readPre (fun _ => none) (writeIn (nameFor [s%"x", s%"y"] [s%"a", s%"a"]) goPre)] =
      readText s%"(and (at a) (> (fuel) (+ (dist a a))))" := by decide +kernel

end Pddl.Props
