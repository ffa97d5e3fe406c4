/-
C119: the texts of derived predicates derive what the objects derive.
-/
import Verif.Proofs.SaidDerived
import Verif.Props.DerivedSem
import Verif.Props.FormatTask
import Verif.Props.GroundPlan
import Verif.Props.ReadExecute

namespace Pddl.Props
open Spec Spec.Grammar

/-- The full claim: in every state, the text of a domain derives what the derived predicates of the domain derive. -/
def C119_full : Prop := ∀ (F : FloatOf) (d : Domain) (text : Str), BuiltDomain d → d.str = .ok text →
  ∃ ts s, Brackets (lex text) [.node ts] ∧ s.Of (.node ts) ∧ ∀ (D : Type) (I : Interp D) ρ lit n ds, LitOk lit F →
    (Derives ρ d.derived I n ds ↔ TextDerives lit s ρ I n ds)

/-- C119, for domains whose texts say what they say and derived predicates that are declared, with types wherever the declaration
has some: the printed domain derives what the domain derives; and in whatever way `E` states are completed by rules, the printed
plan solves the printed problem in the printed domain exactly if the plan solves the problem. -/
theorem C119_partial {F : FloatOf} {d : Domain} {p : Pddl.Problem} {plan : Plan} (hb : BuiltDomain d) (hd : SaidDomain F d)
    (hh : DeclaredHeads d) (hp : BuiltProblem p) (hq : SaidProblem F p) (hl : SaidPlan plan) :
    ∃ dtext ts r t s us, d.str = .ok dtext ∧ Brackets (lex dtext) [.node ts] ∧ r.Of (.node ts) ∧ Brackets (lex p.str) [t] ∧ s.Of t ∧
      Brackets (lex plan.str) us ∧ ∀ (D : Type) (I : Interp D) ρ lit, LitOk lit F →
        (∀ n ds, Derives ρ d.derived I n ds ↔ TextDerives lit r ρ I n ds) ∧
        ∀ E : RuleSet D → Interp D → Interp D → Prop,
          (TaskSolvesBy (E (Derives ρ d.derived)) ρ d p plan I ↔ TextSolvesBy (E (TextDerives lit r ρ)) lit ts s us ρ I) := by
  have hfull : ∀ a ∈ d.actions, a.pre ≠ none ∧ a.eff ≠ none := by
    obtain ⟨a, ha, hmk⟩ := hb
    have hc := checked_of_mk ha.types hmk
    exact fun x hx => ⟨(hc.actions x hx).1, (hc.actions x hx).2.1⟩
  obtain ⟨dtext, ts, r, h1, h2, h3, _, h4, h5, h6⟩ := domain_textSections hb hd
  obtain ⟨t, s, k1, k2, k3, k4, _⟩ := problem_text hp hq
  refine ⟨dtext, ts, r, t, s, plan.steps.map stepTree, h1, readText_brackets.1 h2, h3, readText_brackets.1 k1, k2,
    readText_brackets.1 (plan_text hl), ?_⟩
  intro D I ρ lit hlit
  have hder := fun I n ds => derives_text hd hh h4 h5 hlit ρ I n ds
  refine ⟨hder I, fun E => ?_⟩
  have e : Derives ρ d.derived = TextDerives lit r ρ := by
    funext I n ds
    exact propext (hder I n ds)
  rw [e]
  have hsteps : List.Forall₂ (fun u st => ∀ I I' J, PerformsAt d ρ st I' I J ↔ TextActsAt lit ts ρ u I' I J) (plan.steps.map stepTree)
      plan.steps := by
    rw [List.forall₂_map_left_iff, List.forall₂_same]
    exact fun st hst I I' J => performsAt_iff hd hfull h6 (hl st hst).2 hlit
  unfold TaskSolvesBy TextSolvesBy
  rw [starts_iff (T := False) (objs := []) (fun e he => ⟨e.tree, (k3 _).2 ⟨e, he, rfl⟩, init_written (hq.init e he)⟩)
      (fun u hu => by obtain ⟨e, he, rfl⟩ := (k3 u).1 hu; exact ⟨e, he, init_written (hq.init e he)⟩) hlit ρ I]
  simp only [stepsBy_iff hsteps, k4, hq.goal.says _ lit hlit ρ]

/-- With C117: the ground actions of a plan solve the problem, with what the domain derives, exactly if the printed plan solves the
printed problem in the printed domain. -/
theorem C119_ground_partial {F : FloatOf} {d : Domain} {p : Pddl.Problem} {plan : Plan} {gs : List Action} (hb : BuiltDomain d)
    (hd : SaidDomain F d) (hh : DeclaredHeads d) (hp : BuiltProblem p) (hq : SaidProblem F p) (hl : SaidPlan plan)
    (ho : OneActionEach d) (hs : SafePlan d plan) (hg : plan.inst d = .ok gs) :
    ∃ dtext ts r t s us, d.str = .ok dtext ∧ Brackets (lex dtext) [.node ts] ∧ r.Of (.node ts) ∧ Brackets (lex p.str) [t] ∧ s.Of t ∧
      Brackets (lex plan.str) us ∧ ∀ (D : Type) (I : Interp D) ρ lit, LitOk lit F → ∀ E : RuleSet D → Interp D → Interp D → Prop,
        (SolvesBy (E (Derives ρ d.derived)) ρ p gs I ↔ TextSolvesBy (E (TextDerives lit r ρ)) lit ts s us ρ I) := by
  obtain ⟨dtext, ts, r, t, s, us, h1, h2, h3, h4, h5, h6, h7⟩ := C119_partial hb hd hh hp hq hl
  exact ⟨dtext, ts, r, t, s, us, h1, h2, h3, h4, h5, h6, fun D I ρ lit hlit E =>
    (C117_derived_partial hb ho hs hg _ I ρ).trans ((h7 D I ρ lit hlit).2 E)⟩

/-- A plan solves the task that was read exactly if it solves the written task, in whatever way states are completed by rules. -/
theorem C119_read {F : FloatOf} {σ : PState} {dt pt lt : Str} {d : Domain} {σ' : PState} {τ τ' : List (Str × Term)}
    {p : Pddl.Problem} {plan : Plan} (hσ : ParserState F σ) (hτ : OwnNames τ) (hd : parseDomain F σ dt = .ok (d, σ'))
    (hp : parseProblem F τ pt = .ok (p, τ')) (hl : parsePlan lt = .ok plan) :
    ∃ ts r t s us, Brackets (lex dt) [.node ts] ∧ r.Of (.node ts) ∧ DomainWritten F FunctionRead r d ∧ Brackets (lex pt) [t] ∧ s.Of t ∧
      Brackets (lex lt) us ∧ (PlainDerived F r → σ.preds = [] ∨ r.predicates ≠ none → ∀ (D : Type) (I : Interp D) ρ lit, LitOk lit F →
        (∀ n ds, Derives ρ d.derived I n ds ↔ TextDerives lit r ρ I n ds) ∧
        (PlainSchemas F ts → KeepsOperands (goalEnv F) s.goal → ∀ E : RuleSet D → Interp D → Interp D → Prop,
          (TaskSolvesBy (E (Derives ρ d.derived)) ρ d p plan I ↔ TextSolvesBy (E (TextDerives lit r ρ)) lit ts s us ρ I))) := by
  obtain ⟨x, r, hx, hr, hw, hder⟩ := C92_partial hσ hd
  obtain ⟨ts, rfl⟩ : ∃ ts, x = .node ts := by obtain ⟨h, _, rfl⟩ := hr; exact ⟨_, rfl⟩
  obtain ⟨t, s, ht, hs, hv⟩ := C58_partial hτ hp
  obtain ⟨us, hus, hsteps, hvalid⟩ := C59_steps.1 hl
  refine ⟨ts, r, t, s, us, hx, hr, hw, ht, hs, hus, ?_⟩
  intro hpd hpr D I ρ lit hlit
  refine ⟨fun n ds => hder hpd hpr D I ρ lit n ds hlit, fun hpl hgoal E => ?_⟩
  have e : Derives ρ d.derived = TextDerives lit r ρ := by
    funext I n ds
    exact propext (hder hpd hpr D I ρ lit n ds hlit)
  rw [e]
  have hst : List.Forall₂ (fun u st => ∀ I I' J, PerformsAt d ρ st I' I J ↔ TextActsAt lit ts ρ u I' I J) us plan.steps := by
    clear hus
    revert hsteps hvalid
    generalize plan.steps = steps
    intro hsteps hvalid
    induction hsteps with
    | nil => exact .nil
    | cons h1 _ ih =>
      exact .cons (fun I I' J => read_performsAt hr hw hpl h1 (hvalid _ List.mem_cons_self) hlit)
        (ih fun st hst => hvalid st (List.mem_cons_of_mem _ hst))
  unfold TaskSolvesBy TextSolvesBy
  rw [starts_iff hv.init hv.allInit hlit ρ I]
  simp only [stepsBy_iff hst, hv.goal hgoal D _ lit ρ hlit]

/-- Formatting keeps the solutions of a task with derived predicates. -/
theorem C119_format {F : FloatOf} {dt pt lt : Str} {d : Domain} {p : Pddl.Problem} {plan : Plan} {σ : PState} {τ : List (Str × Term)}
    (hd : parseDomain F .fresh dt = .ok (d, σ)) (hp : parseProblem F [] pt = .ok (p, τ)) (hl : parsePlan lt = .ok plan)
    (ho : DerivedFirst dt) (hnd : DomainNoObstacle F d) (hnp : ProblemNoObstacle F p) :
    ∃ dtext ts r t s us ts' r' t' s' us', d.str = .ok dtext ∧ Brackets (lex dt) [.node ts] ∧ r.Of (.node ts) ∧
      DomainWritten F FunctionRead r d ∧ Brackets (lex pt) [t] ∧
      s.Of t ∧ Brackets (lex lt) us ∧ Brackets (lex dtext) [.node ts'] ∧ r'.Of (.node ts') ∧ Brackets (lex p.str) [t'] ∧ s'.Of t' ∧
      Brackets (lex plan.str) us' ∧ (PlainDerived F r → ∀ (D : Type) (I : Interp D) ρ lit, LitOk lit F →
        (∀ n ds, TextDerives lit r ρ I n ds ↔ TextDerives lit r' ρ I n ds) ∧
        (PlainSchemas F ts → KeepsOperands (goalEnv F) s.goal → ∀ E : RuleSet D → Interp D → Interp D → Prop,
          (TextSolvesBy (E (TextDerives lit r ρ)) lit ts s us ρ I ↔ TextSolvesBy (E (TextDerives lit r' ρ)) lit ts' s' us' ρ I))) := by
  obtain ⟨hb, hpr⟩ := domain_reread hd ho hnd
  obtain ⟨hb', hpr', _⟩ := problem_reread C58_parser.1 hp hnp
  obtain ⟨ts, r, t, s, us, h1, h2, h3, h4, h5, h6, h7⟩ := C119_read .fresh C58_parser.1 hd hp hl
  obtain ⟨dtext, ts', r', t', s', us', k0, k1, k2, k3, k4, k5, k6⟩ := C119_partial hb (hpr.said hb) hpr.heads hb' (hpr'.said hb')
    (parsedPlan_said hl)
  refine ⟨dtext, ts, r, t, s, us, ts', r', t', s', us', k0, h1, h2, h3, h4, h5, h6, k1, k2, k3, k4, k5, ?_⟩
  intro hpd D I ρ lit hlit
  obtain ⟨kd, ke⟩ := k6 D I ρ lit hlit
  obtain ⟨hdr, hso⟩ := h7 hpd (.inl rfl) D I ρ lit hlit
  exact ⟨fun n ds => (hdr n ds).symm.trans (kd n ds), fun hpl hg E => (hso hpl hg E).symm.trans (ke E)⟩

/-- Reading alone, exactly, whatever operands are lost: a plan solves the task that was read exactly if it solves the written task as
it is read. -/
theorem C119_read_exact {F : FloatOf} {σ : PState} {dt pt lt : Str} {d : Domain} {σ' : PState} {τ τ' : List (Str × Term)}
    {p : Pddl.Problem} {plan : Plan} (hσ : ParserState F σ) (hτ : OwnNames τ) (hd : parseDomain F σ dt = .ok (d, σ'))
    (hp : parseProblem F τ pt = .ok (p, τ')) (hl : parsePlan lt = .ok plan) :
    ∃ ts r t s us, Brackets (lex dt) [.node ts] ∧ r.Of (.node ts) ∧ DomainWritten F FunctionRead r d ∧ Brackets (lex pt) [t] ∧ s.Of t ∧
      Brackets (lex lt) us ∧ (ClearDerived r → σ.preds = [] ∨ r.predicates ≠ none → ∀ (D : Type) (I : Interp D) ρ lit, LitOk lit F →
        (∀ n ds, Derives ρ d.derived I n ds ↔ ReadDerives F lit r ρ I n ds) ∧
        (ClearSchemas ts → ∀ E : RuleSet D → Interp D → Interp D → Prop,
          (TaskSolvesBy (E (Derives ρ d.derived)) ρ d p plan I ↔ ReadTaskSolvesBy (E (ReadDerives F lit r ρ)) F lit ts s us ρ I))) := by
  obtain ⟨ts, hts, ha1, ha2⟩ := actions_exact hσ hd
  obtain ⟨ts1, hts1, hdd⟩ := parseDomain_ok hd
  have e1 := readText_brackets.2 hts
  rw [hts1] at e1
  injection e1 with e1
  injection e1 with e1
  injection e1 with e1
  subst e1
  obtain ⟨Q⟩ := domainDef_ok hdd
  have hwords : ∀ w, Inside (.atom (.name w)) (.node ts1) → nameRegex w = true :=
    fun w hw => readText_words hts1 (t := .node ts1) (by simp) hw
  obtain ⟨t, s, ht, hs, hv, hgoal, _, _⟩ := C58_exact hτ hp
  obtain ⟨us, hus, hsteps, hvalid⟩ := C59_steps.1 hl
  refine ⟨ts1, Q.sections, t, s, us, hts, Q.sections_of, Q.written hσ hwords, ht, hs, hus, ?_⟩
  intro hcd hpr D I ρ lit hlit
  obtain ⟨h1, h2⟩ := Q.derivedReads hσ hwords hpr
  refine ⟨fun n ds => reads_derives h1 h2 hcd hlit ρ I n ds, fun hcl E => ?_⟩
  have e : Derives ρ d.derived = ReadDerives F lit Q.sections ρ := by
    funext I n ds
    exact propext (reads_derives h1 h2 hcd hlit ρ I n ds)
  rw [e]
  have hst : List.Forall₂ (fun u st => ∀ I J, (∃ I', E (ReadDerives F lit Q.sections ρ) I I' ∧ PerformsAt d ρ st I' I J) ↔
      ∃ I', E (ReadDerives F lit Q.sections ρ) I I' ∧ ReadSchemaAt F lit ts1 ρ u I' I J) us plan.steps := by
    clear hus
    revert hsteps hvalid
    generalize plan.steps = steps
    intro hsteps hvalid
    induction hsteps with
    | nil => exact .nil
    | cons k1 _ ih =>
      exact .cons (fun I J => exists_congr fun I' => and_congr_right fun _ =>
          read_schemaAt ha1 ha2 hcl k1 (hvalid _ List.mem_cons_self) hlit)
        (ih fun st hst => hvalid st (List.mem_cons_of_mem _ hst))
  unfold TaskSolvesBy ReadTaskSolvesBy
  rw [starts_iff hv.init hv.allInit hlit ρ I]
  simp only [stepByStep_rel hst, hgoal D _ lit ρ hlit]

/-- Formatting, exactly, whatever operands are lost: the formatted task derives what the task as it is read derives, and has its
solutions. -/
theorem C119_format_exact {F : FloatOf} {dt pt lt : Str} {d : Domain} {p : Pddl.Problem} {plan : Plan} {σ : PState} {τ : List (Str × Term)}
    (hd : parseDomain F .fresh dt = .ok (d, σ)) (hp : parseProblem F [] pt = .ok (p, τ)) (hl : parsePlan lt = .ok plan)
    (ho : DerivedFirst dt) (hnd : DomainNoObstacle F d) (hnp : ProblemNoObstacle F p) :
    ∃ dtext ts r t s us ts' r' t' s' us', d.str = .ok dtext ∧ Brackets (lex dt) [.node ts] ∧ r.Of (.node ts) ∧
      DomainWritten F FunctionRead r d ∧ Brackets (lex pt) [t] ∧
      s.Of t ∧ Brackets (lex lt) us ∧ Brackets (lex dtext) [.node ts'] ∧ r'.Of (.node ts') ∧ Brackets (lex p.str) [t'] ∧ s'.Of t' ∧
      Brackets (lex plan.str) us' ∧ (ClearDerived r → ∀ (D : Type) (I : Interp D) ρ lit, LitOk lit F →
        (∀ n ds, ReadDerives F lit r ρ I n ds ↔ TextDerives lit r' ρ I n ds) ∧
        (ClearSchemas ts → ∀ E : RuleSet D → Interp D → Interp D → Prop,
          (ReadTaskSolvesBy (E (ReadDerives F lit r ρ)) F lit ts s us ρ I ↔
            TextSolvesBy (E (TextDerives lit r' ρ)) lit ts' s' us' ρ I))) := by
  obtain ⟨hb, hpr⟩ := domain_reread hd ho hnd
  obtain ⟨hb', hpr', _⟩ := problem_reread C58_parser.1 hp hnp
  obtain ⟨ts, r, t, s, us, h1, h2, h3, h4, h5, h6, h7⟩ := C119_read_exact .fresh C58_parser.1 hd hp hl
  obtain ⟨dtext, ts', r', t', s', us', k0, k1, k2, k3, k4, k5, k6⟩ := C119_partial hb (hpr.said hb) hpr.heads hb' (hpr'.said hb')
    (parsedPlan_said hl)
  refine ⟨dtext, ts, r, t, s, us, ts', r', t', s', us', k0, h1, h2, h3, h4, h5, h6, k1, k2, k3, k4, k5, ?_⟩
  intro hcd D I ρ lit hlit
  obtain ⟨kd, ke⟩ := k6 D I ρ lit hlit
  obtain ⟨hdr, hso⟩ := h7 hcd (.inl rfl) D I ρ lit hlit
  exact ⟨fun n ds => (hdr n ds).symm.trans (kd n ds), fun hcl E => (hso hcl E).symm.trans (ke E)⟩

/-! ### What is false -/

/-- The derived predicate has no type where the declaration has one. -/
def looseArgs : DomainArgs where
  name := s%"d"
  reqs := [.typing, .derivedPredicates]
  types := [(s%"t", none)]
  predicates := [⟨s%"p", [.var ⟨s%"x", [s%"t"]⟩]⟩]
  derived := [⟨⟨s%"p", [.var ⟨s%"x", []⟩]⟩, .bin .and []⟩]

def looseText : Str :=
  s%"(define (domain d)\n    (:requirements :derived-predicates :typing)\n    (:types\n        t - object\n    )\n    (:predicates (p ?x - t))\n    (:derived (p ?x) (and ))\n)"

/-- C119 is false: `(:derived (p ?x) (and ))` is about the `?x` of the type in the declaration of `p`, the derived predicate is about
all objects. -/
theorem C119_fails : ¬ C119_full := by
  intro H
  have key : (match mkDomain looseArgs with
      | .ok d => decide (d.derived = looseArgs.derived) && (match d.str with | .ok t => decide (t = looseText) | .error _ => false)
      | .error _ => false) = true := by decide +kernel
  cases hmk : mkDomain looseArgs with
  | error e => rw [hmk] at key; simp at key
  | ok d =>
    rw [hmk] at key
    cases hstr : d.str with
    | error e => simp [hstr] at key
    | ok text =>
      simp only [hstr, Bool.and_eq_true, decide_eq_true_eq] at key
      obtain ⟨hder, rfl⟩ := key
      have hb : BuiltDomainArgs looseArgs := by
        refine ⟨by simp [IsDict, looseArgs], ?_, by simp [IsFunDict, looseArgs], by simp [looseArgs], by simp [looseArgs], ?_,
          by simp [looseArgs]⟩
        · intro q hq
          rw [List.mem_singleton.1 hq]
          exact ⟨s%"p", [.var ⟨s%"x", [s%"t"]⟩], by decide +kernel⟩
        · intro x hx
          rw [List.mem_singleton.1 hx]
          exact ⟨⟨s%"p", [.var ⟨s%"x", []⟩], by decide +kernel⟩,
            .op (.bop .and) (args := []) (fun _ h => by cases h)⟩
      obtain ⟨ts, s, hts, hs, h⟩ := H (fun _ => none) d looseText ⟨_, hb, hmk⟩ hstr
      let I : Interp Unit := ⟨fun _ => (), fun _ _ => False, fun _ _ => False, fun _ _ => none⟩
      let lit : Str → Option Rat := fun s => (numLiteral (fun _ => none) s).toOption.bind numVal
      have hlit : LitOk lit (fun _ => none) := by intro s n h; simp [lit, h, Except.toOption]
      have hd : Derives (fun _ => ()) d.derived I s%"p" [()] := by
        rw [hder]
        refine ⟨_, List.mem_singleton.2 rfl, rfl, fun _ => (), fun _ _ => rfl, rfl, ?_, by simp [holds, holdsAll]⟩
        intro v hv
        simp only [List.mem_singleton, Term.var.injEq] at hv
        subst hv
        exact .inl rfl
      obtain ⟨b, c, l, b', l', ρ', h1, h2, h3, h4, h5, _, _, h6, _⟩ := (h Unit I (fun _ => ()) lit s%"p" [()] hlit).1 hd
      have e : ts = [word s%"define", .node [word s%"domain", word s%"d"],
          section_ s%"requirements" [.atom (.kw s%"derived-predicates"), .atom (.kw s%"typing")],
          section_ s%"types" [word s%"t", .atom .minus, word s%"object"],
          section_ s%"predicates" [.node (word s%"p" :: (varTrees s%"x" ++ [.atom .minus, word s%"t"]))],
          section_ s%"derived" [.node (word s%"p" :: varTrees s%"x"), .node [word s%"and"]]] := by
        have e1 := readText_brackets.2 hts
        have e2 : readText looseText = .ok [.node [word s%"define", .node [word s%"domain", word s%"d"],
          section_ s%"requirements" [.atom (.kw s%"derived-predicates"), .atom (.kw s%"typing")],
          section_ s%"types" [word s%"t", .atom .minus, word s%"object"],
          section_ s%"predicates" [.node (word s%"p" :: (varTrees s%"x" ++ [.atom .minus, word s%"t"]))],
          section_ s%"derived" [.node (word s%"p" :: varTrees s%"x"), .node [word s%"and"]]]] := by decide +kernel
        rw [e1] at e2
        simpa using e2
      obtain ⟨hd', _, e'⟩ := hs
      injection e' with e'
      have hin : ∀ t ∈ s.structures, t ∈ ts := fun t ht => by rw [e']; simp [ht]
      have eb : b = varTrees s%"x" := by
        have := hin _ h1
        rw [e] at this
        simp only [List.mem_cons, List.not_mem_nil, or_false, section_, word, varTrees] at this
        simp at this
        exact this.1
      have eb' : b' = varTrees s%"x" ++ [.atom .minus, word s%"t"] := by
        cases hsp : s.predicates with
        | none => rw [hsp] at h3; simp at h3
        | some pb =>
          have hm : section_ s%"predicates" pb ∈ ts := by rw [e', hsp]; simp [optText]
          rw [e] at hm
          simp only [List.mem_cons, List.not_mem_nil, or_false, section_, word, varTrees] at hm
          simp at hm
          rw [hsp, hm] at h3
          simpa [word, varTrees] using h3
      subst eb eb'
      have el := h2.unique (VarsText.rest [s%"x"])
      have el' := h4.unique (VarsText.group (n := s%"x") (ns := []) (TypeText.one s%"t") (.rest []))
      subst el el'
      have := h6 ((s%"x", []), (s%"x", [s%"t"])) (by simp [TypedList.vars, TypedList.assigned, typesOf])
      simp [InRange, I] at this

/-! ### A text that meets the conditions -/

/-- The derived predicate of the text. -/
def freeCond : Tree := .node [word s%"exists", .node (varTrees s%"p" ++ [.atom .minus, word s%"place"]),
  .node (word s%"at" :: (varTrees s%"w" ++ varTrees s%"p"))]

/-- The derived predicates and the predicates of the text. -/
theorem drive_derived {ts : List Tree} (h : Brackets (lex readSample) [.node ts]) :
    (∀ b, section_ s%"derived" b ∈ ts → b = [.node (word s%"free" :: varTrees s%"w"), freeCond]) ∧
    ∀ b, section_ s%"predicates" b ∈ ts → (b.filter (fun t => decide (t = .node (word s%"free" :: (varTrees s%"v" ++ [.atom .minus, word s%"vehicle"])))
      || match t with | .node (.atom (.name n) :: _) => decide (n ≠ s%"free") | _ => true)) = b := by
  have key : (match readText readSample with
      | .ok [.node ts] => decide (ts.filter (sectionIs s%"derived") = [section_ s%"derived" [.node (word s%"free" :: varTrees s%"w"), freeCond]]) &&
        decide (ts.filter (sectionIs s%"predicates") = [section_ s%"predicates" [
          .node (word s%"at" :: (varTrees s%"v" ++ [.atom .minus, word s%"vehicle"] ++ varTrees s%"p" ++ [.atom .minus, word s%"place"])),
          .node (word s%"free" :: (varTrees s%"v" ++ [.atom .minus, word s%"vehicle"])),
          .node (word s%"linked" :: (varTrees s%"x" ++ [.atom .minus, .node [word s%"either", word s%"place", word s%"vehicle"]]))]])
      | _ => false) = true := by decide +kernel
  rw [readText_brackets.2 h] at key
  simp only [Bool.and_eq_true, decide_eq_true_eq] at key
  obtain ⟨k1, k2⟩ := key
  constructor
  · intro b hb
    have hm : section_ s%"derived" b ∈ ts.filter (sectionIs s%"derived") := List.mem_filter.2 ⟨hb, by simp [sectionIs, section_]⟩
    rw [k1] at hm
    simpa [section_] using hm
  · intro b hb
    have hm : section_ s%"predicates" b ∈ ts.filter (sectionIs s%"predicates") := List.mem_filter.2 ⟨hb, by simp [sectionIs, section_]⟩
    rw [k2] at hm
    simp only [section_, List.mem_singleton, Tree.node.injEq, List.cons.injEq, true_and] at hm
    rw [hm]
    decide +kernel

/-- The hypotheses of `C119_format` hold of the texts of C90: for those about plans see C118. -/
example : ∃ d σ p τ plan, parseDomain (fun _ => none) .fresh readSample = .ok (d, σ) ∧
    parseProblem (fun _ => none) [] driveProblem = .ok (p, τ) ∧ parsePlan s%"(drive t1 home depot)" = .ok plan ∧ DerivedFirst readSample ∧
    DomainNoObstacle (fun _ => none) d ∧ ProblemNoObstacle (fun _ => none) p ∧ d.derived.length = 1 ∧
    ∀ (ts : List Tree) (r : DomainSections), Brackets (lex readSample) [.node ts] → r.Of (.node ts) → PlainDerived (fun _ => none) r := by
  obtain ⟨d, σ, p, τ, plan, _, h1, h2, h3, h4, h5, h6, _⟩ := driveTask_ok
  have hlen : (match parseDomain (fun _ => none) .fresh readSample with | .ok (d, _) => decide (d.derived.length = 1) | _ => false) = true := by
    decide +kernel
  rw [h1] at hlen
  refine ⟨d, σ, p, τ, plan, h1, h2, h3, h4, h5, h6, by simpa using hlen, fun ts r hts hr => ?_⟩
  obtain ⟨k1, k2⟩ := drive_derived hts
  obtain ⟨hd, _, e⟩ := hr
  injection e with e
  have hder : ∀ n b c, section_ s%"derived" [.node (word n :: b), c] ∈ r.structures → n = s%"free" ∧ b = varTrees s%"w" ∧ c = freeCond := by
    intro n b c h
    have := k1 [.node (word n :: b), c] (by rw [e]; simp [h])
    simpa [word, and_assoc] using this
  have hpred : ∀ b, .node (word s%"free" :: b) ∈ r.predicates.getD [] → b = varTrees s%"v" ++ [.atom .minus, word s%"vehicle"] := by
    intro b hb
    cases hp : r.predicates with
    | none => rw [hp] at hb; simp at hb
    | some pb =>
      rw [hp] at hb
      have := k2 pb (by rw [e, hp]; simp [optText])
      rw [Option.getD_some, ← this] at hb
      have := (List.mem_filter.1 hb).2
      simpa [word] using this
  refine ⟨?_, ?_, ?_⟩
  · intro n b c b1 b2 h hb1 hb2
    obtain ⟨rfl, _, _⟩ := hder _ _ _ h
    rw [hpred b1 hb1, hpred b2 hb2]
  · intro n b c l h hv
    obtain ⟨rfl, rfl, _⟩ := hder _ _ _ h
    rw [hv.names]
    decide +kernel
  · intro n b c h
    obtain ⟨_, _, rfl⟩ := hder _ _ _ h
    exact keeps_of_check (by decide +kernel)

/-- A domain with a derived predicate from whose condition an operand is lost. -/
def lostRule : Str := s%"(define (domain d) (:requirements :derived-predicates :numeric-fluents) (:predicates (p)) (:functions (f))
  (:derived (p) (> (+ (f) 1 1) 2)))"

/-- The condition. -/
def lostCond : Tree := .node [.atom .gt, .node [.atom .plus, applied s%"f" [], .atom (.num s%"1"), .atom (.num s%"1")], .atom (.num s%"2")]

/-- The hypotheses of `C119_format_exact` about domains hold of it, and those of `C119_format` do not. -/
example : ∃ d σ ts r, parseDomain (fun _ => none) .fresh lostRule = .ok (d, σ) ∧ DerivedFirst lostRule ∧
    DomainNoObstacle (fun _ => none) d ∧ Brackets (lex lostRule) [.node ts] ∧ DomainSections.Of (.node ts) r ∧ ClearDerived r ∧
    ClearSchemas ts ∧ ¬ PlainDerived (fun _ => none) r := by
  have key : (match parseDomain (fun _ => none) .fresh lostRule with
      | .ok (d, _) => decide (d.types = [] ∧ d.functions.map (fun f => f.1.terms) = [[]] ∧ d.actions = [] ∧ d.predicates = [⟨s%"p", []⟩] ∧
          d.derived = [⟨⟨s%"p", []⟩, .bfun .gt [.bfun .plus [.nfun ⟨s%"f", []⟩, .num (.int 1)], .num (.int 2)]⟩])
      | .error _ => false) = true := by decide +kernel
  cases h : parseDomain (fun _ => none) .fresh lostRule with
  | error e => rw [h] at key; simp at key
  | ok r =>
    obtain ⟨d, σ⟩ := r
    rw [h] at key
    simp only [decide_eq_true_eq] at key
    obtain ⟨h1, h2, h3, h4, h5⟩ := key
    let r : DomainSections := ⟨s%"d", some [.atom (.kw s%"derived-predicates"), .atom (.kw s%"numeric-fluents")], none, none, some [.node [word s%"p"]],
      some [.node [word s%"f"]], [section_ s%"derived" [.node [word s%"p"], lostCond]]⟩
    refine ⟨d, σ, word s%"define" :: .node [word s%"domain", word s%"d"] :: (optText s%"requirements" r.reqs ++ optText s%"types" r.types ++
      optText s%"constants" r.constants ++ optText s%"predicates" r.predicates ++ optText s%"functions" r.functions ++ r.structures), r, rfl,
      derivedFirst_test (by decide +kernel), ⟨?_, ?_, ?_, ?_, ?_, ?_, ?_, ?_, ?_⟩, readText_brackets.1 (by decide +kernel), ⟨_, ⟨_, rfl, .word _⟩, rfl⟩,
      ⟨?_, ?_⟩, ⟨?_, ?_⟩, ?_⟩
    · exact fun h => absurd h1 h
    · rw [h1]; simp
    · intro f hf t ht
      have : f.1.terms ∈ d.functions.map (fun f => f.1.terms) := List.mem_map_of_mem hf
      rw [h2, List.mem_singleton] at this
      rw [this] at ht
      cases ht
    · rw [h3]; simp
    · rw [h3]; simp
    · rw [h3]; simp
    · rw [h5]
      intro x hx
      rw [List.mem_singleton.1 hx]
      exact ⟨rfl, ⟨by simp [WrittenArity], trivial, .int 1, trivial⟩, .int 2, trivial⟩
    · rw [h5]; simp
    · rw [h4]
      intro x _ p hp q hq _ _
      rw [List.mem_singleton.1 hp, List.mem_singleton.1 hq]
    · intro n b c b1 b2 _ k1 k2
      simp only [r, Option.getD_some, List.mem_singleton, Tree.node.injEq, List.cons.injEq] at k1 k2
      rw [k1.2, k2.2]
    · intro n b c l k1 k2
      simp only [r, section_, word, List.mem_singleton, Tree.node.injEq, List.cons.injEq] at k1
      rw [k2.names, k1.2.1.2]
      decide +kernel
    · intro n ps pre eff l k1
      simp [r, optText, actionText, section_, word] at k1
    · intro n ps pre eff k1
      simp [r, optText, actionText, section_, word] at k1
    · intro hp
      have hk := hp.cond s%"p" [] lostCond (by simp [r])
      have e : (textEnv (fun _ => none)).fExps [applied s%"f" [], .atom (.num s%"1"), .atom (.num s%"1")] =
        .ok [.nfun ⟨s%"f", []⟩, .num (.int 1), .num (.int 1)] := by decide +kernel
      have := hk.plus _ _ (.node (t := .node [.atom .plus, applied s%"f" [], .atom (.num s%"1"), .atom (.num s%"1")])
        (by simp) .refl) e
      revert this
      unfold Distinct
      decide +kernel

end Pddl.Props
