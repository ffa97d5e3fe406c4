/-
C92: the derived predicates that are read derive what the text derives.
-/
import Verif.Proofs.DerivedSem

namespace Pddl.Props
open Spec Spec.Grammar

/-- C92. In every state the derived predicates of a domain that was read derive exactly the atoms that the text derives. -/
def C92_full : Prop :=
  ∀ (F : FloatOf) (σ : PState) (text : Str) (d : Domain) (σ' : PState), ParserState F σ → parseDomain F σ text = .ok (d, σ') →
    ∃ t s, Brackets (lex text) [t] ∧ s.Of t ∧ DomainWritten F FunctionRead s d ∧ ∀ (D : Type) (I : Interp D) ρ lit n ds, LitOk lit F →
      (Derives ρ d.derived I n ds ↔ TextDerives lit s ρ I n ds)

/-- What holds: each derived predicate is declared once (in this text, not in one that was read before), the variables
after its name are different, and its conditions are without sums, products, quotients and equations between numbers. -/
theorem C92_partial {F : FloatOf} {σ : PState} {text : Str} {d : Domain} {σ' : PState} (hσ : ParserState F σ)
    (h : parseDomain F σ text = .ok (d, σ')) :
    ∃ t s, Brackets (lex text) [t] ∧ s.Of t ∧ DomainWritten F FunctionRead s d ∧ (PlainDerived F s → σ.preds = [] ∨ s.predicates ≠ none →
      ∀ (D : Type) (I : Interp D) ρ lit n ds, LitOk lit F → (Derives ρ d.derived I n ds ↔ TextDerives lit s ρ I n ds)) := by
  obtain ⟨ts, hr, h⟩ := parseDomain_ok h
  obtain ⟨P⟩ := domainDef_ok h
  refine ⟨.node ts, P.sections, readText_brackets.1 hr, P.sections_of, P.written hσ (fun w hw => readText_words hr (t := .node ts) (by simp) hw), ?_⟩
  intro hp hpr D I ρ lit n ds hlit
  obtain ⟨h1, h2⟩ := P.derivedReads hσ (fun w hw => readText_words hr (t := .node ts) (by simp) hw) hpr
  exact derives_iff h1 h2 hp hlit ρ I n ds

/-- A plan solves the problem that was read exactly if it solves the written problem, in whatever way `E` states are
completed by rules. -/
theorem C92_solves {F : FloatOf} {σ : PState} {dtext : Str} {d : Domain} {σ' : PState} {τ : List (Str × Term)} {ptext : Str}
    {p : Pddl.Problem} {τ' : List (Str × Term)} {ltext : Str} {plan : Plan} {gs : List Action}
    (hσ : ParserState F σ) (hτ : OwnNames τ) (hd : parseDomain F σ dtext = .ok (d, σ')) (hp : parseProblem F τ ptext = .ok (p, τ'))
    (hl : parsePlan ltext = .ok plan) (hg : plan.inst d = .ok gs) :
    ∃ ts r t s us, Brackets (lex dtext) [.node ts] ∧ r.Of (.node ts) ∧ DomainWritten F FunctionRead r d ∧ Brackets (lex ptext) [t] ∧ s.Of t ∧ Brackets (lex ltext) us ∧
      (PlainActions ts → PlainDerived F r → σ.preds = [] ∨ r.predicates ≠ none → OperandsStay F ts us → KeepsOperands (goalEnv F) s.goal →
        ∀ (D : Type) (E : RuleSet D → Interp D → Interp D → Prop) (I : Interp D) ρ lit, LitOk lit F →
          (SolvesBy (E (Derives ρ d.derived)) ρ p gs I ↔ TextSolvesBy (E (TextDerives lit r ρ)) lit ts s us ρ I)) := by
  obtain ⟨ts, hts, hdd⟩ := parseDomain_ok hd
  obtain ⟨P⟩ := domainDef_ok hdd
  obtain ⟨t, s, ht, hs, hw⟩ := C58_partial hτ hp
  obtain ⟨us, hus, hsteps, hvalid⟩ := C59_steps.1 hl
  refine ⟨ts, P.sections, t, s, us, readText_brackets.1 hts, P.sections_of, P.written hσ (fun w hw => readText_words hts (t := .node ts) (by simp) hw), ht, hs, hus, ?_⟩
  intro hpl hpd hpr hk hgoal D E I ρ lit hlit
  obtain ⟨h1, h2⟩ := P.derivedReads hσ (fun w hw => readText_words hts (t := .node ts) (by simp) hw) hpr
  have e : Derives ρ d.derived = TextDerives lit P.sections ρ := by
    funext I n ds
    exact propext (derives_iff h1 h2 hpd hlit ρ I n ds)
  rw [e]
  unfold SolvesBy TextSolvesBy
  rw [starts_iff hw.init hw.allInit hlit ρ I]
  simp only [runsBy_iff hσ hd hts hpl hk hsteps hvalid hg hlit _ ρ I, hw.goal hgoal D _ lit ρ hlit]

/-- Without derived predicates the state is complete, so that C81 is the case of no rules. -/
theorem C92_none {D : Type} {R : RuleSet D} (hR : ∀ I n ds, ¬ R I n ds) (I J : Interp D) : LeastClosed R I J ↔ J = I := by
  constructor
  · intro h
    obtain ⟨h1, h2, h3, h4⟩ := h
    cases J
    cases I
    simp only at h1 h2 h3 h4
    subst h1 h2 h3
    congr 1
    funext n ds
    refine propext ((h4 n ds).trans ⟨fun h => h _ (fun _ _ h => h) (fun n ds h => (hR _ n ds h).elim), fun h S h1 _ => h1 n ds h⟩)
  · rintro rfl
    exact ⟨rfl, rfl, rfl, fun n ds => ⟨fun h S h1 _ => h1 n ds h, fun h => h _ (fun _ _ h => h) (fun n ds h => (hR _ n ds h).elim)⟩⟩

theorem C92_runs_none {D : Type} {R : RuleSet D} (hR : ∀ I n ds, ¬ R I n ds) (ρ : Str → D) (gs : List Action) (I J : Interp D) :
    RunsBy (LeastClosed R) ρ gs I J ↔ Runs ρ gs I J := by
  constructor
  · intro h
    induction h with
    | nil => exact .nil
    | cons h1 h2 _ ih =>
      rw [C92_none hR] at h1
      subst h1
      exact .cons h2 ih
  · intro h
    induction h with
    | nil => exact .nil
    | cons h1 _ ih => exact .cons ((C92_none hR _ _).2 rfl) h1 ih

/-! ### A text that meets the conditions -/

def aboveDomain : Str := s%"(define (domain d) (:requirements :adl :derived-predicates) (:types block) (:predicates (on ?x ?y - block) (above ?x ?y - block))
  (:derived (above ?x ?y) (or (on ?x ?y) (exists (?z - block) (and (on ?x ?z) (above ?z ?y))))))"

def atomText (n : Str) (xs : List Str) : Tree := .node (word n :: xs.flatMap varTrees)

def aboveCond : Tree := .node [word s%"or", atomText s%"on" [s%"x", s%"y"], .node [word s%"exists",
  .node (varTrees s%"z" ++ [.atom .minus, word s%"block"]), .node [word s%"and", atomText s%"on" [s%"x", s%"z"], atomText s%"above" [s%"z", s%"y"]]]]

def aboveSections : DomainSections where
  name := s%"d"
  reqs := some [.atom (.kw s%"adl"), .atom (.kw s%"derived-predicates")]
  types := some [word s%"block"]
  constants := none
  predicates := some [.node (word s%"on" :: ([s%"x", s%"y"].flatMap varTrees ++ [.atom .minus, word s%"block"])),
    .node (word s%"above" :: ([s%"x", s%"y"].flatMap varTrees ++ [.atom .minus, word s%"block"]))]
  functions := none
  structures := [section_ s%"derived" [.node (word s%"above" :: [s%"x", s%"y"].flatMap varTrees), aboveCond]]

example : (match parseDomain (fun _ => none) .fresh aboveDomain with | .ok (d, _) => decide (d.derived.length = 1) | _ => false) = true := by
  decide +kernel

example : ∃ t, Brackets (lex aboveDomain) [t] ∧ aboveSections.Of t := by
  refine ⟨.node (word s%"define" :: .node [word s%"domain", word s%"d"] :: _), readText_brackets.1 ?_, .node [word s%"domain", word s%"d"], ⟨_, rfl, Keyword.word _⟩, rfl⟩
  decide +kernel

example : PlainDerived (fun _ => none) aboveSections := by
  have key : ∀ {n b c}, section_ s%"derived" [.node (word n :: b), c] ∈ aboveSections.structures →
      n = s%"above" ∧ b = [s%"x", s%"y"].flatMap varTrees ∧ c = aboveCond := by
    intro n b c h
    simpa [aboveSections, section_, word, varTrees, and_assoc] using h
  refine ⟨?_, ?_, ?_⟩
  · intro n b c b1 b2 h h1 h2
    obtain ⟨rfl, _, _⟩ := key h
    simp [aboveSections, word] at h1 h2
    rw [h1, h2]
  · intro n b c l h hv
    obtain ⟨rfl, rfl, _⟩ := key h
    rw [hv.names]
    decide +kernel
  · intro n b c h
    obtain ⟨_, _, rfl⟩ := key h
    exact keeps_of_check (by decide +kernel)

/-! ### The full statement is false -/

/-- The variable `?x` stands for two arguments of different types. -/
def twiceDomain : Str := s%"(define (domain d) (:requirements :derived-predicates :typing) (:types t u) (:predicates (p ?a - t ?b - u) (q ?a)) (:derived (p ?x ?x) (q ?x)))"

def twiceDerived : Derived := ⟨⟨s%"p", [.var ⟨s%"x", [s%"u"]⟩, .var ⟨s%"x", [s%"u"]⟩]⟩, .pred ⟨s%"q", [.var ⟨s%"x", [s%"u"]⟩]⟩⟩

/-- C92 is false: both arguments get the type of the second, so that objects which are not of the type of the first
are derived. -/
theorem C92_fails : ¬ C92_full := by
  intro H
  have h0 : (match parseDomain (fun _ => none) .fresh twiceDomain with | .ok (d, _) => decide (d.derived = [twiceDerived]) | _ => false) = true := by
    decide +kernel
  cases h1 : parseDomain (fun _ => none) .fresh twiceDomain with
  | error e => rw [h1] at h0; cases h0
  | ok r =>
    obtain ⟨d, σ'⟩ := r
    rw [h1] at h0
    have h0 : d.derived = [twiceDerived] := by simpa using h0
    obtain ⟨t, s, ht, hs, _, h⟩ := H _ _ _ _ _ .fresh h1
    let I : Interp Unit := ⟨fun _ => (), fun n _ => n = s%"u", fun n _ => n = s%"q", fun _ _ => none⟩
    let lit : Str → Option Rat := fun s => (numLiteral (fun _ => none) s).toOption.bind numVal
    have hlit : LitOk lit (fun _ => none) := by
      intro s n h
      simp [lit, h, Except.toOption]
    have hder : Derives (fun _ => ()) d.derived I s%"p" [(), ()] := by
      rw [h0]
      refine ⟨twiceDerived, by simp, rfl, fun _ => (), fun _ _ => rfl, rfl, ?_, ?_⟩
      · intro v hv
        simp [twiceDerived] at hv
        subst hv
        exact .inr ⟨s%"u", by simp, rfl⟩
      · simp [twiceDerived, holds, I]
    obtain ⟨b, c, l, b', l', ρ', k1, k2, k3, k4, _, _, _, k5, _⟩ := (h Unit I (fun _ => ()) lit s%"p" [(), ()] hlit).1 hder
    have e := readText_brackets.2 ht
    have e' : readText twiceDomain = .ok [.node [word s%"define", .node [word s%"domain", word s%"d"],
      section_ s%"requirements" [.atom (.kw s%"derived-predicates"), .atom (.kw s%"typing")], section_ s%"types" [word s%"t", word s%"u"],
      section_ s%"predicates" [.node (word s%"p" :: (varTrees s%"a" ++ [.atom .minus, word s%"t"] ++ varTrees s%"b" ++ [.atom .minus, word s%"u"])), atomText s%"q" [s%"a"]],
      section_ s%"derived" [atomText s%"p" [s%"x", s%"x"], atomText s%"q" [s%"x"]]]] := by decide +kernel
    rw [e'] at e
    obtain ⟨hd, _, e4⟩ := hs
    rw [e4] at e
    have e5 : s.structures = [section_ s%"derived" [atomText s%"p" [s%"x", s%"x"], atomText s%"q" [s%"x"]]] ∧
        s.predicates = some [.node (word s%"p" :: (varTrees s%"a" ++ [.atom .minus, word s%"t"] ++ varTrees s%"b" ++ [.atom .minus, word s%"u"])), atomText s%"q" [s%"a"]] := by
      obtain ⟨n, rq, ty, cs, ps, fs, st⟩ := s
      cases ps with
      | none => simp at k3
      | some ps =>
        cases rq <;> cases ty <;> cases cs <;> cases fs <;> simp [optText, section_, word] at e
        exact ⟨e.2.2.2.2.symm, congrArg some (by rw [← e.2.2.2.1]; simp [word])⟩
    rw [e5.1] at k1
    rw [e5.2] at k3
    have hb : b = [s%"x", s%"x"].flatMap varTrees := by
      simp [section_, atomText, word] at k1
      exact k1.1
    have hb' : b' = [s%"a"].flatMap varTrees ++ .atom .minus :: word s%"t" :: ([s%"b"].flatMap varTrees ++ .atom .minus :: word s%"u" :: [].flatMap varTrees) := by
      simp [atomText, word] at k3
      rw [k3]; rfl
    subst hb hb'
    have el := k2.unique (.rest _)
    have el' := k4.unique (.group (.one _) (.group (.one _) (.rest _)))
    subst el el'
    have := k5 ((s%"x", []), (s%"a", [s%"t"])) (by decide +kernel)
    simp [InRange, I] at this

/-- No predicate is declared in this text. -/
def undeclaredDomain : Str := s%"(define (domain e) (:requirements :derived-predicates :typing) (:derived (q ?x) (q ?x)))"

/-- A parser that is used again accepts a derived predicate that only the text before declares. The new text derives
nothing, as it declares nothing. -/
theorem C92_fails_reused : ∃ F σ text d σ', ParserState F σ ∧ parseDomain F σ text = .ok (d, σ') ∧
    ∀ t s, Brackets (lex text) [t] → s.Of t → DomainWritten F FunctionRead s d →
      ∃ (D : Type) (I : Interp D) (ρ : Str → D) (n : Str) (ds : List D), Derives ρ d.derived I n ds ∧
        ∀ lit, ¬ TextDerives lit s ρ I n ds := by
  have h0 : (match parseDomain (fun _ => none) .fresh twiceDomain with
    | .ok (_, σ) => match parseDomain (fun _ => none) σ undeclaredDomain with
      | .ok (d, _) => decide (d.derived = [⟨⟨s%"q", [.var ⟨s%"x", []⟩]⟩, .pred ⟨s%"q", [.var ⟨s%"x", []⟩]⟩⟩] ∧ d.predicates = [])
      | _ => false
    | _ => false) = true := by decide +kernel
  cases h1 : parseDomain (fun _ => none) .fresh twiceDomain with
  | error e => rw [h1] at h0; cases h0
  | ok r =>
    rw [h1] at h0
    simp only at h0
    cases h2 : parseDomain (fun _ => none) r.2 undeclaredDomain with
    | error e => rw [h2] at h0; cases h0
    | ok r2 =>
      rw [h2] at h0
      have h0 := of_decide_eq_true h0
      refine ⟨_, r.2, _, r2.1, r2.2, .parsed .fresh h1, h2, ?_⟩
      intro t s _ _ hw
      refine ⟨Unit, ⟨fun _ => (), fun _ _ => True, fun _ _ => True, fun _ _ => none⟩, fun _ => (), s%"q", [()], ?_, ?_⟩
      · rw [h0.1]
        exact ⟨_, List.mem_singleton.2 rfl, rfl, fun _ => (), fun _ _ => rfl, rfl, fun v hv => by simp at hv; subst hv; exact .inl rfl, by simp [holds]⟩
      · rintro lit ⟨b, c, l, b', l', ρ', _, _, k3, _⟩
        obtain ⟨p, hp, _⟩ := hw.allPredicates _ k3
        rw [h0.2] at hp
        simp at hp

end Pddl.Props
