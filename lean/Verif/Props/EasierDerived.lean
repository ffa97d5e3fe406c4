/-
C121: plans remain plans if actions are made easier and rules are added.
-/
import Verif.Proofs.EasierDerived
import Verif.Props.DerivedMore
import Verif.Props.Easier
import Verif.Props.ReadExecute
import Verif.Props.Rearranged

namespace Pddl.Props
open Spec Spec.Grammar

variable {F : FloatOf} {σ σ₂ : PState} {text text' : Str} {d d' : Domain} {τ τ₂ : PState} {ts ts' : List Tree} {r r' : DomainSections}
  {plan : Plan} {gs gs' : List Action}

/-- What is derived, from the text. -/
theorem derives_text (hσ : ParserState F σ) (h : parseDomain F σ text = .ok (d, τ)) (ht : Brackets (lex text) [.node ts])
    (hr : r.Of (.node ts)) (ho : RulesAndActions r) (hc : ClearDerived r) (hp : σ.preds = [] ∨ r.predicates ≠ none) {D : Type}
    {lit : Str → Option Rat} (hlit : LitOk lit F) (ρ : Str → D) (I : Interp D) (n : Str) (ds : List D) :
    Derives ρ d.derived I n ds ↔ ReadDerives F lit r ρ I n ds := by
  obtain ⟨ts1, hts1, hdd⟩ := parseDomain_ok h
  have e1 := readText_brackets.2 ht
  rw [hts1] at e1
  injection e1 with e1
  injection e1 with e1
  injection e1 with e1
  subst e1
  obtain ⟨Q⟩ := domainDef_ok hdd
  obtain rfl := sections_unique Q hr ho
  have hwords : ∀ w, Inside (.atom (.name w)) (.node ts1) → nameRegex w = true :=
    fun w hw => readText_words hts1 (t := .node ts1) (by simp) hw
  obtain ⟨h1, h2⟩ := Q.derivedReads hσ hwords hp
  exact reads_derives h1 h2 hc hlit ρ I n ds

/-- A domain text with more rules derives whatever the other one derives. -/
theorem C121_derives (hσ : ParserState F σ) (h : parseDomain F σ text = .ok (d, τ)) (ht : Brackets (lex text) [.node ts])
    (hr : r.Of (.node ts)) (ho : RulesAndActions r)
    (hσ₂ : ParserState F σ₂) (h₂ : parseDomain F σ₂ text' = .ok (d', τ₂)) (ht' : Brackets (lex text') [.node ts'])
    (hr' : r'.Of (.node ts')) (ho' : RulesAndActions r') (hM : MoreRules r r') (hc : ClearDerived r')
    (hp : r.predicates ≠ none) {D : Type} (ρ : Str → D) (I : Interp D) (n : Str) (ds : List D)
    (hd : Derives ρ d.derived I n ds) : Derives ρ d'.derived I n ds := by
  have hlit : LitOk (fun s => (numLiteral F s).toOption.bind numVal) F := by
    intro s n hs
    simp [hs, Except.toOption]
  have hc1 : ClearDerived r :=
    ⟨fun n b c b1 b2 h h1 h2 => hc.once n b c b1 b2 (hM.derived _ h) (by rwa [hM.predicates]) (by rwa [hM.predicates]),
      fun n b c l h hl => hc.vars n b c l (hM.derived _ h) hl⟩
  rw [derives_text hσ h ht hr ho hc1 (.inr hp) hlit] at hd
  rw [derives_text hσ₂ h₂ ht' hr' ho' hc (.inr (by rwa [hM.predicates])) hlit]
  obtain ⟨b, c, l, b', l', ρ', k1, k2, k3, k⟩ := hd
  exact ⟨b, c, l, b', l', ρ', hM.derived _ k1, k2, by rwa [hM.predicates], k⟩

theorem rules_fewer (hr : r.Of (.node ts)) (hr' : r'.Of (.node ts')) (hM : MoreRules r r') (hp : PositiveRules ts') :
    PositiveRules ts := by
  intro x c hm
  obtain ⟨_, ⟨l, rfl, hh⟩, e⟩ := hr
  obtain ⟨_, _, e'⟩ := hr'
  simp only [Tree.node.injEq] at e e'
  subst e e'
  refine hp x c (List.mem_cons_of_mem _ (List.mem_cons_of_mem _ (List.mem_append_right _ (hM.derived _ ?_))))
  simp only [List.mem_cons, List.mem_append] at hm
  rcases hm with hm | hm | ((((hm | hm) | hm) | hm) | hm) | hm
  · simp [section_, word] at hm
  · simp only [section_, Tree.node.injEq] at hm
    subst hm
    cases hh
  · exact absurd hm (notin_optText (by decide) _)
  · exact absurd hm (notin_optText (by decide) _)
  · exact absurd hm (notin_optText (by decide) _)
  · exact absurd hm (notin_optText (by decide) _)
  · exact absurd hm (notin_optText (by decide) _)
  · exact hm

/-- Two domain texts, the second with easier actions (as in C112) and perhaps more rules. If the conditions of its actions and rules
have no negation and no implication, a plan that can be carried out with derived predicates in the first domain can be carried out
with derived predicates in the second, from every state with more facts, with at least the same facts at the end. -/
theorem C121_runs (hσ : ParserState F σ) (h : parseDomain F σ text = .ok (d, τ)) (ht : Brackets (lex text) [.node ts])
    (hr : r.Of (.node ts)) (ho : RulesAndActions r)
    (hσ₂ : ParserState F σ₂) (h₂ : parseDomain F σ₂ text' = .ok (d', τ₂)) (ht' : Brackets (lex text') [.node ts'])
    (hr' : r'.Of (.node ts')) (ho' : RulesAndActions r') (H : Easier ts ts') (hM : MoreRules r r') (hc : ClearDerived r')
    (hp : r.predicates ≠ none) (hpos : PositiveActions ts') (hrules : PositiveRules ts') (hg : plan.inst d = .ok gs)
    (hg' : plan.inst d' = .ok gs') {D : Type} {ρ : Str → D} {I J I' : Interp D}
    (hrun : RunsBy (Completed (Derives ρ d.derived)) ρ gs I J) (hl : Larger I I') :
    ∃ J', Larger J J' ∧ RunsBy (Completed (Derives ρ d'.derived)) ρ gs' I' J' := by
  have hts := readText_brackets.2 ht
  have hts' := readText_brackets.2 ht'
  have e : Completed (Derives ρ d.derived) = LeastClosed (Derives ρ d.derived) := by
    funext A B
    exact propext (completed_iff (derived_rising hσ h hts (rules_fewer hr hr' hM hrules) ρ))
  have e' : Completed (Derives ρ d'.derived) = LeastClosed (Derives ρ d'.derived) := by
    funext A B
    exact propext (completed_iff (derived_rising hσ₂ h₂ hts' hrules ρ))
  rw [e] at hrun
  rw [e']
  exact relaxed_runsBy (fun I n ds => C121_derives hσ h ht hr ho hσ₂ h₂ ht' hr' ho' hM hc hp ρ I n ds)
    (plan_relaxed hσ h hts hσ₂ h₂ hts' H hg hg') (fun g hm => plan_definite hσ₂ h₂ hts' hg' hpos hm) hrun hl

/-- Every plan for a problem whose goal has no negation and no implication is a plan for it with the easier actions and the further
rules. -/
theorem C121_solves (hσ : ParserState F σ) (h : parseDomain F σ text = .ok (d, τ)) (ht : Brackets (lex text) [.node ts])
    (hr : r.Of (.node ts)) (ho : RulesAndActions r)
    (hσ₂ : ParserState F σ₂) (h₂ : parseDomain F σ₂ text' = .ok (d', τ₂)) (ht' : Brackets (lex text') [.node ts'])
    (hr' : r'.Of (.node ts')) (ho' : RulesAndActions r') (H : Easier ts ts') (hM : MoreRules r r') (hc : ClearDerived r')
    (hp : r.predicates ≠ none) (hpos : PositiveActions ts') (hrules : PositiveRules ts') (hg : plan.inst d = .ok gs)
    (hg' : plan.inst d' = .ok gs')
    {ptext : Str} {t : Tree} {s : ProblemSections} {p : Problem} {ν ν' : List (Str × Term)}
    (hpt : Brackets (lex ptext) [t]) (hs : s.Of t) (hprob : parseProblem F ν ptext = .ok (p, ν')) (hgoal : positiveText s.goal = true)
    {D : Type} {ρ : Str → D} {I : Interp D} (hsol : SolvesBy (Completed (Derives ρ d.derived)) ρ p gs I) :
    SolvesBy (Completed (Derives ρ d'.derived)) ρ p gs' I := by
  obtain ⟨h0, J, A, hrun, hA, hh⟩ := hsol
  obtain ⟨J', hJ, hrun'⟩ := C121_runs hσ h ht hr ho hσ₂ h₂ ht' hr' ho' H hM hc hp hpos hrules hg hg' hrun ⟨rfl, rfl, rfl, fun _ _ h => h⟩
  have hR := derived_rising hσ h (readText_brackets.2 ht) (rules_fewer hr hr' hM hrules) ρ
  have hR' := derived_rising hσ₂ h₂ (readText_brackets.2 ht') hrules ρ
  obtain ⟨A', hA', _⟩ := least_unique (Derives ρ d'.derived) J'
  refine ⟨h0, J', A', hrun', (completed_iff hR').2 hA', ?_⟩
  exact holds_larger (least_wider (fun I n ds => C121_derives hσ h ht hr ho hσ₂ h₂ ht' hr' ho' hM hc hp ρ I n ds)
    ((completed_iff hR).1 hA) hA' hJ) (goal_positive hpt hs hprob hgoal) hh

/-- Both at once: a plan for the problem in the first domain is a plan, in the domain with easier actions and more rules, for every
problem with more facts (as in C93), if it starts with the same values of the fluents. -/
theorem C121_task (hσ : ParserState F σ) (h : parseDomain F σ text = .ok (d, τ)) (ht : Brackets (lex text) [.node ts])
    (hr : r.Of (.node ts)) (ho : RulesAndActions r)
    (hσ₂ : ParserState F σ₂) (h₂ : parseDomain F σ₂ text' = .ok (d', τ₂)) (ht' : Brackets (lex text') [.node ts'])
    (hr' : r'.Of (.node ts')) (ho' : RulesAndActions r') (H : Easier ts ts') (hM : MoreRules r r') (hc : ClearDerived r')
    (hp : r.predicates ≠ none) (hpos : PositiveActions ts') (hrules : PositiveRules ts') (hg : plan.inst d = .ok gs)
    (hg' : plan.inst d' = .ok gs')
    {ptext ptext' : Str} {t t' : Tree} {s s' : ProblemSections} {l l' : NameList} {p : Problem} {ν : List (Str × Term)}
    (hpt : Brackets (lex ptext) [t]) (hs : s.Of t) (hl : s.Declares l)
    (hpt' : Brackets (lex ptext') [t']) (hs' : s'.Of t') (hl' : s'.Declares l') (A : AddsTo F s s' l l')
    (hprob : parseProblem F [] ptext = .ok (p, ν)) (hgoal : positiveText s.goal = true) :
    ∃ p' ν', parseProblem F [] ptext' = .ok (p', ν') ∧ ∀ (D : Type) (ρ : Str → D) (I I' : Interp D), StartsIn ρ p'.init I' →
      I'.const = I.const → I'.ty = I.ty → I'.fn = I.fn → SolvesBy (Completed (Derives ρ d.derived)) ρ p gs I →
      SolvesBy (Completed (Derives ρ d'.derived)) ρ p' gs' I' := by
  obtain ⟨p', ν', hp', C⟩ := C93_text hpt hs hl hpt' hs' hl' A hprob
  refine ⟨p', ν', hp', fun D ρ I I' hstart hcc hty hf => ?_⟩
  rintro ⟨h0, J, B, hrun, hB, hh⟩
  obtain ⟨J', hJ, hrun'⟩ := C121_runs hσ h ht hr ho hσ₂ h₂ ht' hr' ho' H hM hc hp hpos hrules hg hg' hrun
    (starts_larger C hcc hty hf h0 hstart)
  have hR := derived_rising hσ h (readText_brackets.2 ht) (rules_fewer hr hr' hM hrules) ρ
  have hR' := derived_rising hσ₂ h₂ (readText_brackets.2 ht') hrules ρ
  obtain ⟨B', hB', _⟩ := least_unique (Derives ρ d'.derived) J'
  refine ⟨hstart, J', B', hrun', (completed_iff hR').2 hB', ?_⟩
  rw [C.goal]
  exact holds_larger (least_wider (fun I n ds => C121_derives hσ h ht hr ho hσ₂ h₂ ht' hr' ho' hM hc hp ρ I n ds)
    ((completed_iff hR).1 hB) hB' hJ) (goal_positive hpt hs hprob hgoal) hh

/-! ### Leaving out deletions -/

theorem kept_section {k : Str} {b : List Tree} (h : k ≠ s%"action") : withoutDeletions (section_ k b) = section_ k b := by
  unfold withoutDeletions section_
  split
  · rename_i e
    simp only [Tree.node.injEq, List.cons.injEq, Tree.atom.injEq, Tok.kw.injEq] at e
    obtain ⟨rfl, rfl⟩ := e
    rw [if_neg h]
  · rfl

theorem kept_opt {k : Str} {o : Option (List Tree)} (h : k ≠ s%"action") : (optText k o).map withoutDeletions = optText k o := by
  cases o with
  | none => rfl
  | some b => simp only [optText, List.map_cons, List.map_nil, kept_section h]

theorem deletions_of (hr : r.Of (.node ts)) :
    DomainSections.Of (.node (ts.map withoutDeletions)) { r with structures := r.structures.map withoutDeletions } := by
  obtain ⟨h, hh, e⟩ := hr
  refine ⟨h, hh, ?_⟩
  simp only [Tree.node.injEq] at e
  have e2 : withoutDeletions h = h := by
    obtain ⟨l, rfl, hk⟩ := hh
    generalize [word r.name] = q at hk
    cases hk <;> rfl
  rw [e]
  simp only [List.map_cons, List.map_append, e2]
  rw [kept_opt (by decide), kept_opt (by decide), kept_opt (by decide), kept_opt (by decide), kept_opt (by decide)]
  rfl

/-- With derived predicates too, a plan solves the problem without deletions: whoever finds no plan for the problem without deletions
knows that there is none for the problem. -/
theorem C121_deletions (hσ : ParserState F σ) (h : parseDomain F σ text = .ok (d, τ)) (ht : Brackets (lex text) [.node ts])
    (hr : r.Of (.node ts)) (ho : RulesAndActions r)
    (hσ₂ : ParserState F σ₂) (h₂ : parseDomain F σ₂ text' = .ok (d', τ₂)) (ht' : Brackets (lex text') [.node (ts.map withoutDeletions)])
    (hn : ∀ n ps pre eff ps' pre' eff', actionText n ps pre eff ∈ ts → actionText n ps' pre' eff' ∈ ts → ps = ps' ∧ pre = pre' ∧ eff = eff')
    (hc : ClearDerived r) (hp : r.predicates ≠ none) (hpos : PositiveActions ts) (hrules : PositiveRules ts)
    (hg : plan.inst d = .ok gs) (hg' : plan.inst d' = .ok gs')
    {ptext : Str} {t : Tree} {s : ProblemSections} {p : Problem} {ν ν' : List (Str × Term)}
    (hpt : Brackets (lex ptext) [t]) (hs : s.Of t) (hprob : parseProblem F ν ptext = .ok (p, ν')) (hgoal : positiveText s.goal = true)
    {D : Type} {ρ : Str → D} {I : Interp D} (hsol : SolvesBy (Completed (Derives ρ d.derived)) ρ p gs I) :
    SolvesBy (Completed (Derives ρ d'.derived)) ρ p gs' I := by
  have hback : ∀ b, section_ s%"derived" b ∈ r.structures.map withoutDeletions → section_ s%"derived" b ∈ r.structures := by
    intro b hb
    obtain ⟨u, hu, e⟩ := List.mem_map.1 hb
    rcases ho u hu with ⟨b', rfl⟩ | ⟨b', rfl⟩
    · rw [kept_section (by decide)] at e
      rwa [e] at hu
    · exfalso
      unfold withoutDeletions section_ at e
      split at e
      · rename_i e1
        simp only [Tree.node.injEq, List.cons.injEq, Tree.atom.injEq, Tok.kw.injEq] at e e1
        exact absurd (e1.1.trans e.1) (by decide)
      · simp only [Tree.node.injEq, List.cons.injEq, Tree.atom.injEq, Tok.kw.injEq] at e
        exact absurd e.1 (by decide)
  have hof := deletions_of hr
  refine C121_solves hσ h ht hr ho hσ₂ h₂ ht' hof ?_ (C112_easier hn) ⟨rfl, ?_⟩ ⟨?_, ?_⟩ hp ?_ ?_ hg hg' hpt hs hprob hgoal hsol
  · intro u hu
    obtain ⟨v, hv, rfl⟩ := List.mem_map.1 hu
    rcases ho v hv with ⟨b, rfl⟩ | ⟨b, rfl⟩
    · exact .inl ⟨b, kept_section (by decide)⟩
    · refine .inr ?_
      unfold withoutDeletions section_
      split
      · rename_i e1
        simp only [Tree.node.injEq, List.cons.injEq, Tree.atom.injEq, Tok.kw.injEq] at e1
        obtain ⟨rfl, _⟩ := e1
        exact ⟨_, rfl⟩
      · exact ⟨_, rfl⟩
  · intro b hb
    exact List.mem_map.2 ⟨_, hb, kept_section (by decide)⟩
  · intro n b c b1 b2 hm
    exact hc.once n b c b1 b2 (hback _ hm)
  · intro n b c l hm
    exact hc.vars n b c l (hback _ hm)
  · intro n ps pre eff hm
    obtain ⟨t, ht, he⟩ := List.mem_map.1 hm
    unfold withoutDeletions at he
    split at he
    · simp only [actionText, Tree.node.injEq, List.cons.injEq, Tree.atom.injEq, Tok.kw.injEq, and_true] at he
      obtain ⟨rfl, rfl, rfl, rfl, rfl, rfl, rfl, rfl⟩ := he
      exact hpos _ _ _ _ ht
    · subst he
      exact hpos _ _ _ _ ht
  · refine rules_fewer hof hr ⟨rfl, ?_⟩ hrules
    exact hback

/-! ### A case -/

/-- The action of C120, and its rule. -/
def deriveRule : Tree := section_ s%"derived" [.node (word s%"r" :: varTrees s%"x"), .node (word s%"q" :: varTrees s%"x")]
def deriveAct (eff : List Tree) : Tree :=
  actionText s%"m" (varTrees s%"x" ++ varTrees s%"y") (.node (word s%"r" :: varTrees s%"x")) (.node (word s%"and" :: eff))

def deriveSections : DomainSections := ⟨s%"d", some [.atom (.kw s%"adl"), .atom (.kw s%"derived-predicates")], none, none,
  some [.node (word s%"q" :: varTrees s%"x"), .node (word s%"r" :: varTrees s%"x")], none,
  [deriveRule, deriveAct [.node [word s%"not", .node (word s%"q" :: varTrees s%"x")], .node (word s%"q" :: varTrees s%"y")]]⟩

/-- The same without the deletion, and with a rule that anything has `r` once something has `q`. -/
def easeText : Str := s%"(define (domain d) (:requirements :adl :derived-predicates) (:predicates (q ?x) (r ?x)) (:derived (r ?x) (q ?x))
  (:derived (r ?x) (exists (?y) (q ?y))) (:action m :parameters (?x ?y) :precondition (r ?x) :effect (and (q ?y))))"

def easeRule : Tree := section_ s%"derived" [.node (word s%"r" :: varTrees s%"x"),
  .node [word s%"exists", .node (varTrees s%"y"), .node (word s%"q" :: varTrees s%"y")]]

def easeSections : DomainSections := { deriveSections with
  structures := [deriveRule, easeRule, deriveAct [.node (word s%"q" :: varTrees s%"y")]] }

def easeTrees : List Tree := match readText easeText with | .ok [.node ts] => ts | _ => []

/-- The ground action `(m a b)` of it. -/
def easeAction : Action := ⟨s%"m", [.const s%"a" none, .const s%"b" none], some (.pred ⟨s%"r", [.const s%"a" none]⟩),
  some (.pred ⟨s%"q", [.const s%"b" none]⟩)⟩

theorem derive_of : deriveSections.Of (.node deriveTrees) ∧ readText deriveText = .ok [.node deriveTrees] := by
  refine ⟨⟨.node [word s%"domain", word s%"d"], ⟨_, rfl, .word _⟩, ?_⟩, by decide +kernel⟩
  decide +kernel

theorem ease_of : easeSections.Of (.node easeTrees) ∧ readText easeText = .ok [.node easeTrees] := by
  refine ⟨⟨.node [word s%"domain", word s%"d"], ⟨_, rfl, .word _⟩, ?_⟩, by decide +kernel⟩
  decide +kernel

theorem derive_trees : deriveTrees = [word s%"define", .node [word s%"domain", word s%"d"],
    section_ s%"requirements" [.atom (.kw s%"adl"), .atom (.kw s%"derived-predicates")],
    section_ s%"predicates" [.node (word s%"q" :: varTrees s%"x"), .node (word s%"r" :: varTrees s%"x")], deriveRule,
    deriveAct [.node [word s%"not", .node (word s%"q" :: varTrees s%"x")], .node (word s%"q" :: varTrees s%"y")]] := by decide +kernel

theorem ease_trees : easeTrees = [word s%"define", .node [word s%"domain", word s%"d"],
    section_ s%"requirements" [.atom (.kw s%"adl"), .atom (.kw s%"derived-predicates")],
    section_ s%"predicates" [.node (word s%"q" :: varTrees s%"x"), .node (word s%"r" :: varTrees s%"x")], deriveRule, easeRule,
    deriveAct [.node (word s%"q" :: varTrees s%"y")]] := by decide +kernel

theorem ease_clear : ClearDerived easeSections := by
  refine ⟨fun n b c b1 b2 _ h1 h2 => ?_, fun n b c l h hl => ?_⟩
  · simp [easeSections, deriveSections, word] at h1 h2
    rcases h1 with ⟨_, rfl⟩ | ⟨_, rfl⟩ <;> rcases h2 with ⟨_, rfl⟩ | ⟨_, rfl⟩ <;> rfl
  · have hb : b = [s%"x"].flatMap varTrees := by
      simp [easeSections, deriveRule, easeRule, deriveAct, actionText, section_, word] at h
      rcases h with h | h
      · simp [h]
      · simp [h]
    subst hb
    rw [hl.unique (.rest [s%"x"])]
    decide +kernel

example : ∃ d τ d' τ₂, parseDomain (fun _ => none) .fresh deriveText = .ok (d, τ) ∧
    parseDomain (fun _ => none) .fresh easeText = .ok (d', τ₂) ∧
    shiftPlan.inst d = .ok [deriveAction] ∧ shiftPlan.inst d' = .ok [easeAction] ∧
    ∀ (D : Type) (ρ : Str → D) (I J : Interp D), RunsBy (Completed (Derives ρ d.derived)) ρ [deriveAction] I J →
      ∃ J', Larger J J' ∧ RunsBy (Completed (Derives ρ d'.derived)) ρ [easeAction] I J' := by
  have h1 : (match parseDomain (fun _ => none) .fresh deriveText with
      | .ok (d, _) => decide (shiftPlan.inst d = .ok [deriveAction]) | .error _ => false) = true := by decide +kernel
  have h2 : (match parseDomain (fun _ => none) .fresh easeText with
      | .ok (d, _) => decide (shiftPlan.inst d = .ok [easeAction]) | .error _ => false) = true := by decide +kernel
  cases k1 : parseDomain (fun _ => none) .fresh deriveText with
  | error e => rw [k1] at h1; cases h1
  | ok r1 =>
  cases k2 : parseDomain (fun _ => none) .fresh easeText with
  | error e => rw [k2] at h2; cases h2
  | ok r2 =>
    rw [k1] at h1
    rw [k2] at h2
    have g1 : shiftPlan.inst r1.1 = .ok [deriveAction] := by simpa using h1
    have g2 : shiftPlan.inst r2.1 = .ok [easeAction] := by simpa using h2
    refine ⟨r1.1, r1.2, r2.1, r2.2, rfl, rfl, g1, g2, fun D ρ I J hrun => ?_⟩
    have t1 : ∀ n ps pre eff, actionText n ps pre eff ∈ deriveTrees → ps = varTrees s%"x" ++ varTrees s%"y" ∧
        pre = .node (word s%"r" :: varTrees s%"x") ∧
        eff = .node [word s%"and", .node [word s%"not", .node (word s%"q" :: varTrees s%"x")], .node (word s%"q" :: varTrees s%"y")] := by
      intro n ps pre eff hm
      rw [derive_trees] at hm
      simp only [deriveRule, easeRule, deriveAct, actionText, section_, word, List.mem_cons, List.not_mem_nil, or_false, Tree.node.injEq,
        List.cons.injEq, Tree.atom.injEq, Tok.kw.injEq, reduceCtorEq, false_and, and_false, false_or, true_and, and_true] at hm
      simp at hm
      exact ⟨hm.2.1, hm.2.2.1, hm.2.2.2⟩
    have t2 : ∀ n ps pre eff, actionText n ps pre eff ∈ easeTrees → ps = varTrees s%"x" ++ varTrees s%"y" ∧
        pre = .node (word s%"r" :: varTrees s%"x") ∧ eff = .node [word s%"and", .node (word s%"q" :: varTrees s%"y")] := by
      intro n ps pre eff hm
      rw [ease_trees] at hm
      simp only [deriveRule, easeRule, deriveAct, actionText, section_, word, List.mem_cons, List.not_mem_nil, or_false, Tree.node.injEq,
        List.cons.injEq, Tree.atom.injEq, Tok.kw.injEq, reduceCtorEq, false_and, and_false, false_or, true_and, and_true] at hm
      simp at hm
      exact ⟨hm.2.1, hm.2.2.1, hm.2.2.2⟩
    refine C121_runs .fresh k1 (readText_brackets.1 derive_of.2) derive_of.1 ?_ .fresh k2 (readText_brackets.1 ease_of.2) ease_of.1 ?_ ?_
      ⟨rfl, ?_⟩ ease_clear (by simp [deriveSections]) ?_ ?_ g1 g2 hrun ⟨rfl, rfl, rfl, fun _ _ h => h⟩
    · intro t ht
      simp only [deriveSections, List.mem_cons, List.not_mem_nil, or_false] at ht
      rcases ht with rfl | rfl
      · exact .inl ⟨_, rfl⟩
      · exact .inr ⟨_, rfl⟩
    · intro t ht
      simp only [easeSections, List.mem_cons, List.not_mem_nil, or_false] at ht
      rcases ht with rfl | rfl | rfl
      · exact .inl ⟨_, rfl⟩
      · exact .inl ⟨_, rfl⟩
      · exact .inr ⟨_, rfl⟩
    · intro n ps pre eff ps' pre' eff' m1 m2
      obtain ⟨rfl, rfl, rfl⟩ := t1 _ _ _ _ m1
      obtain ⟨rfl, rfl, rfl⟩ := t2 _ _ _ _ m2
      refine ⟨rfl, fun _ h => h, ?_, ?_⟩
      · intro t ht
        simp only [conjuncts, word, if_true, List.mem_cons, List.not_mem_nil, or_false] at ht
        rcases ht with rfl | rfl
        · exact .inr (.inl ⟨_, rfl⟩)
        · exact .inl (by simp [conjuncts, word])
      · intro t ht
        simp only [conjuncts, word, if_true, List.mem_cons, List.not_mem_nil, or_false] at ht
        subst ht
        exact .inl (by simp [conjuncts, word])
    · intro b hb
      simp only [deriveSections, List.mem_cons, List.not_mem_nil, or_false] at hb
      rcases hb with hb | hb
      · rw [hb]
        simp [easeSections]
      · simp [deriveAct, actionText, section_] at hb
    · intro n ps pre eff hm
      rw [(t2 _ _ _ _ hm).2.1]
      decide +kernel
    · intro x c hm
      rw [ease_trees] at hm
      have hc : c = .node (word s%"q" :: varTrees s%"x") ∨
          c = .node [word s%"exists", .node (varTrees s%"y"), .node (word s%"q" :: varTrees s%"y")] := by
        simp [deriveRule, easeRule, deriveAct, actionText, section_, word] at hm
        simp only [word]
        tauto
      rcases hc with rfl | rfl <;> decide +kernel

/-- The text of C120 without the deletion. -/
def keepText : Str := s%"(define (domain d) (:requirements :adl :derived-predicates) (:predicates (q ?x) (r ?x)) (:derived (r ?x) (q ?x))
  (:action m :parameters (?x ?y) :precondition (r ?x) :effect (and (q ?y))))"

/-- `C121_deletions` applies to it. -/
example : ∃ d τ d' τ₂ p ν, parseDomain (fun _ => none) .fresh deriveText = .ok (d, τ) ∧
    parseDomain (fun _ => none) .fresh keepText = .ok (d', τ₂) ∧ parseProblem (fun _ => none) [] fewProblem = .ok (p, ν) ∧
    shiftPlan.inst d = .ok [deriveAction] ∧ shiftPlan.inst d' = .ok [easeAction] ∧
    ∀ (D : Type) (ρ : Str → D) (I : Interp D), SolvesBy (Completed (Derives ρ d.derived)) ρ p [deriveAction] I →
      SolvesBy (Completed (Derives ρ d'.derived)) ρ p [easeAction] I := by
  have h1 : (match parseDomain (fun _ => none) .fresh deriveText with
      | .ok (d, _) => decide (shiftPlan.inst d = .ok [deriveAction]) | .error _ => false) = true := by decide +kernel
  have h2 : (match parseDomain (fun _ => none) .fresh keepText with
      | .ok (d, _) => decide (shiftPlan.inst d = .ok [easeAction]) | .error _ => false) = true := by decide +kernel
  have h3 : (parseProblem (fun _ => none) [] fewProblem).isOk = true := by decide +kernel
  obtain ⟨t, ht, hs⟩ := few_of
  cases k1 : parseDomain (fun _ => none) .fresh deriveText with
  | error e => rw [k1] at h1; cases h1
  | ok r1 =>
  cases k2 : parseDomain (fun _ => none) .fresh keepText with
  | error e => rw [k2] at h2; cases h2
  | ok r2 =>
  cases k3 : parseProblem (fun _ => none) [] fewProblem with
  | error e => rw [k3] at h3; cases h3
  | ok r3 =>
    rw [k1] at h1
    rw [k2] at h2
    have g1 : shiftPlan.inst r1.1 = .ok [deriveAction] := by simpa using h1
    have g2 : shiftPlan.inst r2.1 = .ok [easeAction] := by simpa using h2
    refine ⟨r1.1, r1.2, r2.1, r2.2, r3.1, r3.2, rfl, rfl, rfl, g1, g2, fun D ρ I hsol => ?_⟩
    have t1 : ∀ n ps pre eff, actionText n ps pre eff ∈ deriveTrees → ps = varTrees s%"x" ++ varTrees s%"y" ∧
        pre = .node (word s%"r" :: varTrees s%"x") ∧
        eff = .node [word s%"and", .node [word s%"not", .node (word s%"q" :: varTrees s%"x")], .node (word s%"q" :: varTrees s%"y")] := by
      intro n ps pre eff hm
      rw [derive_trees] at hm
      simp only [deriveRule, deriveAct, actionText, section_, word, List.mem_cons, List.not_mem_nil, or_false, Tree.node.injEq,
        List.cons.injEq, Tree.atom.injEq, Tok.kw.injEq, reduceCtorEq, and_false, false_or, true_and, and_true] at hm
      simp at hm
      exact ⟨hm.2.1, hm.2.2.1, hm.2.2.2⟩
    have hm : ∀ b, section_ s%"derived" b ∈ deriveSections.structures → section_ s%"derived" b ∈ easeSections.structures := by
      intro b hb
      simp only [deriveSections, List.mem_cons, List.not_mem_nil, or_false] at hb
      rcases hb with hb | hb
      · rw [hb]
        simp [easeSections]
      · simp [deriveAct, actionText, section_] at hb
    refine C121_deletions .fresh k1 (readText_brackets.1 derive_of.2) derive_of.1 ?_ .fresh k2 (readText_brackets.1 (by decide +kernel)) ?_
      ⟨fun n b c b1 b2 h => ease_clear.once n b c b1 b2 (hm _ h), fun n b c l h => ease_clear.vars n b c l (hm _ h)⟩
      (by simp [deriveSections]) ?_ ?_ g1 g2 ht hs k3 (by decide +kernel) hsol
    · intro t ht
      simp only [deriveSections, List.mem_cons, List.not_mem_nil, or_false] at ht
      rcases ht with rfl | rfl
      · exact .inl ⟨_, rfl⟩
      · exact .inr ⟨_, rfl⟩
    · intro n ps pre eff ps' pre' eff' m1 m2
      obtain ⟨rfl, rfl, rfl⟩ := t1 _ _ _ _ m1
      obtain ⟨rfl, rfl, rfl⟩ := t1 _ _ _ _ m2
      exact ⟨rfl, rfl, rfl⟩
    · intro n ps pre eff hm
      rw [(t1 _ _ _ _ hm).2.1]
      decide +kernel
    · intro x c hm
      rw [derive_trees] at hm
      simp [deriveRule, deriveAct, actionText, section_, word] at hm
      rw [hm.2]
      decide +kernel

/-! ### Negation -/

/-- An action with a negation in its precondition. -/
def shunText : Str := s%"(define (domain d) (:requirements :adl :derived-predicates) (:predicates (p) (q))
  (:action m :parameters () :precondition (not (p)) :effect (q)))"

/-- The same with a rule. -/
def shunRuleText : Str := s%"(define (domain d) (:requirements :adl :derived-predicates) (:predicates (p) (q)) (:derived (p) (q))
  (:action m :parameters () :precondition (not (p)) :effect (q)))"

def shunAction : Action := ⟨s%"m", [], some (.not (.pred ⟨s%"p", []⟩)), some (.pred ⟨s%"q", []⟩)⟩

/-- With a negation in a precondition, a further rule can take plans away. -/
theorem C121_negative : ∃ d τ d' τ₂, parseDomain (fun _ => none) .fresh shunText = .ok (d, τ) ∧
    parseDomain (fun _ => none) .fresh shunRuleText = .ok (d', τ₂) ∧ Plan.inst ⟨[(s%"m", [])]⟩ d = .ok [shunAction] ∧
    Plan.inst ⟨[(s%"m", [])]⟩ d' = .ok [shunAction] ∧
    ∃ I : Interp Unit, (∃ J, RunsBy (Completed (Derives (fun _ => ()) d.derived)) (fun _ => ()) [shunAction] I J) ∧
      ¬ ∃ J, RunsBy (Completed (Derives (fun _ => ()) d'.derived)) (fun _ => ()) [shunAction] I J := by
  have h1 : (match parseDomain (fun _ => none) .fresh shunText with
      | .ok (d, _) => decide (Plan.inst ⟨[(s%"m", [])]⟩ d = .ok [shunAction]) && decide (d.derived = []) | .error _ => false) = true := by
    decide +kernel
  have h2 : (match parseDomain (fun _ => none) .fresh shunRuleText with
      | .ok (d, _) => decide (Plan.inst ⟨[(s%"m", [])]⟩ d = .ok [shunAction]) &&
          decide (d.derived = [⟨⟨s%"p", []⟩, .pred ⟨s%"q", []⟩⟩]) | .error _ => false) = true := by decide +kernel
  cases k1 : parseDomain (fun _ => none) .fresh shunText with
  | error e => rw [k1] at h1; cases h1
  | ok r1 =>
  cases k2 : parseDomain (fun _ => none) .fresh shunRuleText with
  | error e => rw [k2] at h2; cases h2
  | ok r2 =>
    rw [k1] at h1
    rw [k2] at h2
    simp only [Bool.and_eq_true, decide_eq_true_eq] at h1 h2
    let I : Interp Unit := ⟨fun _ => (), fun _ _ => True, fun n ds => n = s%"q" ∧ ds = [], fun _ _ => none⟩
    refine ⟨r1.1, r1.2, r2.1, r2.2, rfl, rfl, h1.1, h2.1, I, ⟨I, .cons (I' := I) (J := I) ⟨rfl, rfl, rfl, ?_, ?_⟩ ⟨?_, rfl, rfl, ?_, ?_, ?_⟩ .nil⟩, ?_⟩
    · intro n ds
      rw [h1.2]
      simp [Derives]
    · intro J' e1 e2 e3 hJ
      exact ⟨e1, e2, e3, fun n ds h => (hJ n ds).2 (.inl h)⟩
    · rintro _ ⟨rfl⟩
      simp [holds, I]
    · intro n ds
      simp [shunAction, makes, I]
    · intro f ds _
      rfl
    · rintro f ds op v ⟨e, ⟨rfl⟩, hm⟩
      simp [makes] at hm
    · rintro ⟨J, hr⟩
      cases hr with
      | cons hE ha _ =>
        refine ha.1 _ rfl ((hE.pred _ _).2 (.inr ?_))
        rw [h2.2]
        refine ⟨_, List.mem_singleton.2 rfl, rfl, fun _ => (), fun _ _ => rfl, rfl, by simp, ?_⟩
        exact (hE.pred _ _).2 (.inl ⟨rfl, rfl⟩)

end Pddl.Props
