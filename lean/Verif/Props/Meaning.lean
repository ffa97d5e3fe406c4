/-
What parsed conditions, effects and numeric expressions mean, compared with the text.
-/
import Verif.Proofs.Goal

namespace Pddl.Props
open Pddl Spec

/-! C46: `()` as a precondition and as an effect. -/

/-- In every accepted domain, an action whose precondition is written `()` has a precondition that holds in no
state (it is the empty disjunction). C46 says that it holds in every state. -/
theorem C46_precondition_never_holds {F : FloatOf} {σ : PState} {text : Str} {d : Domain} {σ' : PState}
    (hσ : ParserState F σ) (h : parseDomain F σ text = .ok (d, σ')) {a : Action} (ha : a ∈ d.actions) :
    ∃ ts n ps pre eff p, readText text = .ok [.node ts] ∧ actionText n ps pre eff ∈ ts ∧ a.name = n ∧
      a.pre = some p ∧ (pre = .node [] → ∀ (D : Type) (I : Interp D) ρ, ¬ holds I p ρ) := by
  obtain ⟨ts, n, ps, pre, eff, E, p, e, hr, hin, hn, hp, -, -, -, -, -, hpre, -⟩ := action_parts hσ h ha
  refine ⟨ts, n, ps, pre, eff, p, hr, hin, hn, hp, ?_⟩
  rintro rfl D I ρ
  simp only [GEnv.preGd, pure_ok, Except.ok.injEq] at hpre
  subst hpre
  rw [holds_mkOr]
  simp

/-- A domain with an action that has an empty precondition and an empty effect. -/
def emptyText : Str := s%"(define (domain d) (:predicates (p))
  (:action a :parameters () :precondition () :effect ()))"

/-- The empty precondition is not true in every state: C46 fails. -/
theorem C46_precondition_fails : ∃ d σ' a p, parseDomain (fun _ => none) .fresh emptyText = .ok (d, σ') ∧
    d.actions = [a] ∧ a.pre = some p ∧ ∀ (D : Type) (I : Interp D) ρ, ¬ holds I p ρ := by
  have key : (match parseDomain (fun _ => none) .fresh emptyText with
      | .ok (d, _) => decide (d.actions.map (fun a => a.pre) = [some (.bin .or [])])
      | .error _ => false) = true := by decide +kernel
  cases h : parseDomain (fun _ => none) .fresh emptyText with
  | error e => rw [h] at key; simp at key
  | ok r =>
    rw [h] at key
    simp only [decide_eq_true_eq] at key
    match hd : r.1.actions with
    | [] => rw [hd] at key; simp at key
    | [a] =>
      rw [hd] at key
      simp only [List.map_cons, List.map_nil, List.cons.injEq, and_true] at key
      exact ⟨r.1, r.2, a, .bin .or [], rfl, hd, key, fun D I ρ => by simp [holds, holdsSome]⟩
    | _ :: _ :: _ => rw [hd] at key; simp at key

/-- The part of C46 about effects: an action whose effect is written `()` makes no change in any state. Missing:
the precondition, for which C46 is false. -/
theorem C46_effect_partial {F : FloatOf} {σ : PState} {text : Str} {d : Domain} {σ' : PState}
    (hσ : ParserState F σ) (h : parseDomain F σ text = .ok (d, σ')) {a : Action} (ha : a ∈ d.actions) :
    ∃ ts n ps pre eff e, readText text = .ok [.node ts] ∧ actionText n ps pre eff ∈ ts ∧ a.name = n ∧
      a.eff = some e ∧ (eff = .node [] → ∀ (D : Type) (I : Interp D) c ρ, ¬ makes I c e ρ) := by
  obtain ⟨ts, n, ps, pre, eff, E, p, e, hr, hin, hn, -, he, -, -, -, -, -, heff, -⟩ := action_parts hσ h ha
  refine ⟨ts, n, ps, pre, eff, e, hr, hin, hn, he, ?_⟩
  rintro rfl D I c ρ
  simp only [GEnv.effOpt, pure_ok, Except.ok.injEq] at heff
  subst heff
  have : mkOr [] = .bin .or [] := by decide +kernel
  rw [this]
  simp [makes]

/-! C47: arithmetic. -/

/-- C47 holds where the parser keeps the operands as they are written. `KeepsOperands` excludes what C47 fails
for: equal operands of `+`, `*`, `/` and `=` (one is dropped) and quotients inside quotients (flattened). The
grammar accepts no difference `(- a b)`. -/
theorem C47_partial {D : Type} (I : Interp D) (lit : Str → Option Rat) {E : GEnv} (hE : ParserEnv E)
    (hlit : LitOk lit E.float) {t : Tree} {e : Expr} (h : E.fExp t = .ok e) (hk : KeepsOperands E t) (ρ : Str → D) :
    value I ρ e = treeValue I lit ρ t := FRel.sem I lit hE hlit (fExp_iff.1 h) hk

/-- `(+ 1 1)` is read as an expression with value 1: C47 fails. -/
theorem C47_fails {D : Type} (I : Interp D) (ρ : Str → D) (E : GEnv) (lit : Str → Option Rat)
    (hlit : LitOk lit E.float) :
    ∃ t e, readText s%"(+ 1 1)" = .ok [t] ∧ E.fExp t = .ok e ∧ treeValue I lit ρ t = some 2 ∧
      value I ρ e = some 1 := by
  refine ⟨.node [.atom .plus, .atom (.num s%"1"), .atom (.num s%"1")],
    construct (.fop .plus) [.num (.int 1), .num (.int 1)], by decide +kernel, by
      simp [GEnv.fExp, GEnv.fExps, numLiteral, check, digitsVal], ?_, ?_⟩
  · have : lit s%"1" = some 1 := by
      have := hlit s%"1" (.int 1) (by simp [numLiteral, digitsVal])
      rw [this]; simp [numVal]
    simp only [treeValue, treeValues, this, Option.bind_some, Option.map_some, arith, List.foldr]
    norm_num
  · have : construct (.fop .plus) [.num (.int 1), .num (.int 1)] = .bfun .plus [.num (.int 1)] := by decide +kernel
    rw [this]
    simp [value, values, numVal, arith]

/-- A quotient of quotients is read as a longer quotient: `(/ 8 (/ 4 2))` has value 1 instead of 4. -/
theorem C47_division_fails {D : Type} (I : Interp D) (ρ : Str → D) (E : GEnv) (lit : Str → Option Rat)
    (hlit : LitOk lit E.float) :
    ∃ t e, readText s%"(/ 8 (/ 4 2))" = .ok [t] ∧ E.fExp t = .ok e ∧ treeValue I lit ρ t = some 4 ∧
      value I ρ e = some 1 := by
  refine ⟨.node [.atom .divide, .atom (.num s%"8"), .node [.atom .divide, .atom (.num s%"4"), .atom (.num s%"2")]],
    construct (.fop .divide) [.num (.int 8), construct (.fop .divide) [.num (.int 4), .num (.int 2)]],
    by decide +kernel, by
      simp [GEnv.fExp, GEnv.fExps, numLiteral, check, digitsVal], ?_, ?_⟩
  · have h8 : lit s%"8" = some 8 := by
      have := hlit s%"8" (.int 8) (by simp [numLiteral, digitsVal])
      rw [this]; simp [numVal]
    have h4 : lit s%"4" = some 4 := by
      have := hlit s%"4" (.int 4) (by simp [numLiteral, digitsVal])
      rw [this]; simp [numVal]
    have h2 : lit s%"2" = some 2 := by
      have := hlit s%"2" (.int 2) (by simp [numLiteral, digitsVal])
      rw [this]; simp [numVal]
    simp only [treeValue, treeValues, h8, h4, h2, Option.bind_some, Option.map_some, arith, divVals]
    norm_num [arith, divVals]
  · have : construct (.fop .divide) [.num (.int 8), construct (.fop .divide) [.num (.int 4), .num (.int 2)]]
        = .bfun .divide [.num (.int 8), .num (.int 4), .num (.int 2)] := by decide +kernel
    rw [this]
    simp only [value, values, numVal, Option.bind_some, Option.map_some, arith, divVals]
    norm_num

/-- A difference of two expressions is never accepted. -/
theorem C47_difference_rejected (E : GEnv) (a b : Tree) (e : Expr) : E.fExp (.node [.atom .minus, a, b]) ≠ .ok e := by
  intro h
  cases fExp_iff.1 h

/-- The hypotheses of `C47_partial` hold for the text `(* 2 (+ (f ?x) 3))`. -/
example : ∃ t e, readText s%"(* 2 (+ (f ?x) 3))" = .ok [t] ∧ (goalEnv (fun _ => none)).fExp t = .ok e ∧
    KeepsOperands (goalEnv (fun _ => none)) t := by
  refine ⟨.node [.atom .times, .atom (.num s%"2"), .node [.atom .plus, .node [.atom (.name s%"f"), .atom .qmark,
      .atom (.name s%"x")], .atom (.num s%"3")]],
    .bfun .times [.num (.int 2), .bfun .plus [.nfun ⟨s%"f", [.var ⟨s%"x", []⟩]⟩, .num (.int 3)]],
    by decide +kernel, by decide +kernel, keeps_of_check (by decide +kernel)⟩

/-! C53: conditions. -/

/-- A written condition is read as a condition that says the same in every state. -/
theorem C53_condition {D : Type} (I : Interp D) (lit : Str → Option Rat) {E : GEnv} (hE : ParserEnv E)
    (hlit : LitOk lit E.float) {t : Tree} {e : Expr} (h : E.gd t = .ok e)
    (hw : ∀ w, Inside (.atom (.name w)) t → nameRegex w = true) (hk : KeepsOperands E t) (ρ : Str → D) :
    holds I e ρ ↔ treeHolds I lit t ρ := GRel.sem I lit hE hlit (gd_iff.1 h) hw hk ρ

/-- The precondition of every action of an accepted domain, if it is not `()`, says what is written, in every state,
provided the operands of each sum, product, quotient and equation are written differently (without types;
for texts without arithmetic `Spec.NoArithmetic.keeps`). -/
theorem C53_precondition {F : FloatOf} {σ : PState} {text : Str} {d : Domain} {σ' : PState}
    (hσ : ParserState F σ) (h : parseDomain F σ text = .ok (d, σ')) {a : Action} (ha : a ∈ d.actions) :
    ∃ ts n ps pre eff p, readText text = .ok [.node ts] ∧ actionText n ps pre eff ∈ ts ∧ a.name = n ∧
      a.pre = some p ∧ (pre ≠ .node [] → KeepsOperands (textEnv F) pre →
        ∀ (D : Type) (I : Interp D) lit ρ, LitOk lit F → (holds I p ρ ↔ treeHolds I lit pre ρ)) := by
  obtain ⟨ts, n, ps, pre, eff, E, p, e, hr, hin, hn, hp, -, hE, hP, rfl, -, hpre, -, hw⟩ := action_parts hσ h ha
  refine ⟨ts, n, ps, pre, eff, p, hr, hin, hn, hp, ?_⟩
  intro hne hk D I lit ρ hlit
  have hgd : E.gd pre = .ok p := by
    unfold GEnv.preGd at hpre
    split at hpre
    · exact absurd rfl hne
    · exact hpre
  exact C53_condition I lit hE hlit hgd
    (fun w hi => hw w (hi.trans (.node hin (.node (by simp) .refl)))) (hk.inEnv hP) ρ

/-- The goal of an accepted problem says what is written, in every state. -/
theorem C53_goal {F : FloatOf} {σ : List (Str × Term)} {text : Str} {p : Problem} {σ' : List (Str × Term)}
    (h : parseProblem F σ text = .ok (p, σ')) :
    ∃ ts g, readText text = .ok [.node ts] ∧ .node [.atom (.kw s%"goal"), g] ∈ ts ∧
      (KeepsOperands (goalEnv F) g →
        ∀ (D : Type) (I : Interp D) lit ρ, LitOk lit F → (holds I p.goal ρ ↔ treeHolds I lit g ρ)) := by
  obtain ⟨ts, hr, ⟨P⟩⟩ := parseProblem_ok h
  refine ⟨ts, P.g, hr, P.goal_mem, ?_⟩
  intro hk D I lit ρ hlit
  have hg : p.goal = P.goal := (mkProblem_fields P.hproblem).2.2.2.2.1
  rw [hg]
  exact C53_condition I lit (goalEnv_ok F) hlit P.hgoal
    (fun w hi => readText_words hr (t := .node ts) (by simp) (hi.trans (.node P.goal_mem (.node (by simp) .refl)))) hk ρ

/-- A domain with quantifiers, disjunction and equality, where `C53_precondition` applies. -/
def meaningText : Str := s%"(define (domain d) (:requirements :adl) (:types a b) (:constants k - a)
  (:predicates (p ?u - a ?v - b) (q))
  (:action m :parameters (?x - a)
    :precondition (and (forall (?w - b) (or (p ?x ?w) (not (= ?x k)))) (exists (?y - a) (imply (q) (p ?y ?y))))
    :effect (and (forall (?z - b) (when (p ?x ?z) (not (p ?x ?z)))) (q))))"

/-- Some part of the text is the written precondition of an action, and satisfies the check. -/
def somePart (text : Str) (f : Tree → Tree → Bool) : Bool :=
  match readText text with
  | .ok trees => (Tree.partss trees).any (fun t => match t with
      | .node [_, _, _, _, _, pre, _, eff] => f pre eff
      | _ => false)
  | .error _ => false

example : (match parseDomain (fun _ => none) .fresh meaningText with
    | .ok (d, _) => decide (d.actions.length = 1)
    | .error _ => false) = true := by decide +kernel

example : somePart meaningText (fun pre _ => pre.parts.all noArithAt && !decide (pre = .node [])) = true := by
  decide +kernel

/-- A domain with arithmetic over parameters and a constant, where `C53_precondition` and `C54_effect` apply. -/
def arithmeticText : Str := s%"(define (domain d) (:requirements :adl :numeric-fluents) (:types a) (:constants k - a)
  (:predicates (q)) (:functions (f ?u - a) (g))
  (:action m :parameters (?x - a ?y - a)
    :precondition (>= (+ (f ?x) (f ?y) (f k) (* (g) (- (f ?x)))) (/ (f ?x) 2))
    :effect (and (increase (f ?x) (+ (f ?y) (g) 1)) (q))))"

example : (match parseDomain (fun _ => none) .fresh arithmeticText with
    | .ok (d, _) => decide (d.actions.length = 1)
    | .error _ => false) = true := by decide +kernel

example : somePart arithmeticText (fun pre eff => pre.parts.all (keepsAt (textEnv (fun _ => none))) && !decide (pre = .node []) &&
    eff.parts.all (keepsAt (textEnv (fun _ => none))) && eff.parts.all noOneofAt) = true := by
  decide +kernel

/-! C54: effects. -/

/-- The effect of every action of an accepted domain, if it has no `oneof`, makes the changes that are written, in
every state, provided the operands of each sum, product, quotient and equation are written differently. -/
theorem C54_effect {F : FloatOf} {σ : PState} {text : Str} {d : Domain} {σ' : PState}
    (hσ : ParserState F σ) (h : parseDomain F σ text = .ok (d, σ')) {a : Action} (ha : a ∈ d.actions) :
    ∃ ts n ps pre eff e, readText text = .ok [.node ts] ∧ actionText n ps pre eff ∈ ts ∧ a.name = n ∧
      a.eff = some e ∧ (NoOneof eff → KeepsOperands (textEnv F) eff →
        ∀ (D : Type) (I : Interp D) lit c ρ, LitOk lit F → (makes I c e ρ ↔ treeMakes I lit c eff ρ)) := by
  obtain ⟨ts, n, ps, pre, eff, E, p, e, hr, hin, hn, -, he, hE, hP, rfl, hv, -, heff, hw⟩ := action_parts hσ h ha
  refine ⟨ts, n, ps, pre, eff, e, hr, hin, hn, he, ?_⟩
  intro ho hk D I lit c ρ hlit
  unfold GEnv.effOpt at heff
  split at heff
  · simp only [pure_ok, Except.ok.injEq] at heff
    subst heff
    have : mkOr [] = .bin .or [] := by decide +kernel
    rw [this]
    simp [makes, treeMakes]
  · exact ERel.sem I lit c hE hlit (effect_iff.1 heff)
      (fun w hi => hw w (hi.trans (.node hin (.node (by simp) .refl)))) (hk.inEnv hP) ho
      (fun _ toks r hr => by rw [hv] at hr; exact hr) ρ

/-- The same for any effect with arithmetic in which no operand is lost. -/
theorem C54_arithmetic {D : Type} (I : Interp D) (lit : Str → Option Rat) (c : Change D) {E : GEnv} (hE : ParserEnv E)
    (hv : E.typedVars = typedListVariable) (hlit : LitOk lit E.float) {t : Tree} {e : Expr} (h : E.effOpt t = .ok e)
    (hne : t ≠ .node []) (hw : ∀ w, Inside (.atom (.name w)) t → nameRegex w = true) (hk : KeepsOperands E t)
    (ho : NoOneof t) (ρ : Str → D) : makes I c e ρ ↔ treeMakes I lit c t ρ := by
  unfold GEnv.effOpt at h
  split at h
  · exact absurd rfl hne
  · exact ERel.sem I lit c hE hlit (effect_iff.1 h) hw hk ho (fun _ toks r hr => by rw [hv] at hr; exact hr) ρ

example : somePart meaningText (fun _ eff => eff.parts.all noArithAt && eff.parts.all noOneofAt &&
    !decide (eff = .node [])) = true := by decide +kernel

/-! C48: goals. -/

/-- No accepted problem uses `or`, `imply`, `forall`, `exists` or `=` between terms in its goal, whatever
requirements it declares: C48 is false. -/
theorem C48_never {F : FloatOf} {σ : List (Str × Term)} {text : Str} {p : Problem} {σ' : List (Str × Term)}
    (h : parseProblem F σ text = .ok (p, σ')) :
    ∃ ts g, readText text = .ok [.node ts] ∧ .node [.atom (.kw s%"goal"), g] ∈ ts ∧
      ∀ s, Inside s g → ¬ StartsWith s%"or" s ∧ ¬ StartsWith s%"imply" s ∧ ¬ StartsWith s%"forall" s ∧
        ¬ StartsWith s%"exists" s ∧ ¬ TermEquality s := by
  obtain ⟨ts, hr, ⟨P⟩⟩ := parseProblem_ok h
  refine ⟨ts, P.g, hr, P.goal_mem, ?_⟩
  have hg := gd_iff.1 P.hgoal
  have hno : ∀ rs, (goalEnv F).hasAny rs = false := by intro rs; simp [GEnv.hasAny, goalEnv]
  intro s hi
  refine ⟨?_, ?_, ?_, ?_, ?_⟩
  · rintro ⟨a, rfl⟩; have := (hg.inside hi).1.or_ _ rfl; rw [hno] at this; cases this
  · rintro ⟨a, rfl⟩; have := (hg.inside hi).1.imply _ rfl; rw [hno] at this; cases this
  · rintro ⟨a, rfl⟩; have := (hg.inside hi).2 _ rfl; rw [hno] at this; cases this
  · rintro ⟨a, rfl⟩; have := (hg.inside hi).1.ex _ rfl; rw [hno] at this; cases this
  · rintro (⟨n, a, rfl⟩ | ⟨a, rfl⟩) <;>
    · have := (hg.inside hi).1.eq _ rfl rfl; rw [hno] at this; cases this

/-- A problem that declares `:adl` and has a disjunction as goal. -/
def orGoalText : Str := s%"(define (problem n) (:domain d) (:requirements :adl) (:init (p)) (:goal (or (p) (q))))"

/-- It is rejected: C48 fails. -/
theorem C48_fails : (parseProblem (fun _ => none) [] orGoalText).toOption.isNone = true := by decide +kernel

/-- What is left of C48: whatever requirements are declared, problems whose goals are made of `and`, `not`, atoms
about objects and comparisons of numbers are accepted. Missing: the goals that C48 names. -/
theorem C48_partial (F : FloatOf) (σ : List (Str × Term)) {n dn : Str} (hn : ValidName n) (hdn : ValidName dn)
    {rs : List Req} (hrs : rs ≠ []) (hof : Req.objectFluents ∉ rs) {g : Tree} (hg : PlainGoal g) :
    ∃ p σ', problemDef F σ (goalProblem n dn rs g) = .ok (p, σ') := goalProblem_ok hn hdn hrs hof hg

/-- `(and (p a) (not (q)) (<= (f b) 3))` is such a goal. -/
example : ∃ g, readText s%"(and (p a) (not (q)) (<= (f b) 3))" = .ok [g] ∧ PlainGoal g := by
  refine ⟨.node [.atom (.name s%"and"), applied s%"p" [s%"a"], .node [.atom (.name s%"not"), applied s%"q" []],
    .node [.atom .le, applied s%"f" [s%"b"], .atom (.num s%"3")]], by decide +kernel, .and ?_⟩
  intro t ht
  simp only [List.mem_cons, List.not_mem_nil, or_false] at ht
  rcases ht with rfl | rfl | rfl
  · exact .atom (by decide +kernel) (by decide +kernel)
  · exact .not (.atom (by decide +kernel) (by simp))
  · exact .comp (by simp) (.fn (by decide +kernel) (by decide +kernel)) (.int (by decide))

end Pddl.Props
