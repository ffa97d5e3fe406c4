/-
C101 and C102: effects with choices.
-/
import Verif.Proofs.OutcomeGround
import Verif.Proofs.OutcomeCheck
import Verif.Props.GroundOperands

namespace Pddl.Props
open Pddl Pddl.Spec

/-! C101: what a parsed effect can do. -/

/-- Whatever the parsed effect of an action can do is a possible outcome of the written effect, in every state, also with
`oneof`, `when` and `forall` at any depth. If no choice is written twice among the operands of an `and`, the converse
is true: the outcomes are exactly those that are written. Missing: choices that are written twice, for which the
converse is false (`C101_fails`). -/
theorem C101_effect_partial {F : FloatOf} {σ : PState} {text : Str} {d : Domain} {σ' : PState}
    (hσ : ParserState F σ) (h : parseDomain F σ text = .ok (d, σ')) {a : Action} (ha : a ∈ d.actions) :
    ∃ ts n ps pre eff e, readText text = .ok [.node ts] ∧ actionText n ps pre eff ∈ ts ∧ a.name = n ∧
      a.eff = some e ∧ (KeepsOperands (textEnv F) eff →
        ∀ (D : Type) (I : Interp D) lit ρ C, LitOk lit F → (outcome I e ρ C → treeOutcome I lit eff ρ C) ∧
          (ChoicesOnce F eff → (outcome I e ρ C ↔ treeOutcome I lit eff ρ C))) := by
  obtain ⟨ts, n, ps, pre, eff, E, p, e, hr, hin, hn, -, he, hE, hP, rfl, hv, -, heff, hw⟩ := action_parts hσ h ha
  refine ⟨ts, n, ps, pre, eff, e, hr, hin, hn, he, ?_⟩
  intro hk D I lit ρ C hlit
  unfold GEnv.effOpt at heff
  split at heff
  · simp only [pure_ok, Except.ok.injEq] at heff
    subst heff
    have : mkOr [] = .bin .or [] := by decide +kernel
    rw [this]
    simp [outcome, treeOutcome, makes, treeMakes]
  · have hw' : ∀ w, Inside (.atom (.name w)) eff → nameRegex w = true :=
      fun w hi => hw w (hi.trans (.node hin (.node (by simp) .refl)))
    have h1 : outcome I e ρ C → treeOutcome I lit eff ρ C :=
      ERel.outcome_written I lit hE hlit (effect_iff.1 heff) hw' (hk.inEnv hP)
        (fun _ toks r hr => by rw [hv] at hr; exact hr)
    exact ⟨h1, fun hc => ⟨h1, ERel.written_outcome I lit hE hlit (effect_iff.1 heff) hw' (hk.inEnv hP) hc
      (fun _ toks r hr => by rw [hv] at hr; exact hr)⟩⟩

/-- Effects without choices have one outcome, the changes they make. -/
theorem C101_deterministic {D : Type} (I : Interp D) (e : Expr) (h : choiceFree e) (ρ : Str → D) (C : Change D → Prop) :
    outcome I e ρ C ↔ ∀ c, C c ↔ makes I c e ρ := outcome_free I h

/-- Equal effects have the same outcomes, so that what C30 and C49 say about printed domains holds for choices too. -/
theorem C101_equal {D : Type} (I : Interp D) {a b : Expr} (h : a.pyEq b = true) (ρ : Str → D) (C : Change D → Prop) :
    outcome I a ρ C ↔ outcome I b ρ C :=
  ⟨outcome_congr I ((Expr.pyEq_iff _ _).1 h), outcome_congr I ((Expr.pyEq_iff _ _).1 h).symm⟩

/-- Two coins are thrown: the same choice is written twice. -/
def coinsText : Str := s%"(define (domain d) (:requirements :strips :non-deterministic) (:predicates (p) (q))
  (:action a :parameters () :precondition (p) :effect (and (oneof (p) (q)) (oneof (p) (q)))))"

/-- The written effect. -/
def coinsEff : Tree := .node [.atom (.name s%"and"),
  .node [.atom (.name s%"oneof"), .node [.atom (.name s%"p")], .node [.atom (.name s%"q")]],
  .node [.atom (.name s%"oneof"), .node [.atom (.name s%"p")], .node [.atom (.name s%"q")]]]

/-- Both coins may come out differently. -/
theorem coins_outcome {D : Type} (I : Interp D) (lit : Str → Option Rat) (ρ : Str → D) :
    treeOutcome I lit coinsEff ρ (fun c => c = .add s%"p" [] ∨ c = .add s%"q" []) := by
  rw [coinsEff, treeOutcome_name, if_neg (by decide), if_pos rfl]
  refine ⟨fun c => c = .add s%"p" [], fun c => c = .add s%"q" [], ?_,
    ⟨fun c => c = .add s%"q" [], fun _ => False, ?_, fun _ h => h, by simp⟩, fun c => Iff.rfl⟩
  · rw [treeOutcome_name, if_pos rfl, treeOutcomeSome_iff]
    refine ⟨.node [.atom (.name s%"p")], by simp, ?_⟩
    rw [treeOutcome_name, if_neg (by decide), if_neg (by decide), if_neg (by decide), if_neg (by decide)]
    intro c
    rw [treeMakes_name, if_neg (by decide), if_neg (by decide), if_neg (by decide), if_neg (by decide)]
    simp [updateWord, treeTerms]
  · rw [treeOutcome_name, if_pos rfl, treeOutcomeSome_iff]
    refine ⟨.node [.atom (.name s%"q")], by simp, ?_⟩
    rw [treeOutcome_name, if_neg (by decide), if_neg (by decide), if_neg (by decide), if_neg (by decide)]
    intro c
    rw [treeMakes_name, if_neg (by decide), if_neg (by decide), if_neg (by decide), if_neg (by decide)]
    simp [updateWord, treeTerms]

/-- The two coins become one: that both `(p)` and `(q)` come out is written, but the parsed effect cannot do it. -/
theorem C101_fails : ∃ d σ' a e, parseDomain (fun _ => none) .fresh coinsText = .ok (d, σ') ∧ a ∈ d.actions ∧
    a.eff = some e ∧ actionText s%"a" [] (.node [.atom (.name s%"p")]) coinsEff ∈ treesOf coinsText ∧
    ∀ (D : Type) (I : Interp D) lit (ρ : Str → D), ∃ C, treeOutcome I lit coinsEff ρ C ∧ ¬ outcome I e ρ C := by
  have h0 : (match parseDomain (fun _ => none) .fresh coinsText with
    | .ok (d, _) => match d.actions with
      | [a] => decide (a.eff = some (.bin .oneof [.pred ⟨s%"p", []⟩, .pred ⟨s%"q", []⟩]))
      | _ => false
    | .error _ => false) = true := by decide +kernel
  cases h : parseDomain (fun _ => none) .fresh coinsText with
  | error e => rw [h] at h0; cases h0
  | ok r =>
    obtain ⟨d, σ'⟩ := r
    rw [h] at h0
    simp only at h0
    split at h0
    · next a ha =>
      refine ⟨d, σ', a, _, rfl, by rw [ha]; exact List.mem_singleton.2 rfl, of_decide_eq_true h0, by decide +kernel, ?_⟩
      intro D I lit ρ
      refine ⟨fun c => c = .add s%"p" [] ∨ c = .add s%"q" [], ?_, ?_⟩
      · exact coins_outcome I lit ρ
      · simp only [outcome, outcomeSome, makes, List.map_nil, or_false]
        rintro (h | h)
        · have := (h (.add s%"q" [])).1 (.inr rfl)
          simp at this
        · have := (h (.add s%"p" [])).1 (.inl rfl)
          simp at this
    · cases h0

/-- A domain with nested choices, none of which is written twice in one `and`. -/
def choicesText : Str := s%"(define (domain d) (:requirements :adl :non-deterministic) (:predicates (p ?x) (q ?x) (r))
  (:action a :parameters (?x ?y) :precondition (r)
    :effect (and (oneof (p ?x) (and (q ?x) (not (r)))) (oneof (q ?x) (r)) (forall (?z) (oneof (q ?z) (p ?z))) (when (r) (p ?y)) (p ?y) (p ?y))))"

/-- The written effect. -/
def choicesEff : Tree :=
  let v (p x : Str) : Tree := .node [.atom (.name p), .atom .qmark, .atom (.name x)]
  .node [.atom (.name s%"and"),
    .node [.atom (.name s%"oneof"), v s%"p" s%"x", .node [.atom (.name s%"and"), v s%"q" s%"x",
      .node [.atom (.name s%"not"), .node [.atom (.name s%"r")]]]],
    .node [.atom (.name s%"oneof"), v s%"q" s%"x", .node [.atom (.name s%"r")]],
    .node [.atom (.name s%"forall"), .node [.atom .qmark, .atom (.name s%"z")],
      .node [.atom (.name s%"oneof"), v s%"q" s%"z", v s%"p" s%"z"]],
    .node [.atom (.name s%"when"), .node [.atom (.name s%"r")], v s%"p" s%"y"],
    v s%"p" s%"y", v s%"p" s%"y"]

example : actionText s%"a" [.atom .qmark, .atom (.name s%"x"), .atom .qmark, .atom (.name s%"y")]
    (.node [.atom (.name s%"r")]) choicesEff ∈ treesOf choicesText := by decide +kernel

example : (match parseDomain (fun _ => none) .fresh choicesText with
    | .ok (d, _) => decide (d.actions.length = 1)
    | .error _ => false) = true := by decide +kernel

example : ChoicesOnce (fun _ => none) choicesEff ∧ KeepsOperands (textEnv (fun _ => none)) choicesEff ∧ ¬ NoOneof choicesEff :=
  ⟨once_of_check (by decide +kernel), keeps_of_check (by decide +kernel),
    fun h => h _ (.node (t := .node [.atom (.name s%"oneof"), _, _]) (by simp; exact .inl ⟨rfl, rfl⟩) .refl)⟩

/-! C102: what a ground action can do. -/

/-- Whatever the effect of a ground action can do is a possible outcome of the written effect with the parameters
denoting the arguments. If no choice is written twice in an `and` when the names of the arguments are written in place
of the parameters, the outcomes of the ground action are exactly those that are written. Missing: choices that become
equal, for which the converse is false (`C102_fails`). -/
theorem C102_ground_partial {F : FloatOf} {σ : PState} {text : Str} {d : Domain} {σ' : PState} {a : Action} {args : List Term}
    {g : Action} (hσ : ParserState F σ) (h : parseDomain F σ text = .ok (d, σ')) (ha : a ∈ d.actions)
    (hargs : ∀ t ∈ args, ∃ n tag, t = .const n tag ∧ ValidName n) (hg : a.inst args = .ok g) :
    ∃ ts n ps pre eff ge, readText text = .ok [.node ts] ∧ actionText n ps pre eff ∈ ts ∧ a.name = n ∧ g.eff = some ge ∧
      (KeepsOperands (textEnv F) (writeIn (argumentOf a.params args) eff) →
        ∀ (D : Type) (I : Interp D) lit ρ ρ' C, LitOk lit F → Binds I a.params args ρ ρ' →
          (outcome I ge ρ C → treeOutcome I lit eff ρ' C) ∧
          (ChoicesOnce F (writeIn (argumentOf a.params args) eff) → (outcome I ge ρ C ↔ treeOutcome I lit eff ρ' C))) := by
  obtain ⟨ts, n, ps, pre, eff, l, vs, hr, hin, hl, hn, hps, hnd, hsub, hall, -, hocc, E, p, e, hp, he, hE, hF, hv, hpre,
    heff, hw, hpar⟩ := action_reading_env hσ h ha
  unfold Action.inst at hg
  split at hg
  · cases hg
  next hlen =>
  have hlen : args.length = vs.length := by
    rw [hps, List.length_map] at hlen
    omega
  simp only [] at hg
  obtain ⟨gpre, h1, hg⟩ := bind_ok_iff.1 hg
  obtain ⟨geff, h2, hg⟩ := bind_ok_iff.1 hg
  rw [he] at h2
  obtain ⟨ge, g2, e2⟩ := bind_ok_iff.1 h2
  simp only [pure_ok, Except.ok.injEq] at e2
  subst e2
  unfold mkAction at hg
  obtain ⟨n', hn', hg⟩ := bind_ok_iff.1 hg
  simp only [pure_ok, Except.ok.injEq] at hg
  subst hg
  refine ⟨ts, n, ps, pre, eff, ge, hr, hin, hn, rfl, ?_⟩
  intro hk D I lit ρ ρ' C hlit hb
  have hargs' : ∀ t ∈ args, ∃ n tag, t = .const n tag := fun t ht => by
    obtain ⟨n, tag, h, _⟩ := hargs t ht
    exact ⟨n, tag, h⟩
  have S := swap_args hnd hlen hargs' hE hpar (ground_parser hE) rfl rfl rfl
  have hc := args_cover (args := args) hlen hpar
  have hvalid : ∀ x b, argumentOf a.params args x = some b → ValidName b := by
    intro x b hx
    obtain ⟨q, t, k1, _, k3⟩ := argumentOf_some hx
    obtain ⟨m, tag, rfl, hm⟩ := hargs t (List.of_mem_zip k1).2
    rw [← k3]
    exact hm
  have hlit' : LitOk lit E.ground.float := by
    rw [show E.ground.float = E.float from rfl, hF]
    exact hlit
  have hwr : Writes I (argumentOf a.params args) ρ ρ' := by
    rw [hps] at hb ⊢
    exact args_write hlen hargs' hb
  rw [← hps] at S hc
  have hw' : ∀ w, Inside (.atom (.name w)) eff → nameRegex w = true :=
    fun w hi => hw w (hi.trans (.node hin (.node (by simp) .refl)))
  unfold GEnv.effOpt at heff
  split at heff
  · simp only [pure_ok, Except.ok.injEq] at heff
    subst heff
    have e1 : mkOr [] = .bin .or [] := by decide +kernel
    rw [e1] at g2
    obtain ⟨bs, h3, rfl⟩ := inst_bin_ok.mp g2
    cases h3
    have e2 : construct (.bop .or) [] = .bin .or [] := by decide +kernel
    rw [e2]
    simp [outcome, treeOutcome, makes, treeMakes]
  · have hrel := effect_iff.1 heff
    have hne := inst_not_effy g2
    obtain ⟨e', he'⟩ := hrel.ground hc hne
    have hvars : E.ground.ext = [] → ∀ toks r, E.ground.typedVars toks = .ok r → typedListVariable toks = .ok r :=
      fun _ toks r hr => by rw [show E.ground.typedVars = E.typedVars from rfl, hv] at hr; exact hr
    have heq := inst_sub g2 ▸ hrel.swap S he'
    have h1 : outcome I ge ρ C → treeOutcome I lit eff ρ' C := fun h =>
      (hrel.writes_outcome hwr hne hc).1 (he'.outcome_written I lit (ground_parser hE) hlit' (names_writeIn hw' hvalid)
        (keeps_ground hF hk) hvars (outcome_congr I heq h))
    refine ⟨h1, fun ho => ⟨h1, fun h => ?_⟩⟩
    refine outcome_congr I heq.symm (he'.written_outcome I lit (ground_parser hE) hlit' (names_writeIn hw' hvalid)
        (keeps_ground hF hk) ?_ hvars ((hrel.writes_outcome hwr hne hc).2 h))
    rw [show E.ground.float = E.float from rfl, hF]
    exact ho

/-- Two coins, each for one parameter. -/
def twoCoinsText : Str := s%"(define (domain d) (:requirements :strips :non-deterministic) (:predicates (p ?x) (q ?x))
  (:action a :parameters (?x ?y) :precondition (p ?x) :effect (and (oneof (p ?x) (q ?x)) (oneof (p ?y) (q ?y)))))"

/-- The written effect. -/
def twoCoinsEff : Tree :=
  let v (p x : Str) : Tree := .node [.atom (.name p), .atom .qmark, .atom (.name x)]
  .node [.atom (.name s%"and"), .node [.atom (.name s%"oneof"), v s%"p" s%"x", v s%"q" s%"x"],
    .node [.atom (.name s%"oneof"), v s%"p" s%"y", v s%"q" s%"y"]]

/-- The written precondition. -/
def twoCoinsPre : Tree := .node [.atom (.name s%"p"), .atom .qmark, .atom (.name s%"x")]

/-- The coins of equal arguments become one. -/
theorem C102_fails : ∃ d σ' a g e, parseDomain (fun _ => none) .fresh twoCoinsText = .ok (d, σ') ∧ a ∈ d.actions ∧
    a.params = tripParams ∧ a.inst [.const s%"k" none, .const s%"k" none] = .ok g ∧ g.eff = some e ∧
    actionText s%"a" [.atom .qmark, .atom (.name s%"x"), .atom .qmark, .atom (.name s%"y")] twoCoinsPre twoCoinsEff
      ∈ treesOf twoCoinsText ∧
    ∀ (D : Type) (I : Interp D) lit (ρ ρ' : Str → D), Binds I tripParams [.const s%"k" none, .const s%"k" none] ρ ρ' →
      ∃ C, treeOutcome I lit twoCoinsEff ρ' C ∧ ¬ outcome I e ρ C := by
  have h0 : (match parseDomain (fun _ => none) .fresh twoCoinsText with
    | .ok (d, _) => match d.actions with
      | [a] => decide (a.params = tripParams) && (match a.inst [.const s%"k" none, .const s%"k" none] with
        | .ok g => decide (g.eff = some (.bin .oneof [.pred ⟨s%"p", [.const s%"k" none]⟩, .pred ⟨s%"q", [.const s%"k" none]⟩]))
        | .error _ => false)
      | _ => false
    | .error _ => false) = true := by decide +kernel
  cases h : parseDomain (fun _ => none) .fresh twoCoinsText with
  | error e => rw [h] at h0; cases h0
  | ok r =>
    obtain ⟨d, σ'⟩ := r
    rw [h] at h0
    simp only at h0
    split at h0
    · next a ha =>
      rw [Bool.and_eq_true] at h0
      obtain ⟨h1, h2⟩ := h0
      split at h2
      · next g hg =>
        refine ⟨d, σ', a, g, _, rfl, by rw [ha]; exact List.mem_singleton.2 rfl, of_decide_eq_true h1, hg,
          of_decide_eq_true h2, by decide +kernel, ?_⟩
        intro D I lit ρ ρ' hb
        have hx : ρ' s%"x" = I.const s%"k" := hb.param (.var ⟨s%"x", []⟩, .const s%"k" none) (by simp [tripParams])
        have hy : ρ' s%"y" = I.const s%"k" := hb.param (.var ⟨s%"y", []⟩, .const s%"k" none) (by simp [tripParams])
        refine ⟨fun c => c = .add s%"p" [I.const s%"k"] ∨ c = .add s%"q" [I.const s%"k"], ?_, ?_⟩
        · simp only [twoCoinsEff]
          rw [treeOutcome_name, if_neg (by decide), if_pos rfl]
          refine ⟨fun c => c = .add s%"p" [I.const s%"k"], fun c => c = .add s%"q" [I.const s%"k"], ?_,
            ⟨fun c => c = .add s%"q" [I.const s%"k"], fun _ => False, ?_, fun _ h => h, by simp⟩, fun c => Iff.rfl⟩
          · rw [treeOutcome_name, if_pos rfl, treeOutcomeSome_iff]
            refine ⟨.node [.atom (.name s%"p"), .atom .qmark, .atom (.name s%"x")], by simp, ?_⟩
            rw [treeOutcome_name, if_neg (by decide), if_neg (by decide), if_neg (by decide), if_neg (by decide)]
            intro c
            rw [treeMakes_name, if_neg (by decide), if_neg (by decide), if_neg (by decide), if_neg (by decide)]
            simp [updateWord, treeTerms, hx]
          · rw [treeOutcome_name, if_pos rfl, treeOutcomeSome_iff]
            refine ⟨.node [.atom (.name s%"q"), .atom .qmark, .atom (.name s%"y")], by simp, ?_⟩
            rw [treeOutcome_name, if_neg (by decide), if_neg (by decide), if_neg (by decide), if_neg (by decide)]
            intro c
            rw [treeMakes_name, if_neg (by decide), if_neg (by decide), if_neg (by decide), if_neg (by decide)]
            simp [updateWord, treeTerms, hy]
        · simp only [outcome, outcomeSome, makes, List.map_cons, List.map_nil, or_false, denote]
          rintro (h | h)
          · have := (h (.add s%"q" [I.const s%"k"])).1 (.inr rfl)
            simp at this
          · have := (h (.add s%"p" [I.const s%"k"])).1 (.inl rfl)
            simp at this
      · cases h2
    · cases h0

/-- A ground action with two choices that stay different, for equal arguments too. -/
def keptChoicesText : Str := s%"(define (domain d) (:requirements :strips :non-deterministic) (:predicates (p ?x) (q ?x))
  (:action a :parameters (?x ?y) :precondition (p ?x) :effect (and (oneof (p ?x) (q ?x)) (oneof (q ?y) (p ?y)))))"

/-- The written effect. -/
def keptChoicesEff : Tree :=
  let v (p x : Str) : Tree := .node [.atom (.name p), .atom .qmark, .atom (.name x)]
  .node [.atom (.name s%"and"), .node [.atom (.name s%"oneof"), v s%"p" s%"x", v s%"q" s%"x"],
    .node [.atom (.name s%"oneof"), v s%"q" s%"y", v s%"p" s%"y"]]

example : actionText s%"a" [.atom .qmark, .atom (.name s%"x"), .atom .qmark, .atom (.name s%"y")] twoCoinsPre keptChoicesEff
    ∈ treesOf keptChoicesText := by decide +kernel

example : (match parseDomain (fun _ => none) .fresh keptChoicesText with
    | .ok (d, _) => match d.actions with
      | [a] => decide (a.params = tripParams) && (a.inst [.const s%"k" none, .const s%"k" none]).toOption.isSome
      | _ => false
    | .error _ => false) = true := by decide +kernel

example : ChoicesOnce (fun _ => none) (writeIn (argumentOf tripParams [.const s%"k" none, .const s%"k" none]) keptChoicesEff) ∧
    KeepsOperands (textEnv (fun _ => none)) (writeIn (argumentOf tripParams [.const s%"k" none, .const s%"k" none]) keptChoicesEff) :=
  ⟨once_of_check (by decide +kernel), keeps_of_check (by decide +kernel)⟩

end Pddl.Props
