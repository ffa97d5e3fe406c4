/-
C74 with arithmetic: the operands have to stay different when the arguments are written in.
-/
import Verif.Proofs.WriteGround

namespace Pddl.Props
open Pddl Pddl.Spec

/-- C74 for texts with arithmetic: the ground action says what is written if the operands of every sum, product, quotient
and equation stay different with the names of the arguments in place of the parameters. -/
theorem C74_operands {F : FloatOf} {σ : PState} {text : Str} {d : Domain} {σ' : PState} {a : Action} {args : List Term}
    {g : Action} (hσ : ParserState F σ) (h : parseDomain F σ text = .ok (d, σ')) (ha : a ∈ d.actions)
    (hargs : ∀ t ∈ args, ∃ n tag, t = .const n tag ∧ ValidName n) (hg : a.inst args = .ok g) :
    ∃ ts n ps pre eff l, readText text = .ok [.node ts] ∧ actionText n ps pre eff ∈ ts ∧ VarsText ps l ∧
      (a.params.map Term.name).Nodup ∧ (a.params.map Term.name).Sublist (l.vars.map Prod.fst) ∧
      (∀ x, x ∈ a.params.map Term.name ↔ x ∈ l.vars.map Prod.fst) ∧
      args.length = a.params.length ∧ a.name = n ∧ g.name = n ∧ g.params = args ∧
      SaysWritten F a.params args g pre eff
        (pre ≠ .node [] ∧ NotRebound (a.params.map Term.name) pre ∧
          KeepsOperands (textEnv F) (writeIn (argumentOf a.params args) pre))
        (NoOneof eff ∧ KeepsOperands (textEnv F) (writeIn (argumentOf a.params args) eff)) := by
  obtain ⟨ts, n, ps, pre, eff, l, vs, hr, hin, hl, hn, hps, hnd, hsub, hall, -, hocc, E, p, e, hp, he, hE, hF, hv, hpre,
    heff, hw, hpar⟩ := action_reading_env hσ h ha
  unfold Action.inst at hg
  split at hg
  · cases hg
  next hlen =>
  have hlen : args.length = vs.length := by
    rw [hps, List.length_map] at hlen
    omega
  simp only [] at hg
  obtain ⟨gpre, h1, hg⟩ := bind_ok_iff.1 hg
  obtain ⟨geff, h2, hg⟩ := bind_ok_iff.1 hg
  rw [hp] at h1
  rw [he] at h2
  obtain ⟨gp, g1, e1⟩ := bind_ok_iff.1 h1
  obtain ⟨ge, g2, e2⟩ := bind_ok_iff.1 h2
  simp only [pure_ok, Except.ok.injEq] at e1 e2
  subst e1 e2
  unfold mkAction at hg
  obtain ⟨n', hn', hg⟩ := bind_ok_iff.1 hg
  obtain ⟨rfl, _⟩ := parseName_ok.1 hn'
  simp only [pure_ok, Except.ok.injEq] at hg
  subst hg
  have hnames : a.params.map Term.name = vs.map Var.name := by
    rw [hps, List.map_map]; rfl
  refine ⟨ts, n, ps, pre, eff, l, hr, hin, hl, hnames ▸ hnd, hnames ▸ hsub, ?_, ?_, hn, hn, rfl, gp, ge, rfl, rfl, ?_⟩
  · intro x
    rw [hnames]
    constructor
    · exact fun hx => hsub.subset hx
    · intro hx
      obtain ⟨q, hq, rfl⟩ := List.mem_map.1 hx
      exact hall q hq
  · rw [hps, List.length_map]; exact hlen
  intro D I lit ρ ρ' hlit hb
  have hargs' : ∀ t ∈ args, ∃ n tag, t = .const n tag := fun t ht => by
    obtain ⟨n, tag, h, _⟩ := hargs t ht
    exact ⟨n, tag, h⟩
  have S := swap_args hnd hlen hargs' hE hpar (ground_parser hE) rfl rfl rfl
  have hc := args_cover (args := args) hlen hpar
  have hvalid : ∀ x b, argumentOf a.params args x = some b → ValidName b := by
    intro x b hx
    obtain ⟨q, t, k1, _, k3⟩ := argumentOf_some hx
    obtain ⟨m, tag, rfl, hm⟩ := hargs t (List.of_mem_zip k1).2
    rw [← k3]
    exact hm
  have hlit' : LitOk lit E.ground.float := by
    rw [show E.ground.float = E.float from rfl, hF]
    exact hlit
  have hwr : Writes I (argumentOf a.params args) ρ ρ' := by
    rw [hps] at hb ⊢
    exact args_write hlen hargs' hb
  rw [← hps] at S hc
  constructor
  · rintro ⟨hne, hnr, hk⟩
    have hgd : E.gd pre = .ok p := by
      unfold GEnv.preGd at hpre
      split at hpre
      · exact absurd rfl hne
      · exact hpre
    have hrel := gd_iff.1 hgd
    have hu : Unbound (argumentOf a.params args) pre :=
      fun w vs' c l' hq hi hvt q hq' => argumentOf_notParam (hnr w vs' c l' hq hi hvt q hq')
    have hw' : ∀ w, Inside (.atom (.name w)) pre → nameRegex w = true :=
      fun w hi => hw w (hi.trans (.node hin (.node (by simp) .refl)))
    obtain ⟨e', he'⟩ := hrel.ground hc hu
    rw [inst_sub g1, holds_congr_norm I (hrel.swap S he') ρ,
      he'.sem I lit (ground_parser hE) hlit' (names_writeIn hw' hvalid) (keeps_ground hF hk) ρ, hrel.writes hwr hu]
    exact ⟨.inr, fun h => h.resolve_left hne⟩
  · rintro ⟨ho, hk⟩ c
    have hw' : ∀ w, Inside (.atom (.name w)) eff → nameRegex w = true :=
      fun w hi => hw w (hi.trans (.node hin (.node (by simp) .refl)))
    unfold GEnv.effOpt at heff
    split at heff
    · simp only [pure_ok, Except.ok.injEq] at heff
      subst heff
      have e1 : mkOr [] = .bin .or [] := by decide +kernel
      rw [e1] at g2
      obtain ⟨bs, h3, rfl⟩ := inst_bin_ok.mp g2
      cases h3
      have e2 : construct (.bop .or) [] = .bin .or [] := by decide +kernel
      rw [e2]
      simp [makes, treeMakes]
    · have hrel := effect_iff.1 heff
      have hne := inst_not_effy g2
      obtain ⟨e', he'⟩ := hrel.ground hc hne
      rw [inst_sub g2, makes_congr I c (hrel.swap S he') ρ,
        he'.sem I lit c (ground_parser hE) hlit' (names_writeIn hw' hvalid) (keeps_ground hF hk) (noOneof_writeIn ho hvalid)
          (fun _ toks r hr => by rw [show E.ground.typedVars = E.typedVars from rfl, hv] at hr; exact hr) ρ,
        hrel.writes hwr ho hne]

/-- Texts without arithmetic meet the condition for all arguments. -/
theorem C74_operands_plain (F : FloatOf) (r : Str → Option Str) {t : Tree} (h : NoArithmetic t) : KeepsOperands (textEnv F) (writeIn r t) :=
  (noArithmetic_writeIn h).keeps _

/-! ### Texts that meet the condition -/

/-- An action with sums in its precondition and its effect. -/
def roundTripText : Str := s%"(define (domain d) (:requirements :strips :numeric-fluents) (:predicates (at ?x))
  (:functions (dist ?x ?y) (fuel))
  (:action go :parameters (?x ?y) :precondition (> (+ (dist ?x ?y) (dist ?y ?x)) 1)
    :effect (and (at ?y) (increase (fuel) (+ (dist ?x ?y) (dist ?y ?x) 2)))))"

/-- The written precondition. -/
def tripPre : Tree := .node [.atom .gt, .node [.atom .plus, .node [.atom (.name s%"dist"), .atom .qmark, .atom (.name s%"x"), .atom .qmark,
  .atom (.name s%"y")], .node [.atom (.name s%"dist"), .atom .qmark, .atom (.name s%"y"), .atom .qmark, .atom (.name s%"x")]], .atom (.num s%"1")]

/-- The written effect. -/
def tripEff : Tree := .node [.atom (.name s%"and"), .node [.atom (.name s%"at"), .atom .qmark, .atom (.name s%"y")],
  .node [.atom (.name s%"increase"), .node [.atom (.name s%"fuel")], .node [.atom .plus,
    .node [.atom (.name s%"dist"), .atom .qmark, .atom (.name s%"x"), .atom .qmark, .atom (.name s%"y")],
    .node [.atom (.name s%"dist"), .atom .qmark, .atom (.name s%"y"), .atom .qmark, .atom (.name s%"x")], .atom (.num s%"2")]]]

/-- The parameters. -/
def tripParams : List Term := [.var ⟨s%"x", []⟩, .var ⟨s%"y", []⟩]

example : actionText s%"go" [.atom .qmark, .atom (.name s%"x"), .atom .qmark, .atom (.name s%"y")] tripPre tripEff ∈ treesOf roundTripText := by
  decide +kernel

/-- For different arguments the condition is met … -/
example : KeepsOperands (textEnv (fun _ => none)) (writeIn (argumentOf tripParams [.const s%"a" none, .const s%"b" none]) tripPre) ∧
    KeepsOperands (textEnv (fun _ => none)) (writeIn (argumentOf tripParams [.const s%"a" none, .const s%"b" none]) tripEff) ∧
    NoOneof tripEff ∧ tripPre ≠ .node [] ∧ ValidName s%"a" ∧ ValidName s%"b" :=
  ⟨keeps_of_check (by decide +kernel), keeps_of_check (by decide +kernel), noOneof_of_check (by decide +kernel), by decide +kernel,
    by decide, by decide⟩

example : (match parseDomain (fun _ => none) .fresh roundTripText with
    | .ok (d, _) => match d.actions with
      | [a] => decide (a.params = tripParams) && (a.inst [.const s%"a" none, .const s%"b" none]).toOption.isSome
      | _ => false
    | .error _ => false) = true := by decide +kernel

/-- … and for equal arguments the ground action says something else: the written sum is twice the distance, the sum of the
ground action is the distance. -/
theorem C74_operands_fails : ∃ d σ' a g gp, parseDomain (fun _ => none) .fresh roundTripText = .ok (d, σ') ∧ a ∈ d.actions ∧
    a.params = tripParams ∧ a.inst [.const s%"a" none, .const s%"a" none] = .ok g ∧ g.pre = some gp ∧
    actionText s%"go" [.atom .qmark, .atom (.name s%"x"), .atom .qmark, .atom (.name s%"y")] tripPre tripEff ∈ treesOf roundTripText ∧
    ∃ (D : Type) (I : Interp D) (lit : Str → Option Rat) (ρ ρ' : Str → D), LitOk lit (fun _ => none) ∧
      Binds I tripParams [.const s%"a" none, .const s%"a" none] ρ ρ' ∧ preHolds I lit tripPre ρ' ∧ ¬ holds I gp ρ := by
  have h0 : (match parseDomain (fun _ => none) .fresh roundTripText with
    | .ok (d, _) => match d.actions with
      | [a] => decide (a.params = tripParams) && (match a.inst [.const s%"a" none, .const s%"a" none] with
        | .ok g => decide (g.pre = some (.bfun .gt [.bfun .plus [.nfun ⟨s%"dist", [.const s%"a" none, .const s%"a" none]⟩], .num (.int 1)]))
        | .error _ => false)
      | _ => false
    | .error _ => false) = true := by decide +kernel
  cases h : parseDomain (fun _ => none) .fresh roundTripText with
  | error e => rw [h] at h0; cases h0
  | ok r =>
    obtain ⟨d, σ'⟩ := r
    rw [h] at h0
    simp only at h0
    split at h0
    · next a ha =>
      rw [Bool.and_eq_true] at h0
      obtain ⟨h1, h2⟩ := h0
      split at h2
      · next g hg =>
        refine ⟨d, σ', a, g, _, rfl, by rw [ha]; exact List.mem_singleton.2 rfl, of_decide_eq_true h1, hg, of_decide_eq_true h2,
          by decide +kernel, ?_⟩
        let lit : Str → Option Rat := fun s => (numLiteral (fun _ => none) s).toOption.bind numVal
        have hlit : LitOk lit (fun _ => none) := by
          intro s n h
          simp [lit, h, Except.toOption]
        have h1 : lit s%"1" = some 1 := by
          rw [hlit s%"1" (.int 1) (by decide +kernel)]
          simp [numVal]
        refine ⟨Unit, ⟨fun _ => (), fun _ _ => True, fun _ _ => True, fun _ _ => some 1⟩, lit, fun _ => (), fun _ => (), hlit,
          ⟨fun _ _ => rfl, fun _ _ => rfl⟩, .inr ?_, ?_⟩
        · rw [tripPre, treeHolds_tok _ _ .gt (by simp)]
          simp [treeCompare, treeValues, treeValue, treeTerms, h1, compareSign]
          refine ⟨[2, 1], ?_, ?_⟩
          · simp [arith]; norm_num
          · simp [compareVals]
        · simp [holds, values, value, arith, numVal, compareVals]
      · cases h2
    · cases h0

end Pddl.Props
