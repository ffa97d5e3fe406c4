/-
The exact meaning of what is read, whatever operands are lost: conditions, effects and ground actions say what the texts as
they are read say.
-/
import Verif.Proofs.AsReadCond
import Verif.Proofs.WriteGround
import Verif.Props.Meaning

namespace Pddl.Props
open Pddl Pddl.Spec

/-- C47, exactly: a numeric expression has the value of the text as it is read (`Spec.readNum`), that is with nested sums,
products and quotients spread out and repeated operands dropped. -/
theorem C47_exact {D : Type} (I : Interp D) (lit : Str → Option Rat) {E : GEnv} (hE : ParserEnv E)
    (hlit : LitOk lit E.float) {t : Tree} {e : Expr} (h : E.fExp t = .ok e) (ρ : Str → D) :
    value I ρ e = treeValue I lit ρ (readNum E.float t) := FRel.value I lit hE hlit (fExp_iff.1 h)

theorem readPre_cond {F : FloatOf} (t : Tree) (h : t ≠ .node []) : readPre F t = readCond F t := by
  match t, h with
  | .atom _, _ => rfl
  | .node (_ :: _), _ => rfl

theorem writeIn_empty (r : Str → Option Str) : writeIn r (.node []) = .node [] := by
  simp [writeIn, writeIns]

theorem _root_.Pddl.GRel.not_empty {E : GEnv} {t : Tree} {e : Expr} (h : GRel E t e) : t ≠ .node [] := by
  cases h <;> simp

/-- C53, exactly: the precondition of every action of an accepted domain says what the written one says as it is read. -/
theorem C53_exact {F : FloatOf} {σ : PState} {text : Str} {d : Domain} {σ' : PState}
    (hσ : ParserState F σ) (h : parseDomain F σ text = .ok (d, σ')) {a : Action} (ha : a ∈ d.actions) :
    ∃ ts n ps pre eff p, readText text = .ok [.node ts] ∧ actionText n ps pre eff ∈ ts ∧ a.name = n ∧ a.pre = some p ∧
      ∀ (D : Type) (I : Interp D) lit ρ, LitOk lit F → (holds I p ρ ↔ treeHolds I lit (readPre F pre) ρ) := by
  obtain ⟨ts, n, ps, pre, eff, E, p, e, hr, hin, hn, hp, -, hE, hP, rfl, -, hpre, -, hw⟩ := action_parts hσ h ha
  refine ⟨ts, n, ps, pre, eff, p, hr, hin, hn, hp, ?_⟩
  intro D I lit ρ hlit
  unfold GEnv.preGd at hpre
  split at hpre
  · simp only [pure_ok, Except.ok.injEq] at hpre
    subst hpre
    rw [holds_mkOr, readPre, treeHolds_name, if_neg (by decide), if_pos rfl]
    simp [treeHoldsSome]
  · have hg := gd_iff.1 hpre
    rw [readPre_cond _ hg.not_empty]
    exact hg.exact I lit hE hlit (fun w hi => hw w (hi.trans (.node hin (.node (by simp) .refl)))) ρ

/-- The goal of an accepted problem says what the written goal says as it is read. -/
theorem C53_goal_exact {F : FloatOf} {σ : List (Str × Term)} {text : Str} {p : Problem} {σ' : List (Str × Term)}
    (h : parseProblem F σ text = .ok (p, σ')) :
    ∃ ts g, readText text = .ok [.node ts] ∧ .node [.atom (.kw s%"goal"), g] ∈ ts ∧
      ∀ (D : Type) (I : Interp D) lit ρ, LitOk lit F → (holds I p.goal ρ ↔ treeHolds I lit (readCond F g) ρ) := by
  obtain ⟨ts, hr, ⟨P⟩⟩ := parseProblem_ok h
  refine ⟨ts, P.g, hr, P.goal_mem, ?_⟩
  intro D I lit ρ hlit
  rw [(mkProblem_fields P.hproblem).2.2.2.2.1]
  exact (gd_iff.1 P.hgoal).exact I lit (goalEnv_ok F) hlit
    (fun w hi => readText_words hr (t := .node ts) (by simp) (hi.trans (.node P.goal_mem (.node (by simp) .refl)))) ρ

/-- C54, exactly: the effect of every action of an accepted domain, if it has no `oneof`, makes the changes that the written
one makes as it is read. -/
theorem C54_exact {F : FloatOf} {σ : PState} {text : Str} {d : Domain} {σ' : PState}
    (hσ : ParserState F σ) (h : parseDomain F σ text = .ok (d, σ')) {a : Action} (ha : a ∈ d.actions) :
    ∃ ts n ps pre eff e, readText text = .ok [.node ts] ∧ actionText n ps pre eff ∈ ts ∧ a.name = n ∧ a.eff = some e ∧
      (NoOneof eff → ∀ (D : Type) (I : Interp D) lit c ρ, LitOk lit F → (makes I c e ρ ↔ treeMakes I lit c (readEff F eff) ρ)) := by
  obtain ⟨ts, n, ps, pre, eff, E, p, e, hr, hin, hn, -, he, hE, hP, rfl, hv, -, heff, hw⟩ := action_parts hσ h ha
  refine ⟨ts, n, ps, pre, eff, e, hr, hin, hn, he, ?_⟩
  intro ho D I lit c ρ hlit
  unfold GEnv.effOpt at heff
  split at heff
  · simp only [pure_ok, Except.ok.injEq] at heff
    subst heff
    have : mkOr [] = .bin .or [] := by decide +kernel
    rw [this]
    simp [makes, readEff, treeMakes]
  · exact (effect_iff.1 heff).exact I lit c hE hlit
      (fun w hi => hw w (hi.trans (.node hin (.node (by simp) .refl)))) ho (fun _ toks r hr => by rw [hv] at hr; exact hr) ρ

/-- C74, exactly: a ground action says what the written action says as it is read with the names of the arguments written in
place of the parameters. Operands that the arguments make alike are dropped, and `()` as a precondition is never met. -/
theorem C74_exact {F : FloatOf} {σ : PState} {text : Str} {d : Domain} {σ' : PState} {a : Action} {args : List Term}
    {g : Action} (hσ : ParserState F σ) (h : parseDomain F σ text = .ok (d, σ')) (ha : a ∈ d.actions)
    (hargs : ∀ t ∈ args, ∃ n tag, t = .const n tag ∧ ValidName n) (hg : a.inst args = .ok g) :
    ∃ ts n ps pre eff l, readText text = .ok [.node ts] ∧ actionText n ps pre eff ∈ ts ∧ VarsText ps l ∧
      (a.params.map Term.name).Nodup ∧ (a.params.map Term.name).Sublist (l.vars.map Prod.fst) ∧
      (∀ x, x ∈ a.params.map Term.name ↔ x ∈ l.vars.map Prod.fst) ∧
      args.length = a.params.length ∧ a.name = n ∧ g.name = n ∧ g.params = args ∧
      ∃ gp ge, g.pre = some gp ∧ g.eff = some ge ∧
        ∀ (D : Type) (I : Interp D) lit ρ, LitOk lit F →
          (NotRebound (a.params.map Term.name) pre → (holds I gp ρ ↔ treeHolds I lit (readPre F (writeIn (argumentOf a.params args) pre)) ρ)) ∧
          (NoOneof eff → ∀ c, makes I c ge ρ ↔ treeMakes I lit c (readEff F (writeIn (argumentOf a.params args) eff)) ρ) := by
  obtain ⟨ts, n, ps, pre, eff, l, vs, hr, hin, hl, hn, hps, hnd, hsub, hall, -, hocc, E, p, e, hp, he, hE, hF, hv, hpre,
    heff, hw, hpar⟩ := action_reading_env hσ h ha
  unfold Action.inst at hg
  split at hg
  · cases hg
  next hlen =>
  have hlen : args.length = vs.length := by
    rw [hps, List.length_map] at hlen
    omega
  simp only [] at hg
  obtain ⟨gpre, h1, hg⟩ := bind_ok_iff.1 hg
  obtain ⟨geff, h2, hg⟩ := bind_ok_iff.1 hg
  rw [hp] at h1
  rw [he] at h2
  obtain ⟨gp, g1, e1⟩ := bind_ok_iff.1 h1
  obtain ⟨ge, g2, e2⟩ := bind_ok_iff.1 h2
  simp only [pure_ok, Except.ok.injEq] at e1 e2
  subst e1 e2
  unfold mkAction at hg
  obtain ⟨n', hn', hg⟩ := bind_ok_iff.1 hg
  obtain ⟨rfl, _⟩ := parseName_ok.1 hn'
  simp only [pure_ok, Except.ok.injEq] at hg
  subst hg
  have hnames : a.params.map Term.name = vs.map Var.name := by
    rw [hps, List.map_map]; rfl
  refine ⟨ts, n, ps, pre, eff, l, hr, hin, hl, hnames ▸ hnd, hnames ▸ hsub, ?_, ?_, hn, hn, rfl, gp, ge, rfl, rfl, ?_⟩
  · intro x
    rw [hnames]
    constructor
    · exact fun hx => hsub.subset hx
    · intro hx
      obtain ⟨q, hq, rfl⟩ := List.mem_map.1 hx
      exact hall q hq
  · rw [hps, List.length_map]; exact hlen
  intro D I lit ρ hlit
  have hargs' : ∀ t ∈ args, ∃ n tag, t = .const n tag := fun t ht => by
    obtain ⟨n, tag, h, _⟩ := hargs t ht
    exact ⟨n, tag, h⟩
  have S := swap_args hnd hlen hargs' hE hpar (ground_parser hE) rfl rfl rfl
  have hc := args_cover (args := args) hlen hpar
  have hvalid : ∀ x b, argumentOf a.params args x = some b → ValidName b := by
    intro x b hx
    obtain ⟨q, t, k1, _, k3⟩ := argumentOf_some hx
    obtain ⟨m, tag, rfl, hm⟩ := hargs t (List.of_mem_zip k1).2
    rw [← k3]
    exact hm
  have hlit' : LitOk lit E.ground.float := by
    rw [show E.ground.float = E.float from rfl, hF]
    exact hlit
  rw [← hps] at S hc
  constructor
  · intro hnr
    by_cases hne : pre = .node []
    · subst hne
      simp only [GEnv.preGd, pure_ok, Except.ok.injEq] at hpre
      subst hpre
      have e1 : mkOr [] = .bin .or [] := by decide +kernel
      rw [e1] at g1
      obtain ⟨bs, h3, rfl⟩ := inst_bin_ok.mp g1
      cases h3
      have e2 : construct (.bop .or) [] = .bin .or [] := by decide +kernel
      rw [e2, writeIn_empty, readPre, treeHolds_name, if_neg (by decide), if_pos rfl]
      simp [holds, holdsSome, treeHoldsSome]
    have hgd : E.gd pre = .ok p := by
      unfold GEnv.preGd at hpre
      split at hpre
      · exact absurd rfl hne
      · exact hpre
    have hrel := gd_iff.1 hgd
    have hu : Unbound (argumentOf a.params args) pre :=
      fun w vs' c l' hq hi hvt q hq' => argumentOf_notParam (hnr w vs' c l' hq hi hvt q hq')
    have hw' : ∀ w, Inside (.atom (.name w)) pre → nameRegex w = true :=
      fun w hi => hw w (hi.trans (.node hin (.node (by simp) .refl)))
    obtain ⟨e', he'⟩ := hrel.ground hc hu
    rw [inst_sub g1, holds_congr_norm I (hrel.swap S he') ρ,
      he'.exact I lit (ground_parser hE) hlit' (names_writeIn hw' hvalid) ρ, readPre_cond _ he'.not_empty]
    rw [show E.ground.float = F from hF]
  · intro ho c
    have hw' : ∀ w, Inside (.atom (.name w)) eff → nameRegex w = true :=
      fun w hi => hw w (hi.trans (.node hin (.node (by simp) .refl)))
    unfold GEnv.effOpt at heff
    split at heff
    · simp only [pure_ok, Except.ok.injEq] at heff
      subst heff
      have e1 : mkOr [] = .bin .or [] := by decide +kernel
      rw [e1] at g2
      obtain ⟨bs, h3, rfl⟩ := inst_bin_ok.mp g2
      cases h3
      have e2 : construct (.bop .or) [] = .bin .or [] := by decide +kernel
      rw [e2, writeIn_empty]
      simp [makes, readEff, treeMakes]
    · have hrel := effect_iff.1 heff
      have hne := inst_not_effy g2
      obtain ⟨e', he'⟩ := hrel.ground hc hne
      rw [inst_sub g2, makes_congr I c (hrel.swap S he') ρ,
        he'.exact I lit c (ground_parser hE) hlit' (names_writeIn hw' hvalid) (noOneof_writeIn ho hvalid)
          (fun _ toks r hr => by rw [show E.ground.typedVars = E.typedVars from rfl, hv] at hr; exact hr) ρ]
      rw [show E.ground.float = F from hF]

/-! ### Texts in which operands are lost -/

/-- What is read of `(+ 1 1)`, of a sum of sums and of a quotient of quotients. -/
example : (readText s%"(+ 1 1)").map (List.map (readNum (fun _ => none))) = readText s%"(+ 1)" ∧
    (readText s%"(+ (f) (* 2 2) (+ (f) (g ?x) (g ?y)))").map (List.map (readNum (fun _ => none))) = readText s%"(+ (f) (* 2) (g ?x) (g ?y))" ∧
    (readText s%"(/ 8 (/ 4 2))").map (List.map (readNum (fun _ => none))) = readText s%"(/ 8 4 2)" := by decide +kernel

/-- What is read of equations between numbers and of conditions with them. -/
example : (readText s%"(forall (?x - t) (imply (= ?x ?x) (= (f ?x) (f ?x))))").map (List.map (readCond (fun _ => none)))
      = readText s%"(forall (?x - t) (imply (= ?x ?x) (= (f ?x))))" ∧
    (readText s%"(when (p) (increase (f) (+ 2 2)))").map (List.map (readEff (fun _ => none)))
      = readText s%"(when (p) (increase (f) (+ 2)))" := by decide +kernel

/-- A domain with such a precondition and effect. -/
def repeatText : Str := s%"(define (domain d) (:requirements :strips :numeric-fluents) (:predicates (at ?x)) (:functions (dist ?x ?y) (fuel))
  (:action go :parameters (?x ?y) :precondition (> (+ (dist ?x ?y) (dist ?x ?y)) 1)
    :effect (and (at ?y) (increase (fuel) (+ 2 2)))))"

/-- The action of the domain is instantiated, and its sums lose an operand. -/
example : (match parseDomain (fun _ => none) .fresh repeatText with
    | .ok (d, _) => match d.actions with
      | [a] => (match a.inst [.const s%"a" none, .const s%"b" none] with
        | .ok g => decide (g.pre = some (.bfun .gt [.bfun .plus [.nfun ⟨s%"dist", [.const s%"a" none, .const s%"b" none]⟩], .num (.int 1)]))
        | .error _ => false)
      | _ => false
    | .error _ => false) = true := by decide +kernel

end Pddl.Props
