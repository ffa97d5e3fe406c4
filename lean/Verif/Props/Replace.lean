/-
C82: ground actions are what is read with the arguments written in place of the parameters.
-/
import Verif.Proofs.ReplaceAction
import Verif.Spec.Replace

namespace Pddl.Props
open Pddl Pddl.Spec

/-- C82. Instantiating an action of a parsed domain gives what the parser reads from the text of the action with the
names of the arguments written in place of the parameters: in every accepted text with such an action there is an
action without parameters whose precondition and effect equal (`==`) those of the ground action. -/
theorem C82_replace {F : FloatOf} {σ : PState} {text : Str} {d : Domain} {σ' : PState} {a : Action} {args : List Term}
    {g : Action} (hσ : ParserState F σ) (h : parseDomain F σ text = .ok (d, σ')) (ha : a ∈ d.actions)
    (hargs : ∀ t ∈ args, ∃ n tag, t = .const n tag) (hg : a.inst args = .ok g) :
    ∃ ts ps pre eff l, readText text = .ok [.node ts] ∧ actionText a.name ps pre eff ∈ ts ∧ VarsText ps l ∧
      (a.params.map Term.name).Sublist (l.vars.map Prod.fst) ∧ (∀ x, x ∈ a.params.map Term.name ↔ x ∈ l.vars.map Prod.fst) ∧
      ∀ (σ₂ : PState) (text₂ : Str) (d₂ : Domain) (σ₂' : PState) (ts₂ : List Tree) (n : Str), ParserState F σ₂ →
        parseDomain F σ₂ text₂ = .ok (d₂, σ₂') → readText text₂ = .ok [.node ts₂] →
        actionText n [] (writeIn (argumentOf a.params args) pre) (writeIn (argumentOf a.params args) eff) ∈ ts₂ →
        ∃ b ∈ d₂.actions, b.name = n ∧ b.params = [] ∧ optEq g.pre b.pre = true ∧ optEq g.eff b.eff = true := by
  obtain ⟨ts, n, ps, pre, eff, l, vs, hr, hin, hl, hn, hps, hnd, hsub, hall, -, hocc, E, p, e, hp, he, hE, hF, hv, hpre,
    heff, hw, hpar⟩ := action_reading_env hσ h ha
  have hnames : a.params.map Term.name = vs.map Var.name := by
    rw [hps, List.map_map]; rfl
  subst hn
  refine ⟨ts, ps, pre, eff, l, hr, hin, hl, hnames ▸ hsub, ?_, ?_⟩
  · intro x
    rw [hnames]
    constructor
    · exact fun hx => hsub.subset hx
    · intro hx
      obtain ⟨q, hq, rfl⟩ := List.mem_map.1 hx
      exact hall q hq
  intro σ₂ text₂ d₂ σ₂' ts₂ n hσ₂ h₂ hr₂ hin₂
  unfold Action.inst at hg
  split at hg
  · cases hg
  next hlen =>
  have hlen : args.length = vs.length := by
    rw [hps, List.length_map] at hlen
    omega
  simp only [] at hg
  obtain ⟨gpre, h1, hg⟩ := bind_ok_iff.1 hg
  obtain ⟨geff, h2, hg⟩ := bind_ok_iff.1 hg
  rw [hp] at h1
  rw [he] at h2
  obtain ⟨gp, g1, e1⟩ := bind_ok_iff.1 h1
  obtain ⟨ge, g2, e2⟩ := bind_ok_iff.1 h2
  simp only [pure_ok, Except.ok.injEq] at e1 e2
  subst e1 e2
  unfold mkAction at hg
  obtain ⟨n', hn', hg⟩ := bind_ok_iff.1 hg
  simp only [pure_ok, Except.ok.injEq] at hg
  subst hg
  obtain ⟨b, hb, E', q, x, q', x', hbn, hbp, hbq, hbx, e1, e2, hE', hF', hv', hpar', hq, hx⟩ := written_ground hσ₂ h₂ hr₂ hin₂
  have S := swap_args hnd hlen hargs hE hpar hE' hpar' (hF.trans hF'.symm) (hv.trans hv'.symm)
  rw [← hps] at S
  refine ⟨b, hb, hbn, hbp, ?_, ?_⟩
  · rw [hbq]
    simp only [optEq]
    rw [Expr.pyEq_iff, ← e1, inst_sub g1]
    cases pre with
    | atom t => exact GRel.swap S (gd_iff.1 hpre) (gd_iff.1 hq)
    | node us =>
      cases us with
      | nil =>
        rw [writeIn, writeIns] at hq
        simp only [GEnv.preGd, pure_ok, Except.ok.injEq] at hpre hq
        subst hpre hq
        have e1 : mkOr [] = .bin .or [] := by decide +kernel
        rw [e1]
        simp only [Expr.sub, Expr.subs]
        rw [show construct (.bop .or) [] = .bin .or [] by decide +kernel]
      | cons u us =>
        have hne : writeIn (argumentOf a.params args) (.node (u :: us)) ≠ .node [] := by
          rw [writeIn]
          intro e
          injection e with e
          unfold writeIns at e
          split at e
          · simp_all
          · split at e <;> simp at e
          · simp at e
        have hpre' : E.gd (.node (u :: us)) = .ok p := hpre
        have hq' : E'.gd (writeIn (argumentOf a.params args) (.node (u :: us))) = .ok q := by
          unfold GEnv.preGd at hq
          split at hq
          · next e => exact absurd e hne
          · exact hq
        exact GRel.swap S (gd_iff.1 hpre') (gd_iff.1 hq')
  · rw [hbx]
    simp only [optEq]
    rw [Expr.pyEq_iff, ← e2, inst_sub g2]
    cases eff with
    | atom t => exact ERel.swap S (effect_iff.1 heff) (effect_iff.1 hx)
    | node us =>
      cases us with
      | nil =>
        rw [writeIn, writeIns] at hx
        simp only [GEnv.effOpt, pure_ok, Except.ok.injEq] at heff hx
        subst heff hx
        have e1 : mkOr [] = .bin .or [] := by decide +kernel
        rw [e1]
        simp only [Expr.sub, Expr.subs]
        rw [show construct (.bop .or) [] = .bin .or [] by decide +kernel]
      | cons u us =>
        have hne : writeIn (argumentOf a.params args) (.node (u :: us)) ≠ .node [] := by
          rw [writeIn]
          intro e
          injection e with e
          unfold writeIns at e
          split at e
          · simp_all
          · split at e <;> simp at e
          · simp at e
        have hpre' : E.effect true (.node (u :: us)) = .ok e := heff
        have hq' : E'.effect true (writeIn (argumentOf a.params args) (.node (u :: us))) = .ok x := by
          unfold GEnv.effOpt at hx
          split at hx
          · next e => exact absurd e hne
          · exact hx
        exact ERel.swap S (effect_iff.1 hpre') (effect_iff.1 hq')

/-- An action with two parameters. -/
def moveText : Str := s%"(define (domain d) (:requirements :strips :negative-preconditions) (:constants a b) (:predicates (p ?u ?v))
  (:action m :parameters (?x ?y) :precondition (and (p ?x ?y) (not (p ?y b))) :effect (and (p ?y ?x) (not (p ?x a)))))"

/-- The same with the names `a` and `b` written in place of the parameters. -/
def movedText : Str := s%"(define (domain d) (:requirements :strips :negative-preconditions) (:constants a b) (:predicates (p ?u ?v))
  (:action m-a-b :parameters () :precondition (and (p a b) (not (p b b))) :effect (and (p b a) (not (p a a)))))"

/-- Texts as in C82: both are accepted, the first action can be instantiated, and the second action is the first one
with the arguments written in. -/
example :
    (match parseDomain (fun _ => none) .fresh moveText, parseDomain (fun _ => none) .fresh movedText with
    | .ok (d, _), .ok (d₂, _) =>
      match d.actions, d₂.actions with
      | [a], [b] =>
        match a.inst [.const s%"a" none, .const s%"b" none], readText moveText, readText movedText with
        | .ok g, .ok [.node ts], .ok [.node ts₂] =>
          let r := argumentOf a.params [.const s%"a" none, .const s%"b" none]
          decide (g.pre = b.pre) && decide (g.eff = b.eff) &&
          ts.any (fun t : Tree => match t with
            | .node [_, _, _, .node (_ :: _), _, pre, _, eff] => decide (actionText s%"m-a-b" [] (writeIn r pre) (writeIn r eff) ∈ ts₂)
            | _ => false)
        | _, _, _ => false
      | _, _ => false
    | _, _ => false) = true := by decide +kernel

end Pddl.Props
