/-
C94: what is read is no larger than its text, and instances are no larger than what they are made from.
-/
import Verif.Proofs.SizeDomain

namespace Pddl
open Spec Grammar

theorem openBrackets_ge (k : Nat) (ts : List Tok) : k ≤ openBrackets k ts := by
  fun_induction openBrackets k ts <;> omega

theorem brackets_open {toks : List Tok} {ts : List Tree} (h : Brackets toks ts) : ∀ (k : Nat) (rest : List Tok),
    openBrackets k (toks ++ rest) = max (k + bracketsAll ts) (openBrackets k rest) := by
  induction h with
  | nil => intro k rest; have := openBrackets_ge k rest; simp only [List.nil_append, bracketsAll]; omega
  | @token t a ts h1 h2 _ ih =>
    intro k rest
    have : openBrackets k (t :: (a ++ rest)) = openBrackets k (a ++ rest) := by
      cases t <;> first | rfl | exact absurd rfl h1 | exact absurd rfl h2
    simp only [List.cons_append, this, ih, bracketsAll, brackets]
    omega
  | @group a b l ts _ _ ih1 ih2 =>
    intro k rest
    simp only [List.cons_append, List.append_assoc, openBrackets, ih1, ih2, bracketsAll, brackets, Nat.add_sub_cancel]
    omega

theorem readText_depth {t : Str} {ts : List Tree} (h : readText t = .ok ts) : bracketsAll ts = textDepth t := by
  have := brackets_open (readText_brackets.1 h) 0 []
  simp only [List.append_nil, openBrackets] at this
  unfold textDepth
  omega

theorem node_depth {t : Str} {ts : List Tree} (h : readText t = .ok [.node ts]) : 1 + bracketsAll ts = textDepth t := by
  rw [← readText_depth h]
  simp [bracketsAll, brackets]

theorem node_length {t : Str} {ts : List Tree} (h : readText t = .ok [.node ts]) : 2 + tokensAll ts = (lex t).length := by
  rw [← readText_tokens h]
  simp [tokensAll, tokens]

theorem instOpt_smaller {m : Mapping} {o o' : Option Expr} (h : instOpt m o = .ok o') :
    nodesOpt o' ≤ nodesOpt o ∧ nestingOpt o' ≤ nestingOpt o := by
  unfold instOpt at h
  split at h
  · simp at h; subst h; simp
  · simp only [bind_ok_iff, pure_ok, Except.ok.injEq] at h
    obtain ⟨e, h1, rfl⟩ := h
    exact inst_smaller h1

end Pddl

namespace Pddl.Props
open Spec

/-! ### C94 -/

/-- C94 for domains, whatever the parser has read before: all objects of the domain together, every requirement, type,
constant, predicate, function, action, variable, term, formula and effect being counted where it occurs, are fewer than
the tokens of the text, which are at most as many as its characters. -/
theorem C94_domain {F : FloatOf} {σ σ' : PState} {text : Str} {d : Domain} (h : parseDomain F σ text = .ok (d, σ')) :
    domainNodes d < (lex text).length ∧ (lex text).length ≤ text.length := by
  obtain ⟨ts, h1, h2⟩ := parseDomain_ok h
  have := (domainDef_size h2).1
  have := node_length h1
  exact ⟨by omega, lex_length text⟩

/-- Formulas and effects of a domain are nested less deeply than the brackets of the text: what recurses over them
recurses no deeper than what read the text. -/
theorem C94_domain_depth {F : FloatOf} {σ σ' : PState} {text : Str} {d : Domain} (h : parseDomain F σ text = .ok (d, σ')) :
    (∀ a ∈ d.actions, nestingOpt a.pre + 2 ≤ textDepth text ∧ nestingOpt a.eff + 2 ≤ textDepth text) ∧
    ∀ x ∈ d.derived, nesting x.cond + 2 ≤ textDepth text := by
  obtain ⟨ts, h1, h2⟩ := parseDomain_ok h
  obtain ⟨_, h3, h4⟩ := domainDef_size h2
  have := node_depth h1
  exact ⟨fun a ha => by have := h3 a ha; omega, fun x hx => by have := h4 x hx; omega⟩

/-- C94 for problems, whatever the parser has read before. -/
theorem C94_problem {F : FloatOf} {σ σ' : List (Str × Term)} {text : Str} {p : Problem}
    (h : parseProblem F σ text = .ok (p, σ')) :
    problemNodes p < (lex text).length ∧ (lex text).length ≤ text.length ∧
    (∀ e ∈ p.init, nesting e + 2 ≤ textDepth text) ∧ nesting p.goal + 2 ≤ textDepth text ∧
    ∀ m, p.metric = some m → nesting m.expr + 2 ≤ textDepth text := by
  obtain ⟨ts, h1, ⟨P⟩⟩ := parseProblem_ok h
  obtain ⟨h2, h3, h4, h5⟩ := problemDef_size P
  have := node_length h1
  have := node_depth h1
  refine ⟨by omega, lex_length text, fun e he => ?_, by omega, fun m hm => ?_⟩
  · have := nestingAll_le.1 (Nat.le_refl (nestingAll p.init)) e he
    omega
  · have := h5 m hm
    omega

/-- C94 for plans. -/
theorem C94_plan {text : Str} {p : Plan} (h : parsePlan text = .ok p) :
    planNodes p ≤ (lex text).length ∧ (lex text).length ≤ text.length := by
  unfold parsePlan at h
  simp only [bind_ok_iff, pure_ok, Except.ok.injEq] at h
  obtain ⟨ts, h1, steps, h2, rfl⟩ := h
  refine ⟨?_, lex_length text⟩
  rw [← readText_tokens h1, tokensAll_sum]
  exact mapM_sum h2 (fun t s hs => groundAction_size hs)

/-- C94 for instances: an instance of a formula, effect, action or derived predicate is no larger and not nested more
deeply than what it is made from. -/
theorem C94_instance {m : Mapping} {e e' : Expr} (h : e.inst m = .ok e') : nodes e' ≤ nodes e ∧ nesting e' ≤ nesting e :=
  inst_smaller h

theorem C94_action {a a' : Action} {args : List Term} (h : a.inst args = .ok a') :
    actionNodes a' ≤ actionNodes a ∧ nestingOpt a'.pre ≤ nestingOpt a.pre ∧ nestingOpt a'.eff ≤ nestingOpt a.eff := by
  unfold Action.inst at h
  split at h
  · cases h
  · rename_i hl
    simp only [bind_ok_iff] at h
    obtain ⟨p, h1, e, h2, h3⟩ := h
    unfold mkAction at h3
    simp only [bind_ok_iff, pure_ok, Except.ok.injEq] at h3
    obtain ⟨_, _, rfl⟩ := h3
    obtain ⟨k1, k2⟩ := instOpt_smaller h1
    obtain ⟨k3, k4⟩ := instOpt_smaller h2
    simp only [actionNodes]
    omega

theorem C94_derived {m : Mapping} {d d' : Derived} (h : d.inst m = .ok d') :
    derivedNodes d' ≤ derivedNodes d ∧ nesting d'.cond ≤ nesting d.cond := by
  unfold Derived.inst at h
  simp only [bind_ok_iff, pure_ok, Except.ok.injEq] at h
  obtain ⟨p, h1, c, h2, rfl⟩ := h
  obtain ⟨k1, k2⟩ := inst_smaller h2
  have h3 : (Expr.pred d.pred).inst m = .ok (.pred p) := by simp [Expr.inst, h1]
  have := (inst_smaller h3).1
  simp only [derivedNodes, nodes] at *
  omega

theorem lastNamed_mem {n : Str} {as : List Action} {a : Action} (h : lastNamed n as = some a) : a ∈ as ∧ a.name = n := by
  unfold lastNamed at h
  exact ⟨by simpa using List.mem_of_find?_eq_some h, by simpa using List.find?_some h⟩

theorem actionNodes_mem {d : Domain} {a : Action} (h : a ∈ d.actions) : actionNodes a ≤ domainNodes d := by
  have : actionNodes a ≤ (d.actions.map actionNodes).sum := by
    have := sum_sublist ((List.singleton_sublist.2 h).map actionNodes)
    simpa using this
  unfold domainNodes
  omega

/-- C94 for the actions of a plan: there is one for each step, no larger than an action of the domain of that name. So
all together are at most as large as the length of the plan times the size of the domain. -/
theorem C94_plan_actions {p : Plan} {d : Domain} {as : List Action} (h : p.inst d = .ok as) :
    List.Forall₂ (fun s a => ∃ x ∈ d.actions, x.name = s.1 ∧ actionNodes a ≤ actionNodes x) p.steps as ∧
    (as.map actionNodes).sum ≤ p.steps.length * domainNodes d := by
  have key : List.Forall₂ (fun s a => ∃ x ∈ d.actions, x.name = s.1 ∧ actionNodes a ≤ actionNodes x) p.steps as := by
    unfold Plan.inst at h
    generalize p.steps = l at h
    induction l generalizing as with
    | nil => simp [instSteps] at h; subst h; exact .nil
    | cons s l ih =>
      obtain ⟨n, args⟩ := s
      unfold instSteps at h
      split at h
      · cases h
      · rename_i x hx
        simp only [bind_ok_iff, pure_ok, Except.ok.injEq] at h
        obtain ⟨g, h1, gs, h2, rfl⟩ := h
        rw [schemas_get] at hx
        obtain ⟨k1, k2⟩ := lastNamed_mem hx
        exact .cons ⟨x, k1, k2, (C94_action h1).1⟩ (ih h2)
  refine ⟨key, ?_⟩
  clear h
  generalize p.steps = l at key
  induction key with
  | nil => simp
  | cons h1 _ ih =>
    obtain ⟨x, h2, _, h3⟩ := h1
    have := actionNodes_mem h2
    simp only [List.map_cons, List.sum_cons, List.length_cons, Nat.add_mul]
    omega

/-! Cases that meet the hypotheses. -/

/-- A domain whose precondition and effect are nested. -/
def sizedText : Str := s%"(define (domain d) (:requirements :strips :typing :negative-preconditions) (:types t) (:predicates (p ?x - t) (q)) (:action a :parameters (?x - t) :precondition (and (p ?x) (and (q) (not (p ?x)))) :effect (and (not (q)) (p ?x))))"

/-- 22 objects from 79 tokens. -/
example : (match parseDomain (fun _ => none) PState.fresh sizedText with
    | .ok (d, _) => decide (domainNodes d = 22) && decide (d.actions.map (fun a : Action => (nestingOpt a.pre, nestingOpt a.eff)) = [(2, 2)])
    | .error _ => false) = true := by decide +kernel

example : (lex sizedText).length = 79 ∧ textDepth sizedText = 6 := by decide +kernel

example : (match parseProblem (fun _ => none) [] s%"(define (problem r) (:domain d) (:objects u v) (:init (p u) (not (p v)) (= (f u) 3)) (:goal (and (p u) (not (p v)))) (:metric minimize (+ (f u) (f v))))" with
    | .ok (p, _) => decide (problemNodes p = 24)
    | .error _ => false) = true := by decide +kernel

example : (match parsePlan s%"(a u v) (b)" with | .ok p => decide (planNodes p = 4) | .error _ => false) = true := by decide +kernel

end Pddl.Props
