/-
C97: states change only as the effects are written.
-/
import Verif.Proofs.Frame
import Verif.Proofs.GrammarSound
import Verif.Props.Share

namespace Pddl.Props
open Pddl Spec Grammar

variable {F : FloatOf} {σ : PState} {text : Str} {d : Domain} {σ' : PState} {plan : Plan} {gs : List Action}

/-- The actions of every plan, run from any state: what no written action deletes stays, what none adds is not new, and
what none updates keeps its value. Constants and types stay as they are. -/
theorem C97_frame (hσ : ParserState F σ) (h : parseDomain F σ text = .ok (d, σ')) (hg : plan.inst d = .ok gs) :
    ∃ ts, Brackets (lex text) [.node ts] ∧ ∀ (D : Type) (ρ : Str → D) (I J : Interp D), Runs ρ gs I J →
      J.const = I.const ∧ J.ty = I.ty ∧
      (∀ n, NoAction .del n ts → ∀ ds, I.pred n ds → J.pred n ds) ∧
      (∀ n, NoAction .add n ts → ∀ ds, J.pred n ds → I.pred n ds) ∧
      (∀ n, NoAction .num n ts → ∀ ds, J.fn n ds = I.fn n ds) := by
  obtain ⟨ts, hts, _⟩ := parseDomain_ok h
  have key : ∀ k n, NoAction k n ts → Never k n gs := fun k n hno g hm e he ht => plan_writes hσ h hts hg hm he ht hno
  refine ⟨ts, readText_brackets.1 hts, fun D ρ I J hr => ⟨(runs_fixed hr).1, (runs_fixed hr).2, ?_, ?_, ?_⟩⟩
  · exact fun n hn ds => runs_grow hr (key _ _ hn) ds
  · exact fun n hn ds => runs_shrink hr (key _ _ hn) ds
  · exact fun n hn ds => runs_value hr (key _ _ hn) ds

/-- A predicate that the effects neither add nor delete is the same in all states. -/
theorem C97_static (hσ : ParserState F σ) (h : parseDomain F σ text = .ok (d, σ')) (hg : plan.inst d = .ok gs) :
    ∃ ts, Brackets (lex text) [.node ts] ∧ ∀ n, NoAction .add n ts → NoAction .del n ts →
      ∀ (D : Type) (ρ : Str → D) (I J : Interp D), Runs ρ gs I J → J.pred n = I.pred n := by
  obtain ⟨ts, hts, H⟩ := C97_frame hσ h hg
  refine ⟨ts, hts, fun n h1 h2 D ρ I J hr => ?_⟩
  obtain ⟨_, _, h3, h4, _⟩ := H D ρ I J hr
  funext ds
  exact propext ⟨h4 n h1 ds, h3 n h2 ds⟩

/-- A goal with an atom that is not in the initial state and that no written action adds is not reached by any plan. -/
theorem C97_goal (hσ : ParserState F σ) (h : parseDomain F σ text = .ok (d, σ')) :
    ∃ ts, Brackets (lex text) [.node ts] ∧ ∀ n, NoAction .add n ts → ∀ (p : Pddl.Problem), Needs n p.goal →
      (∀ us, .pred ⟨n, us⟩ ∉ p.init) → ∀ (plan : Plan) gs, plan.inst d = .ok gs →
      ∀ (D : Type) (ρ : Str → D) (I : Interp D), ¬ Solves ρ p gs I := by
  obtain ⟨ts, hts, _⟩ := parseDomain_ok h
  refine ⟨ts, readText_brackets.1 hts, fun n hn p hneed hinit plan gs hg D ρ I => ?_⟩
  rintro ⟨hstart, J, hr, hgoal⟩
  have hno : ∀ ds, ¬ J.pred n ds := by
    intro ds hj
    have hi := runs_shrink hr (fun g hm e he ht => plan_writes hσ h hts hg hm he ht hn) ds hj
    obtain ⟨us, hu, _⟩ := (hstart.pred n ds).1 hi
    exact hinit us hu
  generalize p.goal = goal at hneed hgoal
  unfold Needs at hneed
  split at hneed
  · subst hneed
    simp only [holds] at hgoal
    exact hno _ hgoal
  · obtain ⟨q, hq, rfl⟩ := hneed
    simp only [holds, holdsAll_iff] at hgoal
    exact hno _ (by simpa only [holds] using hgoal _ hq)
  · exact hneed

/-! ### Examples -/

def frameText : Str := s%"(define (domain d) (:requirements :strips :numeric-fluents) (:predicates (at ?x) (road ?x ?y) (key) (won))
  (:functions (dist ?x ?y) (fuel))
  (:action go :parameters (?x ?y) :precondition (and (at ?x) (road ?x ?y) (key))
    :effect (and (not (at ?x)) (at ?y) (not (key)) (decrease (fuel) (dist ?x ?y))))
  (:action win :parameters (?x) :precondition (at ?x) :effect (won)))"

/-- The trees of the text. -/
def frameTrees : List Tree := match readText frameText with | .ok [.node ts] => ts | _ => []

theorem frame_trees : readText frameText = .ok [.node frameTrees] := by decide +kernel

/-- The effects written in the trees. -/
def effectsOf : List Tree → List Tree
  | .node [_, _, _, _, _, _, _, eff] :: ts => eff :: effectsOf ts
  | _ :: ts => effectsOf ts
  | [] => []

theorem noAction_of {k : Kind} {n : Str} {ts : List Tree} (h : (effectsOf ts).all (fun e => !writesTo k n e) = true) : NoAction k n ts := by
  intro m ps pre eff hm
  suffices hs : eff ∈ effectsOf ts by simpa using List.all_eq_true.1 h eff hs
  clear h
  induction ts with
  | nil => simp at hm
  | cons t ts ih =>
    rcases List.mem_cons.1 hm with rfl | hm
    · simp [actionText, effectsOf]
    · unfold effectsOf
      split
      · rename_i heq; simp only [List.cons.injEq] at heq; obtain ⟨_, rfl⟩ := heq; exact List.mem_cons_of_mem _ (ih hm)
      · rename_i heq; simp only [List.cons.injEq] at heq; obtain ⟨_, rfl⟩ := heq; exact ih hm
      · rename_i heq; simp at heq

/-- Roads and distances stay; keys are only lost and games only won; `at` and `fuel` do change. -/
example : NoAction .add s%"road" frameTrees ∧ NoAction .del s%"road" frameTrees ∧ NoAction .num s%"dist" frameTrees ∧
    NoAction .add s%"key" frameTrees ∧ NoAction .del s%"won" frameTrees :=
  ⟨noAction_of (by decide +kernel), noAction_of (by decide +kernel), noAction_of (by decide +kernel),
    noAction_of (by decide +kernel), noAction_of (by decide +kernel)⟩

example : (effectsOf frameTrees).map (writesTo .add s%"at") = [true, false] ∧ (effectsOf frameTrees).map (writesTo .del s%"at") = [true, false] ∧
    (effectsOf frameTrees).map (writesTo .del s%"key") = [true, false] ∧ (effectsOf frameTrees).map (writesTo .add s%"won") = [false, true] ∧
    (effectsOf frameTrees).map (writesTo .num s%"fuel") = [true, false] := by decide +kernel

theorem frame_parses : ∃ d σ', parseDomain (fun _ => none) .fresh frameText = .ok (d, σ') := by
  have h : (parseDomain (fun _ => none) .fresh frameText).toOption.isSome = true := by decide +kernel
  cases h' : parseDomain (fun _ => none) .fresh frameText with
  | error e => rw [h'] at h; simp [Except.toOption] at h
  | ok r => exact ⟨r.1, r.2, rfl⟩

/-- No plan ends with a key when there is none at the start. -/
example (p : Pddl.Problem) (hg : p.goal = .bin .and [.pred ⟨s%"at", [.const s%"b" none]⟩, .pred ⟨s%"key", []⟩])
    (hi : p.init = [.pred ⟨s%"at", [.const s%"a" none]⟩]) : ∃ d σ', parseDomain (fun _ => none) .fresh frameText = .ok (d, σ') ∧
      ∀ (plan : Plan) gs, plan.inst d = .ok gs → ∀ (D : Type) (ρ : Str → D) (I : Interp D), ¬ Solves ρ p gs I := by
  obtain ⟨d, σ', h⟩ := frame_parses
  obtain ⟨ts, hts, H⟩ := C97_goal .fresh h
  have e := readText_brackets.2 hts
  rw [frame_trees] at e
  simp only [Except.ok.injEq, List.cons.injEq, Tree.node.injEq, and_true] at e
  subst e
  refine ⟨d, σ', h, H s%"key" (noAction_of (by decide +kernel)) p ?_ ?_⟩
  · rw [hg]; exact ⟨⟨s%"key", []⟩, by simp, rfl⟩
  · rw [hi]; intro us; simp

/-- A plan of two steps: it leaves the roads and the distances as they are, and the game won if it is. -/
example : ∃ (d : Domain) (σ' : PState) (gs : List Action), parseDomain (fun _ => none) .fresh frameText = .ok (d, σ') ∧
    (⟨[(s%"go", [.const s%"a" none, .const s%"b" none]), (s%"win", [.const s%"b" none])]⟩ : Plan).inst d = .ok gs ∧ gs.length = 2 ∧
    ∀ (D : Type) (ρ : Str → D) (I J : Interp D), Runs ρ gs I J →
      J.pred s%"road" = I.pred s%"road" ∧ (∀ ds, J.fn s%"dist" ds = I.fn s%"dist" ds) ∧ (I.pred s%"won" [] → J.pred s%"won" []) := by
  have h0 : (match parseDomain (fun _ => none) .fresh frameText with
      | .ok (d, _) => (match (⟨[(s%"go", [.const s%"a" none, .const s%"b" none]), (s%"win", [.const s%"b" none])]⟩ : Plan).inst d with
        | .ok gs => decide (gs.length = 2) | .error _ => false)
      | .error _ => false) = true := by decide +kernel
  obtain ⟨d, σ', h⟩ := frame_parses
  rw [h] at h0
  simp only at h0
  cases hg : (⟨[(s%"go", [.const s%"a" none, .const s%"b" none]), (s%"win", [.const s%"b" none])]⟩ : Plan).inst d with
  | error e => rw [hg] at h0; simp at h0
  | ok gs =>
    rw [hg] at h0
    obtain ⟨ts, hts, H⟩ := C97_frame .fresh h hg
    obtain ⟨ts', hts', H'⟩ := C97_static .fresh h hg
    have e := readText_brackets.2 hts
    have e' := readText_brackets.2 hts'
    rw [frame_trees] at e e'
    simp only [Except.ok.injEq, List.cons.injEq, Tree.node.injEq, and_true] at e e'
    subst e e'
    refine ⟨d, σ', gs, h, hg, by simpa using h0, fun D ρ I J hr => ⟨?_, ?_, ?_⟩⟩
    · exact H' s%"road" (noAction_of (by decide +kernel)) (noAction_of (by decide +kernel)) D ρ I J hr
    · exact (H D ρ I J hr).2.2.2.2 s%"dist" (noAction_of (by decide +kernel))
    · exact (H D ρ I J hr).2.2.1 s%"won" (noAction_of (by decide +kernel)) []

end Pddl.Props
