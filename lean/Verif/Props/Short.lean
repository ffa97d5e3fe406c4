/-
C114: plans can be shortened.
-/
import Verif.Proofs.Short
import Verif.Proofs.Problem
import Verif.Props.Interfere

namespace Pddl.Props
open Pddl Pddl.Spec

theorem step_noEffect {a g : Action} {args : List Term} (h : a.inst args = .ok g) : ∀ e, g.eff = some e → NoEffect e := by
  unfold Action.inst at h
  split at h
  · cases h
  · obtain ⟨pre, _, h⟩ := bind_ok_iff.1 h
    obtain ⟨eff, he, h⟩ := bind_ok_iff.1 h
    have hg : g.eff = eff := by
      unfold mkAction at h
      obtain ⟨_, _, h⟩ := bind_ok_iff.1 h
      cases h; rfl
    intro e hge
    rw [hg] at hge
    subst hge
    cases ha : a.eff with
    | none => rw [ha] at he; cases he
    | some b =>
      rw [ha] at he
      unfold instOpt at he
      obtain ⟨e', h1, h2⟩ := bind_ok_iff.1 he
      cases h2
      exact inst_noEffect h1

/-- If the ground actions of a plan change nothing but whether `n` atoms hold, then what the plan reaches can be reached by
fewer than `2 ^ n` of its steps, in the order in which they are. -/
theorem C114_shorter {d : Domain} {l : List (Str × List Term)} {gs : List Action} {facts : List Pred} (hg : (Plan.mk l).inst d = .ok gs)
    (hf : OnlyFacts facts gs) {D : Type} {ρ : Str → D} {I J : Interp D} (hr : Runs ρ gs I J) :
    ∃ l' gs', l'.Sublist l ∧ l'.length < 2 ^ facts.length ∧ (Plan.mk l').inst d = .ok gs' ∧ Runs ρ gs' I J := by
  have H := instSteps_ok.1 hg
  simp only at H
  have hn : ∀ g ∈ gs, ∀ e, g.eff = some e → NoEffect e := by
    intro g hm
    obtain ⟨s, _, a, _, ha⟩ := forall2_mem H g hm
    exact step_noEffect ha
  obtain ⟨l', gs', h1, h2, h3, h4⟩ := runs_short hr (onlyChange_of hf hn I) H
  refine ⟨l', gs', h1, ?_, instSteps_ok.2 h2, h4⟩
  rw [h2.length_eq]
  simpa using h3

/-- The same for the plans of a problem; the shorter plan is checked if the longer one is. -/
theorem C114_solves {d : Domain} {pr : Problem} {l : List (Str × List Term)} {gs : List Action} {facts : List Pred}
    (hg : (Plan.mk l).inst d = .ok gs) (hf : OnlyFacts facts gs) {D : Type} {ρ : Str → D} {I : Interp D} (hs : Solves ρ pr gs I) :
    ∃ l' gs', l'.Sublist l ∧ l'.length < 2 ^ facts.length ∧ (Plan.mk l').inst d = .ok gs' ∧ Solves ρ pr gs' I ∧
      ((Plan.mk l).check d pr = .ok () → (Plan.mk l').check d pr = .ok ()) := by
  obtain ⟨h0, J, h1, h2⟩ := hs
  obtain ⟨l', gs', k1, k2, k3, k4⟩ := C114_shorter hg hf h1
  exact ⟨l', gs', k1, k2, k3, ⟨h0, J, k4, h2⟩, fun hc => planCheck_ok.2 fun s hs => planCheck_ok.1 hc s (k1.subset hs)⟩

/-- So a problem whose ground actions change nothing but whether `n` atoms hold has a plan if and only if it has one of fewer than
`2 ^ n` steps. -/
theorem C114_bound {d : Domain} {pr : Problem} {facts : List Pred} (hf : ∀ l gs, (Plan.mk l).check d pr = .ok () → (Plan.mk l).inst d = .ok gs →
    OnlyFacts facts gs) {D : Type} {ρ : Str → D} {I : Interp D} :
    (∃ l gs, (Plan.mk l).check d pr = .ok () ∧ (Plan.mk l).inst d = .ok gs ∧ Solves ρ pr gs I) ↔
    ∃ l gs, l.length < 2 ^ facts.length ∧ (Plan.mk l).check d pr = .ok () ∧ (Plan.mk l).inst d = .ok gs ∧ Solves ρ pr gs I := by
  constructor
  · rintro ⟨l, gs, h1, h2, h3⟩
    obtain ⟨l', gs', _, k2, k3, k4, k5⟩ := C114_solves h2 (hf l gs h1 h2) h3
    exact ⟨l', gs', k2, k5 h1, k3, k4⟩
  · rintro ⟨l, gs, _, h⟩
    exact ⟨l, gs, h⟩

/-! ### A case -/

/-- Moving a mark. -/
def walkText : Str := s%"(define (domain d) (:predicates (q ?x))
  (:action m :parameters (?x ?y) :precondition (and (q ?x)) :effect (and (not (q ?x)) (q ?y))))"

def walkAction (x y : Str) : Action := ⟨s%"m", [.const x none, .const y none], some (.pred ⟨s%"q", [.const x none]⟩),
  some (.bin .and [.not (.pred ⟨s%"q", [.const x none]⟩), .pred ⟨s%"q", [.const y none]⟩])⟩

/-- From `a` to `b` and back, again and again. -/
def walkPairs : List (Str × Str) := [(s%"a", s%"b"), (s%"b", s%"a"), (s%"a", s%"b"), (s%"b", s%"a"), (s%"a", s%"b")]

theorem walk_parsed : ∃ d τ, parseDomain (fun _ => none) .fresh walkText = .ok (d, τ) ∧
    (Plan.mk (walkPairs.map fun q => crossStep q.1 q.2)).inst d = .ok (walkPairs.map fun q => walkAction q.1 q.2) := by
  have h : (match parseDomain (fun _ => none) .fresh walkText with
      | .ok (d, _) => decide ((Plan.mk (walkPairs.map fun q => crossStep q.1 q.2)).inst d =
          .ok (walkPairs.map fun q => walkAction q.1 q.2)) | .error _ => false) = true := by decide +kernel
  cases h1 : parseDomain (fun _ => none) .fresh walkText with
  | error e => rw [h1] at h; cases h
  | ok r => rw [h1] at h; exact ⟨r.1, r.2, rfl, by simpa using h⟩

theorem walk_changes {x y : Str} {c : Touch} (h : MayChange (walkAction x y) c) : c = .del ⟨s%"q", [.const x none]⟩ ∨
    c = .add ⟨s%"q", [.const y none]⟩ := by
  obtain ⟨e, he, h⟩ := h
  simp only [walkAction, Option.some.injEq] at he
  subst he
  cases h with
  | part ha h =>
    simp only [List.mem_cons, List.not_mem_nil, or_false] at ha
    rcases ha with rfl | rfl <;> cases h <;> simp

theorem walk_acts {x y : Str} {ρ : Str → Str} {I : Interp Str} (h : I.pred s%"q" [I.const x]) : ∃ J, Acts ρ (walkAction x y) I J ∧
    J.const = I.const ∧ ∀ ds, J.pred s%"q" ds ↔ ds = [I.const y] ∨ I.pred s%"q" ds ∧ ds ≠ [I.const x] := by
  obtain ⟨J, hJ⟩ := some_next (fun c => ∃ e, (walkAction x y).eff = some e ∧ makes I c e ρ) I
  refine ⟨J, ⟨?_, hJ⟩, hJ.const, fun ds => ?_⟩
  · intro e he
    simp only [walkAction, Option.some.injEq] at he
    subst he
    exact h
  · rw [hJ.pred]
    simp [walkAction, makes, makesSome, deletes, denote]

/-- The walk of five steps changes only `(q a)` and `(q b)` and can be taken from the state in which only `(q a)` holds, so at
most three of its steps do the same. -/
example : ∃ d τ, parseDomain (fun _ => none) .fresh walkText = .ok (d, τ) ∧ ∃ gs,
    (Plan.mk (walkPairs.map fun q => crossStep q.1 q.2)).inst d = .ok gs ∧ ∃ J, Runs id gs (crossStart id) J ∧
    ∃ l' gs', l'.Sublist (walkPairs.map fun q => crossStep q.1 q.2) ∧ l'.length < 4 ∧ (Plan.mk l').inst d = .ok gs' ∧ Runs id gs' (crossStart id) J := by
  obtain ⟨d, τ, h, hg⟩ := walk_parsed
  refine ⟨d, τ, h, _, hg, ?_⟩
  have hf : OnlyFacts [⟨s%"q", [.const s%"a" none]⟩, ⟨s%"q", [.const s%"b" none]⟩] (walkPairs.map fun q => walkAction q.1 q.2) := by
    intro g hm c hc
    obtain ⟨⟨x, y⟩, hq, rfl⟩ := List.mem_map.1 hm
    simp only [walkPairs, List.mem_cons, List.not_mem_nil, or_false, Prod.mk.injEq] at hq
    rcases walk_changes hc with rfl | rfl <;> rcases hq with ⟨rfl, rfl⟩ | ⟨rfl, rfl⟩ | ⟨rfl, rfl⟩ | ⟨rfl, rfl⟩ | ⟨rfl, rfl⟩ <;> simp
  obtain ⟨J1, a1, c1, p1⟩ := walk_acts (x := s%"a") (y := s%"b") (ρ := id) (I := crossStart id) ⟨rfl, rfl⟩
  obtain ⟨J2, a2, c2, p2⟩ := walk_acts (x := s%"b") (y := s%"a") (ρ := id) (I := J1) (by rw [c1, p1]; exact .inl rfl)
  obtain ⟨J3, a3, c3, p3⟩ := walk_acts (x := s%"a") (y := s%"b") (ρ := id) (I := J2) (by rw [c2, p2]; exact .inl rfl)
  obtain ⟨J4, a4, c4, p4⟩ := walk_acts (x := s%"b") (y := s%"a") (ρ := id) (I := J3) (by rw [c3, p3]; exact .inl rfl)
  obtain ⟨J5, a5, c5, p5⟩ := walk_acts (x := s%"a") (y := s%"b") (ρ := id) (I := J4) (by rw [c4, p4]; exact .inl rfl)
  have hr : Runs id (walkPairs.map fun q => walkAction q.1 q.2) (crossStart id) J5 := .cons a1 (.cons a2 (.cons a3 (.cons a4 (.cons a5 .nil))))
  exact ⟨J5, hr, C114_shorter hg hf hr⟩

/-! ### What is needed -/

/-- Paying one. -/
def payOne : Action := ⟨s%"t", [], none, some (.bfun .increase [.nfun ⟨s%"total-cost", []⟩, .num (.int 1)])⟩

def payState (k : Nat) : Interp Str := ⟨id, fun _ _ => True, fun _ _ => False, fun f ds => if f = s%"total-cost" ∧ ds = [] then some (k : Rat) else none⟩

theorem payOne_acts {k : Nat} {J : Interp Str} : Acts id payOne (payState k) J ↔ J = payState (k + 1) := by
  have hm : ∀ c : Change Str, (∃ e, payOne.eff = some e ∧ makes (payState k) c e id) ↔ c = .num .increase s%"total-cost" [] 1 := by
    intro c
    have h1 : numVal (Num.int 1) = some 1 := by decide +kernel
    simp [payOne, makes, updated, updates, value, h1]
  constructor
  · rintro ⟨_, hJ⟩
    have hJ : Next (fun c => c = .num .increase s%"total-cost" [] 1) (payState k) J := by
      have := funext fun c => propext (hm c)
      exact this ▸ hJ
    refine interp_ext hJ.const hJ.ty ?_ fun n ds => ?_
    · funext f ds
      by_cases h : f = s%"total-cost" ∧ ds = []
      · obtain ⟨rfl, rfl⟩ := h
        rw [hJ.updated s%"total-cost" [] .increase 1 rfl (by rintro op v h; cases h; exact ⟨rfl, rfl⟩)]
        simp [payState, update]
      · rw [hJ.same f ds (by rintro op v h'; cases h'; exact h ⟨rfl, rfl⟩)]
        simp only [payState, h, if_false]
    · rw [hJ.pred]; simp [payState]
  · rintro rfl
    refine ⟨fun e he => by simp [payOne] at he, ?_⟩
    have hJ : Next (fun c => c = .num .increase s%"total-cost" [] 1) (payState k) (payState (k + 1)) := by
      obtain ⟨J, hJ⟩ := some_next (fun c : Change Str => c = .num .increase s%"total-cost" [] 1) (payState k)
      refine ⟨rfl, rfl, fun n ds => by simp [payState], fun f ds h => ?_, fun f ds op v h _ => ?_⟩
      · have : ¬ (f = s%"total-cost" ∧ ds = []) := by rintro ⟨rfl, rfl⟩; exact h _ _ rfl
        simp only [payState, this, if_false]
      · cases h; simp [payState, update]
    have := funext fun c => propext (hm c)
    rw [← this] at hJ
    exact hJ

theorem payOne_runs {n k : Nat} {J : Interp Str} : Runs id (List.replicate n payOne) (payState k) J ↔ J = payState (k + n) := by
  induction n generalizing k with
  | zero =>
    constructor
    · intro h; cases h; rfl
    · rintro rfl; exact .nil
  | succ n ih =>
    constructor
    · intro h
      cases h with
      | cons h1 h2 =>
        rw [payOne_acts] at h1
        subst h1
        rw [ih.1 h2]; congr 1; omega
    · rintro rfl
      refine .cons (payOne_acts.2 rfl) (ih.2 ?_)
      congr 1; omega

/-- With numbers there is no such bound: what paying one `n` times reaches can not be reached in fewer steps, though no atom
changes. -/
theorem C114_numbers_matter (n : Nat) : (∀ c, MayChange payOne c → c = .num .increase ⟨s%"total-cost", []⟩) ∧
    ∃ I J : Interp Str, Runs id (List.replicate n payOne) I J ∧ ∀ k, Runs id (List.replicate k payOne) I J → k = n := by
  refine ⟨?_, payState 0, payState n, payOne_runs.2 (by simp), fun k hk => ?_⟩
  · rintro c ⟨e, he, h⟩
    simp only [payOne, Option.some.injEq] at he
    subst he
    cases h; rfl
  · have := congrArg (fun I : Interp Str => I.fn s%"total-cost" []) (payOne_runs.1 hk)
    simp [payState] at this
    exact_mod_cast this.symm

end Pddl.Props
