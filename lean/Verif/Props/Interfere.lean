/-
C113: only steps that get in each other's way need their order.
-/
import Verif.Proofs.Interfere
import Verif.Proofs.DecEq
import Verif.Props.Swap

namespace Pddl.Props
open Pddl Spec

/-! ### Orders -/

/-- The elements in another order: unrelated neighbours are swapped, any number of times. -/
inductive SwapsOf {α} (R : α → α → Prop) : List α → List α → Prop
  | refl {l} : SwapsOf R l l
  | swap {xs ys a b} : ¬ R a b → SwapsOf R (xs ++ a :: b :: ys) (xs ++ b :: a :: ys)
  | trans {l m r} : SwapsOf R l m → SwapsOf R m r → SwapsOf R l r

theorem SwapsOf.cons {α} {R : α → α → Prop} {l r : List α} (a : α) (h : SwapsOf R l r) : SwapsOf R (a :: l) (a :: r) := by
  induction h with
  | refl => exact .refl
  | @swap xs ys a' b h => exact .swap (xs := a :: xs) h
  | trans _ _ h1 h2 => exact .trans h1 h2

theorem SwapsOf.move {α} {R : α → α → Prop} {a : α} {u v : List α} (h : ∀ b ∈ u, ¬ R a b) : SwapsOf R (a :: (u ++ v)) (u ++ a :: v) := by
  induction u with
  | nil => exact .refl
  | cons b u ih =>
    exact .trans (.swap (xs := []) (h b (by simp))) (.cons b (ih fun c hc => h c (List.mem_cons_of_mem _ hc)))

/-- Lists with the same order of related elements arise from each other by swapping unrelated neighbours. -/
theorem keepsOrder_swaps {α} [DecidableEq α] {R : α → α → Prop} (hR : ∀ a b, R a b → R b a) {l r : List α} (h : KeepsOrder R l r) :
    SwapsOf R l r := by
  induction l generalizing r with
  | nil => rw [h.1.nil_eq]; exact .refl
  | cons a t ih =>
    obtain ⟨hp, hf⟩ := h
    obtain ⟨u, v, rfl, hau⟩ := List.eq_append_cons_of_mem (hp.mem_iff.1 (List.mem_cons_self (a := a) (l := t)))
    have hind : ∀ b ∈ u, ¬ R a b := by
      intro b hb hab
      have k := hf a b hab
      rw [List.filter_append, List.filter_cons_of_pos (by simp)] at k
      cases hfu : u.filter (fun x => decide (x = a ∨ x = b)) with
      | nil =>
        have := List.filter_eq_nil_iff.1 hfu b hb
        simp at this
      | cons x xs =>
        rw [hfu, List.cons_append, List.cons.injEq] at k
        have : x ∈ u := (List.mem_filter.1 (hfu ▸ List.mem_cons_self : x ∈ u.filter _)).1
        exact hau (k.1 ▸ this)
    refine .trans (.cons a (ih ⟨?_, ?_⟩)) (.move hind)
    · exact (List.perm_cons a).1 (hp.trans List.perm_middle)
    · intro x y hxy
      have k := hf x y hxy
      rw [List.filter_append, List.filter_cons, List.filter_cons] at k
      rw [List.filter_append]
      by_cases hax : decide (a = x ∨ a = y) = true
      · rw [if_pos hax, if_pos hax] at k
        have hnil : u.filter (fun z => decide (z = x ∨ z = y)) = [] := by
          rw [List.filter_eq_nil_iff]
          intro z hz hzz
          simp only [decide_eq_true_eq] at hax hzz
          have hza : z ≠ a := fun e => hau (e ▸ hz)
          apply hind z hz
          rcases hax with rfl | rfl <;> rcases hzz with rfl | rfl
          · exact absurd rfl hza
          · exact hxy
          · exact hR _ _ hxy
          · exact absurd rfl hza
        rw [hnil, List.nil_append, List.cons.injEq] at k
        rw [hnil, List.nil_append]
        exact k.2
      · rw [if_neg hax, if_neg hax] at k
        exact k

theorem interfere_symm {d : Domain} {s s' : Str × List Term} (h : Interfere d s s') : Interfere d s' s := by
  obtain ⟨g, g', h1, h2, h3⟩ := h
  exact ⟨g', g, h2, h1, h3.symm⟩

/-! ### Plans -/

theorem runs_const {D : Type} {ρ : Str → D} {gs : List Action} {I J : Interp D} (h : Runs ρ gs I J) : J.const = I.const := by
  induction h with
  | nil => rfl
  | cons h1 _ ih => rw [ih, h1.2.const]

theorem keepsOrder_symm {α} [DecidableEq α] {R : α → α → Prop} {l r : List α} (h : KeepsOrder R l r) : KeepsOrder R r l :=
  ⟨h.1.symm, fun a b k => (h.2 a b k).symm⟩

/-- Half of the next theorem. -/
theorem swaps_runs {d : Domain} {l r : List (Str × List Term)} (hl : SwapsOf (Interfere d) l r) : ∀ gs, (Plan.mk l).inst d = .ok gs →
    ∃ hs, (Plan.mk r).inst d = .ok hs ∧ gs.Perm hs ∧ ∀ (D : Type) (ρ : Str → D) (I J : Interp D), UniqueNames I → Runs ρ gs I J → Runs ρ hs I J := by
  induction hl with
  | refl => exact fun gs hg => ⟨gs, hg, .refl _, fun _ _ _ _ _ h => h⟩
  | trans _ _ h1 h2 =>
    intro gs hg
    obtain ⟨hs, k1, k2, k3⟩ := h1 gs hg
    obtain ⟨hs', k1', k2', k3'⟩ := h2 hs k1
    exact ⟨hs', k1', k2.trans k2', fun D ρ I J hu h => k3' D ρ I J hu (k3 D ρ I J hu h)⟩
  | @swap xs ys s s' hi =>
    intro gs hg
    have H := instSteps_ok.1 hg
    simp only at H
    have H1 := List.forall₂_take xs.length H
    have H2 := List.forall₂_drop xs.length H
    rw [← List.take_append_drop xs.length gs]
    rw [List.take_left] at H1
    rw [List.drop_left] at H2
    generalize gs.take xs.length = g1 at *
    generalize gs.drop xs.length = g2 at *
    cases H2 with
    | @cons _ g _ g3 ha H2 =>
      cases H2 with
      | @cons _ g' _ g4 ha' H2 =>
        refine ⟨g1 ++ g' :: g :: g4, instSteps_ok.2 (List.rel_append H1 (.cons ha' (.cons ha H2))), .append_left _ (.swap _ _ _), ?_⟩
        intro D ρ I J hu hr
        obtain ⟨K, hr1, hr2⟩ := C96_runs.1 hr
        refine C96_runs.2 ⟨K, hr1, ?_⟩
        have hK : UniqueNames K := by unfold UniqueNames; rw [runs_const hr1]; exact hu
        cases hr2 with
        | cons hA hr2 =>
          cases hr2 with
          | cons hB hr2 =>
            obtain ⟨K', hB', hA'⟩ := acts_commute (g := g) (h := g') (fun k => hi ⟨g, g', ha, ha', .inl k⟩)
              (fun k => hi ⟨g, g', ha, ha', .inr k⟩) hK hA hB
            exact .cons hB' (.cons hA' hr2)

/-- Two plans with the same steps where steps that interfere come in the same order: both pass the check or neither does,
both can be instantiated or neither; they have the same ground actions, and if constants with different names are
different objects, they lead from the same states to the same states and solve the same problems. -/
theorem C113_reordered {d : Domain} {l r : List (Str × List Term)} (h : KeepsOrder (Interfere d) l r) :
    (∀ pr, (Plan.mk l).check d pr = (Plan.mk r).check d pr) ∧
    ((∃ gs, (Plan.mk l).inst d = .ok gs) ↔ ∃ hs, (Plan.mk r).inst d = .ok hs) ∧
    ∀ gs hs, (Plan.mk l).inst d = .ok gs → (Plan.mk r).inst d = .ok hs → gs.Perm hs ∧
      ∀ (D : Type) (ρ : Str → D) (I : Interp D), UniqueNames I → (∀ J, Runs ρ gs I J ↔ Runs ρ hs I J) ∧
        ∀ pr, Solves ρ pr gs I ↔ Solves ρ pr hs I := by
  have hl := keepsOrder_swaps (fun a b => interfere_symm) h
  have hl' := keepsOrder_swaps (fun a b => interfere_symm) (keepsOrder_symm h)
  refine ⟨fun pr => C99_check h.1 d pr, ⟨?_, ?_⟩, ?_⟩
  · rintro ⟨gs, hg⟩; obtain ⟨hs, hh, _⟩ := swaps_runs hl gs hg; exact ⟨hs, hh⟩
  · rintro ⟨gs, hg⟩; obtain ⟨hs, hh, _⟩ := swaps_runs hl' gs hg; exact ⟨hs, hh⟩
  · intro gs hs hg hh
    obtain ⟨hs', k1, k2, k3⟩ := swaps_runs hl gs hg
    obtain ⟨gs', m1, m2, m3⟩ := swaps_runs hl' hs hh
    rw [hh] at k1
    rw [hg] at m1
    simp only [Except.ok.injEq] at k1 m1
    subst k1 m1
    refine ⟨k2, fun D ρ I hu => ?_⟩
    have hr : ∀ J, Runs ρ gs I J ↔ Runs ρ hs I J := fun J => ⟨k3 D ρ I J hu, m3 D ρ I J hu⟩
    exact ⟨hr, fun pr => by unfold Solves; simp only [hr]⟩

theorem pairwise_keeps {α} [DecidableEq α] {R : α → α → Prop} (hR : ∀ a b, R a b → R b a) {l r : List α} (hp : l.Perm r)
    (h : l.Pairwise (fun a b => ¬ R a b)) : KeepsOrder R l r := by
  refine ⟨hp, fun a b hab => ?_⟩
  -- at most one of the two is left
  have hpf := hp.filter (fun x => decide (x = a ∨ x = b))
  have hw := h.filter (fun x => decide (x = a ∨ x = b))
  by_cases he : a = b
  · subst he
    have key : ∀ l : List α, ∀ x ∈ l.filter (fun x => decide (x = a ∨ x = a)), x = a := by
      intro l x hx
      have := (List.mem_filter.1 hx).2
      simpa using this
    rw [List.eq_replicate_of_mem (key l), List.eq_replicate_of_mem (key r), hpf.length_eq]
  · have hone : ∃ c, ∀ x ∈ l.filter (fun x => decide (x = a ∨ x = b)), x = c := by
      by_cases hm : a ∈ l.filter (fun x => decide (x = a ∨ x = b))
      · refine ⟨a, fun x hx => ?_⟩
        have hx' := (List.mem_filter.1 hx).2
        simp only [decide_eq_true_eq] at hx'
        rcases hx' with rfl | rfl
        · rfl
        · haveI : Std.Symm (fun a b => ¬ R a b) := ⟨fun _ _ k k' => k (hR _ _ k')⟩
          exact absurd hab (hw.forall hm hx he)
      · refine ⟨b, fun x hx => ?_⟩
        have hx' := (List.mem_filter.1 hx).2
        simp only [decide_eq_true_eq] at hx'
        rcases hx' with rfl | rfl
        · exact absurd hx hm
        · rfl
    obtain ⟨c, hc⟩ := hone
    rw [List.eq_replicate_of_mem hc, List.eq_replicate_of_mem (fun x hx => hc x (hpf.mem_iff.2 hx)), hpf.length_eq]

/-- Steps no two of which interfere can be taken in any order. -/
theorem C113_any_order {d : Domain} {l r : List (Str × List Term)} (h : l.Pairwise (fun s s' => ¬ Interfere d s s')) (hp : l.Perm r)
    {gs hs : List Action} (hg : (Plan.mk l).inst d = .ok gs) (hh : (Plan.mk r).inst d = .ok hs) {D : Type} {ρ : Str → D} {I : Interp D}
    (hu : UniqueNames I) : (∀ J, Runs ρ gs I J ↔ Runs ρ hs I J) ∧ ∀ pr, Solves ρ pr gs I ↔ Solves ρ pr hs I :=
  ((C113_reordered (pairwise_keeps (fun _ _ => interfere_symm) hp h)).2.2 gs hs hg hh).2 D ρ I hu

/-! ### A case -/

/-- Moving a mark, at a cost. -/
def crossText : Str := s%"(define (domain d) (:requirements :strips :action-costs) (:predicates (q ?x)) (:functions (total-cost) - number)
  (:action m :parameters (?x ?y) :precondition (and (q ?x)) :effect (and (not (q ?x)) (q ?y) (increase (total-cost) 1))))"

def crossStep (x y : Str) : Str × List Term := (s%"m", [.const x none, .const y none])

/-- The ground action of the step. -/
def crossAction (x y : Str) : Action := ⟨s%"m", [.const x none, .const y none], some (.pred ⟨s%"q", [.const x none]⟩),
  some (.bin .and [.not (.pred ⟨s%"q", [.const x none]⟩), .pred ⟨s%"q", [.const y none]⟩,
    .bfun .increase [.nfun ⟨s%"total-cost", []⟩, .num (.int 1)]])⟩

theorem cross_parsed : ∃ d τ, parseDomain (fun _ => none) .fresh crossText = .ok (d, τ) ∧
    (Plan.mk [crossStep s%"a" s%"b", crossStep s%"c" s%"e"]).inst d = .ok [crossAction s%"a" s%"b", crossAction s%"c" s%"e"] := by
  have h : (match parseDomain (fun _ => none) .fresh crossText with
      | .ok (d, _) => decide ((Plan.mk [crossStep s%"a" s%"b", crossStep s%"c" s%"e"]).inst d =
          .ok [crossAction s%"a" s%"b", crossAction s%"c" s%"e"]) | .error _ => false) = true := by decide +kernel
  cases h1 : parseDomain (fun _ => none) .fresh crossText with
  | error e => rw [h1] at h; cases h
  | ok r => rw [h1] at h; exact ⟨r.1, r.2, rfl, by simpa using h⟩

theorem cross_changes {x y : Str} {c : Touch} (h : MayChange (crossAction x y) c) : c = .del ⟨s%"q", [.const x none]⟩ ∨
    c = .add ⟨s%"q", [.const y none]⟩ ∨ c = .num .increase ⟨s%"total-cost", []⟩ := by
  obtain ⟨e, he, h⟩ := h
  simp only [crossAction, Option.some.injEq] at he
  subst he
  cases h with
  | part ha h =>
    simp only [List.mem_cons, List.not_mem_nil, or_false] at ha
    rcases ha with rfl | rfl | rfl <;> cases h <;> simp

theorem cross_uses {x y : Str} {p : Pred} (h : UsesPred (crossAction x y) p) : p = ⟨s%"q", [.const x none]⟩ := by
  rcases h with ⟨e, he, h⟩ | ⟨e, he, h⟩
  · simp only [crossAction, Option.some.injEq] at he; subst he; simpa [predsIn] using h
  · simp only [crossAction, Option.some.injEq] at he
    subst he
    cases h with
    | part ha h =>
      simp only [List.mem_cons, List.not_mem_nil, or_false] at ha
      rcases ha with rfl | rfl | rfl <;> cases h

theorem cross_uses_no_fluent {x y : Str} {f : NFun} : ¬ UsesFun (crossAction x y) f := by
  rintro (⟨e, he, h⟩ | ⟨e, he, h⟩)
  · simp only [crossAction, Option.some.injEq] at he; subst he; simp [funsIn] at h
  · simp only [crossAction, Option.some.injEq] at he
    subst he
    cases h with
    | part ha h =>
      simp only [List.mem_cons, List.not_mem_nil, or_false] at ha
      rcases ha with rfl | rfl | rfl <;> cases h
      rename_i h
      simp [funsIn] at h

/-- Moves between four different places do not disturb each other, although they use the same predicate and both cost. -/
theorem cross_apart {x y x' y' : Str} (h1 : x ≠ x') (h2 : x ≠ y') (h3 : y ≠ x') : ¬ Disturbs (crossAction x y) (crossAction x' y') := by
  have key : ∀ {u v : Str}, MayMeet [.const u none] [.const v none] → u = v := by
    intro u v h
    cases h with
    | cons h _ => exact h u v none none rfl rfl
  intro h
  cases h with
  | added c u n m =>
    have := cross_uses u
    subst this
    rcases cross_changes c with e | e | e <;> simp only [reduceCtorEq, Touch.add.injEq] at e
    subst e; exact h3 (key m)
  | deleted c u n m =>
    have := cross_uses u
    subst this
    rcases cross_changes c with e | e | e <;> simp only [reduceCtorEq, Touch.del.injEq] at e
    subst e; exact h1 (key m)
  | updated _ u _ _ => exact cross_uses_no_fluent u
  | opposed c c' n m =>
    rcases cross_changes c with e | e | e <;> simp only [reduceCtorEq, Touch.add.injEq] at e
    rcases cross_changes c' with e' | e' | e' <;> simp only [reduceCtorEq, Touch.del.injEq] at e'
    subst e e'; exact h3 (key m)
  | both c c' n m hn =>
    rcases cross_changes c with e | e | e <;> simp only [reduceCtorEq, Touch.num.injEq] at e
    rcases cross_changes c' with e' | e' | e' <;> simp only [reduceCtorEq, Touch.num.injEq] at e'
    obtain ⟨rfl, rfl⟩ := e
    obtain ⟨rfl, rfl⟩ := e'
    exact hn ⟨.inl rfl, .inl rfl⟩

/-- Both orders of two such moves lead to the same states, cost included. -/
example : ∃ d τ, parseDomain (fun _ => none) .fresh crossText = .ok (d, τ) ∧
    (Plan.mk [crossStep s%"a" s%"b", crossStep s%"c" s%"e"]).inst d = .ok [crossAction s%"a" s%"b", crossAction s%"c" s%"e"] ∧
    ∃ hs, (Plan.mk [crossStep s%"c" s%"e", crossStep s%"a" s%"b"]).inst d = .ok hs ∧ ∀ (D : Type) (ρ : Str → D) (I : Interp D), UniqueNames I →
      ∀ J, Runs ρ [crossAction s%"a" s%"b", crossAction s%"c" s%"e"] I J ↔ Runs ρ hs I J := by
  obtain ⟨d, τ, h, hg⟩ := cross_parsed
  refine ⟨d, τ, h, hg, ?_⟩
  have H := instSteps_ok.1 hg
  simp only at H
  have hn : ¬ Interfere d (crossStep s%"a" s%"b") (crossStep s%"c" s%"e") := by
    rintro ⟨g, g', k1, k2, k3⟩
    obtain ⟨a, ka, ki⟩ := k1
    obtain ⟨a', ka', ki'⟩ := k2
    cases H with
    | cons h1 h2 =>
      cases h2 with
      | cons h2 _ =>
        obtain ⟨b, kb, kbi⟩ := h1
        obtain ⟨b', kb', kbi'⟩ := h2
        rw [ka] at kb; cases kb
        rw [ka'] at kb'; cases kb'
        rw [ki] at kbi; cases kbi
        rw [ki'] at kbi'; cases kbi'
        rcases k3 with k3 | k3
        · exact cross_apart (by decide) (by decide) (by decide) k3
        · exact cross_apart (by decide) (by decide) (by decide) k3
  have hp : [crossStep s%"a" s%"b", crossStep s%"c" s%"e"].Perm [crossStep s%"c" s%"e", crossStep s%"a" s%"b"] := .swap _ _ _
  have hw : [crossStep s%"a" s%"b", crossStep s%"c" s%"e"].Pairwise (fun s s' => ¬ Interfere d s s') := by
    simpa using hn
  obtain ⟨hs, hh⟩ := (C113_reordered (pairwise_keeps (fun _ _ => interfere_symm) hp hw)).2.1.1 ⟨_, hg⟩
  exact ⟨hs, hh, fun D ρ I hu => (C113_any_order hw hp hg hh hu).1⟩

/-! ### What is needed -/

theorem some_next {D : Type} (C : Change D → Prop) (I : Interp D) : ∃ J, Next C I J := by
  classical
  have hf : ∀ f ds, ∃ y : Option Rat, ((∀ op v, ¬ C (.num op f ds v)) → y = I.fn f ds) ∧
      ∀ op v, C (.num op f ds v) → (∀ op' v', C (.num op' f ds v') → op' = op ∧ v' = v) → y = update op (I.fn f ds) v := by
    intro f ds
    by_cases h : ∃ op v, C (.num op f ds v) ∧ ∀ op' v', C (.num op' f ds v') → op' = op ∧ v' = v
    · obtain ⟨op, v, h1, h2⟩ := h
      refine ⟨update op (I.fn f ds) v, fun k => absurd h1 (k _ _), fun op' v' k _ => ?_⟩
      obtain ⟨rfl, rfl⟩ := h2 _ _ k; rfl
    · exact ⟨I.fn f ds, fun _ => rfl, fun op v k k' => absurd ⟨op, v, k, k'⟩ h⟩
  choose Y h1 h2 using hf
  exact ⟨⟨I.const, I.ty, fun n ds => C (.add n ds) ∨ I.pred n ds ∧ ¬ C (.del n ds), Y⟩, rfl, rfl, fun _ _ => Iff.rfl, h1, h2⟩

/-- Constants stand for the objects `n` gives; only `(q a)` holds. -/
def crossStart (n : Str → Str) : Interp Str := ⟨n, fun _ _ => True, fun p ds => p = s%"q" ∧ ds = [s%"a"], fun _ _ => some 0⟩

theorem cross_acts {x y : Str} {ρ : Str → Str} {I : Interp Str} (h : I.pred s%"q" [I.const x]) : ∃ J, Acts ρ (crossAction x y) I J ∧
    J.const = I.const ∧ ∀ ds, J.pred s%"q" ds ↔ ds = [I.const y] ∨ I.pred s%"q" ds ∧ ds ≠ [I.const x] := by
  obtain ⟨J, hJ⟩ := some_next (fun c => ∃ e, (crossAction x y).eff = some e ∧ makes I c e ρ) I
  refine ⟨J, ⟨?_, hJ⟩, hJ.const, fun ds => ?_⟩
  · intro e he
    simp only [crossAction, Option.some.injEq] at he
    subst he
    exact h
  · rw [hJ.pred]
    simp [crossAction, makes, makesSome, deletes, updated, denote]

/-- Steps that interfere: with the other order the plan can not be carried out. -/
theorem C113_order_matters : ∃ I : Interp Str, UniqueNames I ∧ (∃ J, Runs id [crossAction s%"a" s%"b", crossAction s%"b" s%"c"] I J) ∧
    ¬ ∃ J, Runs id [crossAction s%"b" s%"c", crossAction s%"a" s%"b"] I J := by
  refine ⟨crossStart id, fun _ _ h => h, ?_, ?_⟩
  · obtain ⟨J, h1, h2, h3⟩ := cross_acts (x := s%"a") (y := s%"b") (ρ := id) (I := crossStart id) ⟨rfl, rfl⟩
    obtain ⟨K, k1, _⟩ := cross_acts (x := s%"b") (y := s%"c") (ρ := id) (I := J) (by rw [h2, h3]; exact .inl rfl)
    exact ⟨K, .cons h1 (.cons k1 .nil)⟩
  · rintro ⟨J, h⟩
    cases h with
    | cons h _ =>
      have := (h.1 _ rfl).2
      simp [denote, crossStart] at this

/-- Without different objects for different names the two orders of steps that do not interfere may end differently: here
`e` is the object `a`. -/
theorem C113_names_matter : ¬ Disturbs (crossAction s%"a" s%"b") (crossAction s%"c" s%"e") ∧ ¬ Disturbs (crossAction s%"c" s%"e") (crossAction s%"a" s%"b") ∧
    ∃ (I J : Interp Str), Runs id [crossAction s%"a" s%"b", crossAction s%"c" s%"e"] I J ∧ ¬ Runs id [crossAction s%"c" s%"e", crossAction s%"a" s%"b"] I J := by
  refine ⟨cross_apart (by decide) (by decide) (by decide), cross_apart (by decide) (by decide) (by decide), ?_⟩
  let n : Str → Str := fun w => if w = s%"e" then s%"a" else w
  let I : Interp Str := ⟨n, fun _ _ => True, fun p ds => p = s%"q" ∧ (ds = [s%"a"] ∨ ds = [s%"c"]), fun _ _ => some 0⟩
  obtain ⟨J, h1, h2, h3⟩ := cross_acts (x := s%"a") (y := s%"b") (ρ := id) (I := I) ⟨rfl, .inl rfl⟩
  obtain ⟨K, k1, _, k3⟩ := cross_acts (x := s%"c") (y := s%"e") (ρ := id) (I := J) (by
    rw [h2, h3]; exact .inr ⟨⟨rfl, .inr rfl⟩, by simp only [I, n]; decide⟩)
  refine ⟨I, K, .cons h1 (.cons k1 .nil), ?_⟩
  have hK : K.pred s%"q" [s%"a"] := by rw [k3, h2]; exact .inl rfl
  intro h
  cases h with
  | cons a1 h =>
    cases h with
    | cons a2 h =>
      cases h
      have := (a2.2.pred s%"q" [s%"a"]).1 hK
      have hc := a1.2.const
      simp [crossAction, makes, makesSome, deletes, updated, denote, hc, I, n] at this

end Pddl.Props
