/-
C99: independent steps of a plan can be swapped.
-/
import Verif.Proofs.Swap
import Verif.Props.JoinPlans
import Verif.Props.Frame

namespace Pddl.Props
open Pddl Spec Grammar

variable {F : FloatOf} {σ : PState} {text : Str} {d : Domain} {σ' : PState}

/-- The texts of an action of the domain and of an instance of it. -/
theorem instance_text (hσ : ParserState F σ) (h : parseDomain F σ text = .ok (d, σ')) {ts : List Tree} (hts : readText text = .ok [.node ts])
    {n : Str} {args : List Term} {a g : Action} (ha : lastNamed n d.actions = some a) (hi : a.inst args = .ok g) :
    ∃ ps pre eff, actionText n ps pre eff ∈ ts ∧ (∀ k m e, g.eff = some e → touches k m e → writesTo k m eff = true) ∧
      ∀ m e, PartOf g e → mentions m e → Inside (.atom (.name m)) pre ∨ Inside (.atom (.name m)) eff := by
  obtain ⟨ts', nm, ps, pre, eff, E, p, e', hr, hin, hnm, hpa, hea, _, _, _, _, hpre, heff, _⟩ := action_parts hσ h (lastNamed_mem ha).1
  rw [hts] at hr
  simp only [Except.ok.injEq, List.cons.injEq, Tree.node.injEq, and_true] at hr
  subst hr
  have hn : n = nm := (lastNamed_mem ha).2.symm.trans hnm
  subst hn
  unfold Action.inst at hi
  split at hi
  · simp at hi
  · obtain ⟨pre', h1, hi⟩ := bind_ok_iff.1 hi
    obtain ⟨eff', h2, hi⟩ := bind_ok_iff.1 hi
    obtain ⟨_, rfl⟩ := Rules.mkAction_ok.1 hi
    rw [hpa] at h1
    rw [hea] at h2
    simp only [instOpt] at h1 h2
    obtain ⟨p2, k1, h3⟩ := bind_ok_iff.1 h1
    obtain ⟨e2, k2, h4⟩ := bind_ok_iff.1 h2
    simp only [pure_ok, Except.ok.injEq] at h3 h4
    subst h3 h4
    have key : ∀ {m t x}, Words t x → mentions m x → Inside (.atom (.name m)) t := by
      rintro m t x hw (⟨p, hp, rfl⟩ | ⟨f, hf, rfl⟩)
      · exact hw.1 p hp
      · exact hw.2 f hf
    refine ⟨ps, pre, eff, hin, ?_, ?_⟩
    · rintro k m e ⟨rfl⟩ ht; exact effOpt_touches heff (inst_touches k2 ht)
    · rintro m e (he | he) hm
      · simp only [Option.some.injEq] at he; subst he
        exact .inl (key (preGd_words hpre) (inst_mentions k1 hm))
      · simp only [Option.some.injEq] at he; subst he
        exact .inr (key (effOpt_words heff) (inst_mentions k2 hm))

theorem Independent.symm {ts : List Tree} {a b : Str} (h : Independent ts a b) : Independent ts b a :=
  fun _ _ _ _ _ _ h1 h2 => (h _ _ _ _ _ _ h2 h1).symm

theorem Reordered.perm {ts : List Tree} {l r : List (Str × List Term)} (h : Reordered ts l r) : l.Perm r := by
  induction h with
  | refl => exact .refl _
  | swap _ => exact .append_left _ (.swap _ _ _)
  | trans _ _ h1 h2 => exact h1.trans h2

theorem Reordered.symm {ts : List Tree} {l r : List (Str × List Term)} (h : Reordered ts l r) : Reordered ts r l := by
  induction h with
  | refl => exact .refl
  | swap h => exact .swap (Independent.symm h)
  | trans _ _ h1 h2 => exact .trans h2 h1

/-- The check of a plan does not depend on the order of the steps. -/
theorem C99_check {l r : List (Str × List Term)} (h : l.Perm r) (d : Domain) (pr : Problem) :
    (Plan.mk l).check d pr = (Plan.mk r).check d pr := by
  have key : ∀ {l r : List (Str × List Term)}, l.Perm r → (Plan.mk l).check d pr = .ok () → (Plan.mk r).check d pr = .ok () :=
    fun h h1 => planCheck_ok.2 fun s hs => planCheck_ok.1 h1 s (h.mem_iff.2 hs)
  cases h1 : (Plan.mk l).check d pr with
  | ok u => exact (key h h1).symm
  | error e =>
    cases h2 : (Plan.mk r).check d pr with
    | ok u => rw [key h.symm h2] at h1; cases h1
    | error e' => rw [planCheck_error h1, planCheck_error h2]

/-- Half of the next theorem. -/
theorem reordered_runs (hσ : ParserState F σ) (h : parseDomain F σ text = .ok (d, σ')) {ts : List Tree} (hts : readText text = .ok [.node ts])
    {l r : List (Str × List Term)} (hl : Reordered ts l r) : ∀ gs, (Plan.mk l).inst d = .ok gs →
      ∃ hs, (Plan.mk r).inst d = .ok hs ∧ gs.Perm hs ∧ ∀ (D : Type) (ρ : Str → D) (I J : Interp D), Runs ρ gs I J → Runs ρ hs I J := by
  induction hl with
  | refl => exact fun gs hg => ⟨gs, hg, .refl _, fun _ _ _ _ h => h⟩
  | trans _ _ h1 h2 =>
    intro gs hg
    obtain ⟨hs, k1, k2, k3⟩ := h1 gs hg
    obtain ⟨hs', k1', k2', k3'⟩ := h2 hs k1
    exact ⟨hs', k1', k2.trans k2', fun D ρ I J h => k3' D ρ I J (k3 D ρ I J h)⟩
  | @swap xs ys s s' hi =>
    intro gs hg
    have H := instSteps_ok.1 hg
    simp only at H
    have H1 := List.forall₂_take xs.length H
    have H2 := List.forall₂_drop xs.length H
    rw [← List.take_append_drop xs.length gs]
    rw [List.take_left] at H1
    rw [List.drop_left] at H2
    generalize gs.take xs.length = g1 at *
    generalize gs.drop xs.length = g2 at *
    cases H2 with
    | @cons _ g _ g3 ha H2 =>
      cases H2 with
      | @cons _ g' _ g4 ha' H2 =>
        refine ⟨g1 ++ g' :: g :: g4, instSteps_ok.2 (List.rel_append H1 (.cons ha' (.cons ha H2))), .append_left _ (.swap _ _ _), ?_⟩
        intro D ρ I J hr
        obtain ⟨K, hr1, hr2⟩ := C96_runs.1 hr
        refine C96_runs.2 ⟨K, hr1, ?_⟩
        obtain ⟨a, hla, hia⟩ := ha
        obtain ⟨b, hlb, hib⟩ := ha'
        obtain ⟨ps, pre, eff, hm, hw, hu⟩ := instance_text hσ h hts hla hia
        obtain ⟨ps', pre', eff', hm', hw', hu'⟩ := instance_text hσ h hts hlb hib
        obtain ⟨L1, L2⟩ := hi _ _ _ _ _ _ hm hm'
        cases hr2 with
        | cons hA hr2 =>
          cases hr2 with
          | cons hB hr2 =>
            obtain ⟨K', hB', hA'⟩ := acts_swap (g := g) (h := g')
              (fun k n e he ht e' he' hmn => by
                have := L1 k n (hw k n e he ht)
                exact (hu' n e' he' hmn).elim this.1 this.2)
              (fun k n e he ht e' he' hmn => by
                have := L2 k n (hw' k n e he ht)
                exact (hu n e' he' hmn).elim this.1 this.2) hA hB
            exact .cons hB' (.cons hA' hr2)

/-- Two plans that differ in the order of steps with independent actions: both can be instantiated or neither; they
have the same ground actions, lead from the same states to the same states and solve the same problems. -/
theorem C99_reordered (hσ : ParserState F σ) (h : parseDomain F σ text = .ok (d, σ')) :
    ∃ ts, Brackets (lex text) [.node ts] ∧ ∀ l r, Reordered ts l r →
      (∀ pr, (Plan.mk l).check d pr = (Plan.mk r).check d pr) ∧
      ((∃ gs, (Plan.mk l).inst d = .ok gs) ↔ ∃ hs, (Plan.mk r).inst d = .ok hs) ∧
      ∀ gs hs, (Plan.mk l).inst d = .ok gs → (Plan.mk r).inst d = .ok hs → gs.Perm hs ∧
        ∀ (D : Type) (ρ : Str → D) (I : Interp D), (∀ J, Runs ρ gs I J ↔ Runs ρ hs I J) ∧
          ∀ pr, Solves ρ pr gs I ↔ Solves ρ pr hs I := by
  obtain ⟨ts, hts, _⟩ := parseDomain_ok h
  refine ⟨ts, readText_brackets.1 hts, fun l r hl => ⟨fun pr => C99_check (Reordered.perm hl) d pr, ⟨?_, ?_⟩, ?_⟩⟩
  · rintro ⟨gs, hg⟩; obtain ⟨hs, hh, _⟩ := reordered_runs hσ h hts hl gs hg; exact ⟨hs, hh⟩
  · rintro ⟨gs, hg⟩; obtain ⟨hs, hh, _⟩ := reordered_runs hσ h hts (Reordered.symm hl) gs hg; exact ⟨hs, hh⟩
  · intro gs hs hg hh
    obtain ⟨hs', k1, k2, k3⟩ := reordered_runs hσ h hts hl gs hg
    obtain ⟨gs', m1, m2, m3⟩ := reordered_runs hσ h hts (Reordered.symm hl) hs hh
    rw [hh] at k1
    rw [hg] at m1
    simp only [Except.ok.injEq] at k1 m1
    subst k1 m1
    refine ⟨k2, fun D ρ I => ?_⟩
    have hr : ∀ J, Runs ρ gs I J ↔ Runs ρ hs I J := fun J => ⟨k3 D ρ I J, m3 D ρ I J⟩
    exact ⟨hr, fun pr => by unfold Solves; simp only [hr]⟩

/-! ### A case -/

mutual
/-- The words of a tree. -/
def wordsOf : Tree → List Str
  | .atom (.name w) => [w]
  | .atom _ => []
  | .node ts => wordsOfAll ts
def wordsOfAll : List Tree → List Str
  | [] => []
  | t :: ts => wordsOf t ++ wordsOfAll ts
end

theorem wordsOfAll_mem {t : Tree} {ts : List Tree} (h : t ∈ ts) {n : Str} (hn : n ∈ wordsOf t) : n ∈ wordsOfAll ts := by
  induction ts with
  | nil => simp at h
  | cons u ts ih =>
    rcases List.mem_cons.1 h with rfl | h
    · simp [wordsOfAll, hn]
    · simp [wordsOfAll, ih h]

theorem inside_words {n : Str} {t : Tree} (h : Inside (.atom (.name n)) t) : n ∈ wordsOf t := by
  induction h with
  | refl => simp [wordsOf]
  | node hm _ ih => exact wordsOfAll_mem hm ih

theorem writesTo_words {k : Kind} {n : Str} {t : Tree} (h : writesTo k n t = true) : n ∈ wordsOf t := by
  have hs : ∀ ts : List Tree, (∀ t ∈ ts, writesTo k n t = true → n ∈ wordsOf t) → writesToSome k n ts = true → n ∈ wordsOfAll ts := by
    intro ts ih hw
    induction ts with
    | nil => simp [writesToSome] at hw
    | cons t ts ih' =>
      simp only [writesToSome, Bool.or_eq_true] at hw
      simp only [wordsOfAll, List.mem_append]
      exact hw.imp (ih t (by simp)) (ih' (fun u hu => ih u (List.mem_cons_of_mem _ hu)))
  induction t using Tree.ind with
  | hatom a => simp [writesTo] at h
  | hnode ts ih =>
    unfold writesTo at h
    split at h
    · rename_i w args heq
      simp only [Tree.node.injEq] at heq
      subst heq
      simp only [wordsOf, wordsOfAll, List.singleton_append, List.mem_cons]
      split at h
      · exact .inr (hs args (fun t ht => ih t (List.mem_cons_of_mem _ ht)) h)
      split at h
      · split at h
        · exact .inr (wordsOfAll_mem (t := _) (by simp) (ih _ (by simp) h))
        · simp at h
      split at h
      · simp only [Bool.and_eq_true, decide_eq_true_eq] at h
        have h := h.2
        unfold negatedName at h
        split at h
        · simp only [Option.some.injEq] at h; subst h; simp [wordsOf, wordsOfAll]
        · simp at h
      · split at h
        · simp only [Bool.and_eq_true, decide_eq_true_eq] at h
          have h := h.2
          unfold updatedName at h
          split at h
          · simp only [Option.some.injEq] at h; subst h; simp [wordsOf, wordsOfAll]
          · simp only [Option.some.injEq] at h; subst h; simp [wordsOf, wordsOfAll]
          · simp at h
        · simp only [Bool.and_eq_true, decide_eq_true_eq] at h; exact .inl h.2.symm
    · simp at h

/-- The conditions and effects of the actions of that name. -/
def partsOf (a : Str) : List Tree → List (Tree × Tree)
  | .node [_, .atom (.name n), _, _, _, pre, _, eff] :: ts => if n = a then (pre, eff) :: partsOf a ts else partsOf a ts
  | _ :: ts => partsOf a ts
  | [] => []

theorem partsOf_mem {a : Str} {ps : List Tree} {pre eff : Tree} {ts : List Tree} (h : actionText a ps pre eff ∈ ts) : (pre, eff) ∈ partsOf a ts := by
  induction ts with
  | nil => simp at h
  | cons t ts ih =>
    rcases List.mem_cons.1 h with rfl | h
    · simp [actionText, partsOf]
    · unfold partsOf
      split
      · rename_i heq
        simp only [List.cons.injEq] at heq
        obtain ⟨_, rfl⟩ := heq
        split
        · exact List.mem_cons_of_mem _ (ih h)
        · exact ih h
      · rename_i heq; simp only [List.cons.injEq] at heq; obtain ⟨_, rfl⟩ := heq; exact ih h
      · rename_i heq; simp at heq

def leavesTest (eff pre' eff' : Tree) : Bool :=
  (wordsOf eff).all fun n => !(writesTo .add n eff || writesTo .del n eff || writesTo .num n eff) ||
    (!(wordsOf pre').contains n && !(wordsOf eff').contains n)

theorem leaves_of {eff pre' eff' : Tree} (h : leavesTest eff pre' eff' = true) : Leaves eff pre' eff' := by
  intro k n hw
  have := List.all_eq_true.1 h n (writesTo_words hw)
  simp only [Bool.or_eq_true, Bool.and_eq_true, Bool.not_eq_true', Bool.or_eq_false_iff, List.contains_eq_mem, decide_eq_false_iff_not] at this
  rcases this with ⟨⟨h1, h2⟩, h3⟩ | ⟨h1, h2⟩
  · cases k <;> simp_all
  · exact ⟨fun hi => h1 (inside_words hi), fun hi => h2 (inside_words hi)⟩

theorem independent_of {ts : List Tree} {a b : Str}
    (h : (partsOf a ts).all (fun p => (partsOf b ts).all fun q => leavesTest p.2 q.1 q.2 && leavesTest q.2 p.1 p.2) = true) :
    Independent ts a b := by
  intro ps pre eff ps' pre' eff' h1 h2
  have := List.all_eq_true.1 (List.all_eq_true.1 h _ (partsOf_mem h1)) _ (partsOf_mem h2)
  simp only [Bool.and_eq_true] at this
  exact ⟨leaves_of this.1, leaves_of this.2⟩

def swapText : Str := s%"(define (domain d) (:requirements :strips :numeric-fluents) (:predicates (at ?x) (road ?x ?y) (light) (switch) (won))
  (:functions (fuel))
  (:action go :parameters (?x ?y) :precondition (and (at ?x) (road ?x ?y)) :effect (and (not (at ?x)) (at ?y) (decrease (fuel) 1)))
  (:action turn :parameters () :precondition (and (not (light)) (switch)) :effect (light))
  (:action win :parameters (?x) :precondition (and (at ?x) (light)) :effect (won)))"

def swapTrees : List Tree := match readText swapText with | .ok [.node ts] => ts | _ => []

theorem swap_trees : readText swapText = .ok [.node swapTrees] := by decide +kernel

/-- Going and turning the light on are independent; winning depends on both, and going is not independent of itself. -/
theorem swap_independent : Independent swapTrees s%"go" s%"turn" := independent_of (by decide +kernel)

theorem swap_texts : ((partsOf s%"go" swapTrees).length, (partsOf s%"turn" swapTrees).length, (partsOf s%"win" swapTrees).length) = (1, 1, 1) := by
  decide +kernel

def goStep (x y : Str) : Str × List Term := (s%"go", [.const x none, .const y none])
def turnStep : Str × List Term := (s%"turn", [])
def winStep (x : Str) : Str × List Term := (s%"win", [.const x none])

/-- The light can be turned on before both journeys as well as after them. -/
theorem swap_steps : Reordered swapTrees [goStep s%"a" s%"b", goStep s%"b" s%"c", turnStep, winStep s%"c"]
    [turnStep, goStep s%"a" s%"b", goStep s%"b" s%"c", winStep s%"c"] :=
  .trans (.swap (xs := [goStep s%"a" s%"b"]) (ys := [winStep s%"c"]) swap_independent)
    (.swap (xs := []) (ys := [goStep s%"b" s%"c", winStep s%"c"]) swap_independent)

example : ∃ (d : Domain) (σ' : PState) (gs hs : List Action), parseDomain (fun _ => none) .fresh swapText = .ok (d, σ') ∧
    (Plan.mk [goStep s%"a" s%"b", goStep s%"b" s%"c", turnStep, winStep s%"c"]).inst d = .ok gs ∧
    (Plan.mk [turnStep, goStep s%"a" s%"b", goStep s%"b" s%"c", winStep s%"c"]).inst d = .ok hs ∧ gs.length = 4 ∧ gs.Perm hs ∧
    ∀ (D : Type) (ρ : Str → D) (I : Interp D), (∀ J, Runs ρ gs I J ↔ Runs ρ hs I J) ∧ ∀ pr, Solves ρ pr gs I ↔ Solves ρ pr hs I := by
  have h : (match parseDomain (fun _ => none) .fresh swapText with
      | .ok (d, _) => (match (Plan.mk [goStep s%"a" s%"b", goStep s%"b" s%"c", turnStep, winStep s%"c"]).inst d with
        | .ok gs => decide (gs.length = 4) | .error _ => false)
      | .error _ => false) = true := by decide +kernel
  cases h1 : parseDomain (fun _ => none) .fresh swapText with
  | error e => rw [h1] at h; cases h
  | ok r =>
    rw [h1] at h
    simp only at h
    cases h2 : (Plan.mk [goStep s%"a" s%"b", goStep s%"b" s%"c", turnStep, winStep s%"c"]).inst r.1 with
    | error e => rw [h2] at h; cases h
    | ok gs =>
      rw [h2] at h
      simp only [decide_eq_true_eq] at h
      obtain ⟨ts, hts, H⟩ := C99_reordered .fresh h1
      have e := readText_brackets.2 hts
      rw [swap_trees] at e
      simp only [Except.ok.injEq, List.cons.injEq, Tree.node.injEq, and_true] at e
      subst e
      obtain ⟨_, H2, H3⟩ := H _ _ swap_steps
      obtain ⟨hs, hh⟩ := H2.1 ⟨gs, h2⟩
      obtain ⟨k1, k2⟩ := H3 gs hs h2 hh
      exact ⟨r.1, r.2, gs, hs, rfl, h2, hh, h, k1, k2⟩

end Pddl.Props
