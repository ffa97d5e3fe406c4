/-
C109: what no condition depends on does not matter, and steps that change nothing else can be left out.
-/
import Verif.Proofs.Cone
import Verif.Props.Swap
import Verif.Props.GrowProblem

namespace Pddl.Props
open Pddl Spec Grammar

variable {F : FloatOf} {σ : PState} {text : Str} {d : Domain} {σ' : PState} {R : Str → Prop}

/-- The ground action of a step by an action that depends on `R` only. -/
theorem instance_covered (hσ : ParserState F σ) (h : parseDomain F σ text = .ok (d, σ')) {ts : List Tree} (hts : readText text = .ok [.node ts])
    {n : Str} {args : List Term} {a g : Action} (ha : lastNamed n d.actions = some a) (hi : a.inst args = .ok g) (hc : Covers R ts n) :
    CoveredBy R g := by
  obtain ⟨ts', nm, ps, pre, eff, E, p, e', hr, hin, hnm, hpa, hea, _, _, _, _, hpre, heff, _⟩ := action_parts hσ h (lastNamed_mem ha).1
  rw [hts] at hr
  simp only [Except.ok.injEq, List.cons.injEq, Tree.node.injEq, and_true] at hr
  subst hr
  have hn : n = nm := (lastNamed_mem ha).2.symm.trans hnm
  subst hn
  obtain ⟨c1, c2⟩ := hc _ _ _ hin
  unfold Action.inst at hi
  split at hi
  · simp at hi
  · obtain ⟨pre', h1, hi⟩ := bind_ok_iff.1 hi
    obtain ⟨eff', h2, hi⟩ := bind_ok_iff.1 hi
    obtain ⟨_, rfl⟩ := Rules.mkAction_ok.1 hi
    rw [hpa] at h1
    rw [hea] at h2
    simp only [instOpt] at h1 h2
    obtain ⟨p2, k1, h3⟩ := bind_ok_iff.1 h1
    obtain ⟨e2, k2, h4⟩ := bind_ok_iff.1 h2
    simp only [pure_ok, Except.ok.injEq] at h3 h4
    subst h3 h4
    refine ⟨?_, ?_⟩
    · rintro e ⟨rfl⟩; exact inst_namedIn k1 ((preGd_words hpre).namedIn c1)
    · rintro e ⟨rfl⟩; exact inst_feeds k2 (effOpt_feeds heff c2)

/-- A plan without its steps by actions that change nothing in `R`. -/
theorem plan_leaner (hσ : ParserState F σ) (h : parseDomain F σ text = .ok (d, σ')) {ts : List Tree} (hts : readText text = .ok [.node ts])
    (keep : Str → Bool) {l : List (Str × List Term)} {gs : List Action}
    (hl : ∀ s ∈ l, (keep s.1 = true → Covers R ts s.1) ∧ (keep s.1 = false → Useless R ts s.1))
    (H : List.Forall₂ (fun s g => ∃ a, lastNamed s.1 d.actions = some a ∧ a.inst s.2 = .ok g) l gs) :
    ∃ hs, List.Forall₂ (fun s g => ∃ a, lastNamed s.1 d.actions = some a ∧ a.inst s.2 = .ok g) (l.filter fun s => keep s.1) hs ∧
      hs.Sublist gs ∧ Leaner R gs hs := by
  induction H with
  | nil => exact ⟨[], .nil, .slnil, .nil⟩
  | @cons s g l gs hsg H ih =>
    obtain ⟨hs, k1, k2, k3⟩ := ih (fun s hs => hl s (List.mem_cons_of_mem _ hs))
    obtain ⟨a, ha, hi⟩ := hsg
    by_cases hk : keep s.1 = true
    · rw [List.filter_cons_of_pos (by exact hk)]
      exact ⟨g :: hs, .cons ⟨a, ha, hi⟩ k1, k2.cons_cons g, .keep (instance_covered hσ h hts ha hi ((hl s (by simp)).1 hk)) k3⟩
    · rw [List.filter_cons_of_neg (by exact hk)]
      refine ⟨hs, k1, k2.cons g, .drop (fun k n e hn he ht => ?_) k3⟩
      obtain ⟨ps, pre, eff, hin, hw, _⟩ := instance_text hσ h hts ha hi
      have := hw k n e he ht
      rw [(hl s (by simp)).2 (by simpa using hk) ps pre eff hin k n hn] at this
      simp at this

/-- The text of a domain, a set `R` of words, and a plan each of whose steps is by an action to be kept or to be left
out. The actions to be kept ask only about names in `R`, and compute the values of fluents in `R` from names in `R`. The
actions to be left out change nothing in `R`. Then the plan without the steps to be left out can be instantiated, and it
can be carried out in every state that agrees on `R` with a state in which the whole plan can be carried out. Afterwards
the states again agree on `R`. -/
theorem C109_runs (hσ : ParserState F σ) (h : parseDomain F σ text = .ok (d, σ')) {plan : Plan} {gs : List Action}
    (hg : plan.inst d = .ok gs) :
    ∃ ts, Brackets (lex text) [.node ts] ∧ ∀ (R : Str → Prop) (keep : Str → Bool),
      (∀ s ∈ plan.steps, (keep s.1 = true → Covers R ts s.1) ∧ (keep s.1 = false → Useless R ts s.1)) →
      ∃ hs, (Plan.mk (plan.steps.filter fun s => keep s.1)).inst d = .ok hs ∧ hs.Sublist gs ∧
        ∀ (D : Type) (ρ : Str → D) (I I' J : Interp D), SameOn R I I' → Runs ρ gs I J → ∃ J', Runs ρ hs I' J' ∧ SameOn R J J' := by
  obtain ⟨ts, hts, _⟩ := parseDomain_ok h
  refine ⟨ts, readText_brackets.1 hts, fun R keep hk => ?_⟩
  obtain ⟨hs, k1, k2, k3⟩ := plan_leaner hσ h hts keep hk (instSteps_ok.1 hg)
  exact ⟨hs, instSteps_ok.2 k1, k2, fun D ρ I I' J hs hr => runs_same k3 hs hr⟩

/-- With a goal that only asks about `R`: if the plan solves a problem, then the plan without the steps to be left out
solves every problem with the same goal and the same facts and values for the names in `R`. -/
theorem C109_solves (hσ : ParserState F σ) (h : parseDomain F σ text = .ok (d, σ')) {plan : Plan} {gs : List Action}
    (hg : plan.inst d = .ok gs) {ptext : Str} {t : Tree} {s : ProblemSections} {τ τ' : List (Str × Term)} {p : Problem}
    (ht : Brackets (lex ptext) [t]) (hs : s.Of t) (hp : parseProblem F τ ptext = .ok (p, τ')) :
    ∃ ts, Brackets (lex text) [.node ts] ∧ ∀ (R : Str → Prop) (keep : Str → Bool), NamesIn R s.goal →
      (∀ s ∈ plan.steps, (keep s.1 = true → Covers R ts s.1) ∧ (keep s.1 = false → Useless R ts s.1)) →
      ∃ hs, (Plan.mk (plan.steps.filter fun s => keep s.1)).inst d = .ok hs ∧
        ∀ (p' : Problem), p'.goal = p.goal → SameFacts R p.init p'.init →
          ∀ (D : Type) (ρ : Str → D) (I I' : Interp D), StartsIn ρ p'.init I' → I'.const = I.const → I'.ty = I.ty →
            Solves ρ p gs I → Solves ρ p' hs I' := by
  obtain ⟨ts, hts, hrun⟩ := C109_runs hσ h hg
  refine ⟨ts, hts, fun R keep hR hk => ?_⟩
  obtain ⟨hs', k1, _, k3⟩ := hrun R keep hk
  refine ⟨hs', k1, fun p' hgoal hf D ρ I I' hi' hc hty => ?_⟩
  rintro ⟨hi, J, hr, hh⟩
  obtain ⟨J', hr', hJ⟩ := k3 D ρ I I' J (starts_same hf hi hi' hc hty) hr
  refine ⟨hi', J', hr', ?_⟩
  rw [hgoal]
  refine (holds_on (hJ.agree ?_) ρ).2 hh
  have hr := readText_brackets.2 ht
  obtain ⟨_, _, e⟩ := id hs
  subst e
  unfold parseProblem at hp
  rw [hr, ok_bind] at hp
  dsimp only at hp
  rw [problemDef_sections hs] at hp
  obtain ⟨reqs, _, hp⟩ := bind_ok_iff.1 hp
  obtain ⟨⟨objs, σo⟩, _, hp⟩ := bind_ok_iff.1 hp
  obtain ⟨init, _, hp⟩ := bind_ok_iff.1 hp
  obtain ⟨goal, h4, hp⟩ := bind_ok_iff.1 hp
  obtain ⟨metric, _, hp⟩ := bind_ok_iff.1 hp
  obtain ⟨q, h6, hp⟩ := bind_ok_iff.1 hp
  simp only [pure_ok, Except.ok.injEq, Prod.mk.injEq] at hp
  obtain ⟨rfl, _⟩ := hp
  rw [(mkProblem_fields h6).2.2.2.2.1]
  exact (gd_iff.1 h4).words.namedIn hR

/-! ### A case -/

/-- A domain with costs, and with an action that paints. -/
def coneText : Str := s%"(define (domain d) (:requirements :strips :numeric-fluents) (:predicates (at ?x) (road ?x ?y) (red ?x))
  (:functions (cost) (fee))
  (:action go :parameters (?x ?y) :precondition (and (at ?x) (road ?x ?y))
    :effect (and (not (at ?x)) (at ?y) (increase (cost) (fee))))
  (:action paint :parameters (?x) :precondition (at ?x) :effect (red ?x)))"

def coneTrees : List Tree := match readText coneText with | .ok [.node ts] => ts | _ => []

theorem cone_trees : readText coneText = .ok [.node coneTrees] := by decide +kernel

/-- The words on which moving depends. -/
def coneWords : List Str := [s%"and", s%"at", s%"road", s%"x", s%"y", s%"b"]

def coneKeep (n : Str) : Bool := decide (n = s%"go")

theorem namesIn_of {l : List Str} {t : Tree} (h : (wordsOf t).all (fun n => l.contains n) = true) : NamesIn (· ∈ l) t := by
  intro n hn
  simpa using List.all_eq_true.1 h n (inside_words hn)

theorem cone_go : Covers (· ∈ coneWords) coneTrees s%"go" := by
  intro ps pre eff hm
  have h := partsOf_mem hm
  have : partsOf s%"go" coneTrees = [(.node [word s%"and", .node (word s%"at" :: varTrees s%"x"), .node (word s%"road" :: varTrees s%"x" ++ varTrees s%"y")],
      .node [word s%"and", .node [word s%"not", .node (word s%"at" :: varTrees s%"x")], .node (word s%"at" :: varTrees s%"y"),
        .node [word s%"increase", .node [word s%"cost"], .node [word s%"fee"]]])] := by decide +kernel
  rw [this] at h
  simp only [List.mem_singleton, Prod.mk.injEq] at h
  obtain ⟨rfl, rfl⟩ := h
  refine ⟨namesIn_of (by decide +kernel), ?_⟩
  rw [word, Feeds_joined (.inl rfl), FeedsAll_iff]
  intro t ht
  simp only [List.mem_cons, List.not_mem_nil, or_false] at ht
  rcases ht with rfl | rfl | rfl
  · simp [word, varTrees, Feeds, updateWord]
  · simp [word, varTrees, Feeds, updateWord]
  · simp [word, Feeds, updateWord, updatedName, coneWords]

theorem cone_paint : Useless (· ∈ coneWords) coneTrees s%"paint" := by
  intro ps pre eff hm k n hn
  have h := partsOf_mem hm
  have : partsOf s%"paint" coneTrees = [(.node (word s%"at" :: varTrees s%"x"), .node (word s%"red" :: varTrees s%"x"))] := by
    decide +kernel
  rw [this] at h
  simp only [List.mem_singleton, Prod.mk.injEq] at h
  obtain ⟨rfl, rfl⟩ := h
  have hne : s%"red" ≠ n := by rintro rfl; revert hn; decide
  cases k <;> simp [word, varTrees, writesTo, updateWord, hne]

def conePlan : Plan := ⟨[(s%"paint", [.const s%"a" none]), (s%"go", [.const s%"a" none, .const s%"b" none]), (s%"paint", [.const s%"b" none])]⟩

/-- The ground action `(go a b)`. -/
def coneGo : Action := ⟨s%"go", [.const s%"a" none, .const s%"b" none],
  some (.bin .and [.pred ⟨s%"at", [.const s%"a" none]⟩, .pred ⟨s%"road", [.const s%"a" none, .const s%"b" none]⟩]),
  some (.bin .and [.not (.pred ⟨s%"at", [.const s%"a" none]⟩), .pred ⟨s%"at", [.const s%"b" none]⟩,
    .bfun .increase [.nfun ⟨s%"cost", []⟩, .nfun ⟨s%"fee", []⟩]])⟩

def conePaint (n : Str) : Action := ⟨s%"paint", [.const n none], some (.pred ⟨s%"at", [.const n none]⟩), some (.pred ⟨s%"red", [.const n none]⟩)⟩

theorem cone_parsed : ∃ d σ', parseDomain (fun _ => none) .fresh coneText = .ok (d, σ') ∧
    conePlan.inst d = .ok [conePaint s%"a", coneGo, conePaint s%"b"] ∧
    (Plan.mk [(s%"go", [.const s%"a" none, .const s%"b" none])]).inst d = .ok [coneGo] := by
  have h : (match parseDomain (fun _ => none) .fresh coneText with
      | .ok (d, _) => decide (conePlan.inst d = .ok [conePaint s%"a", coneGo, conePaint s%"b"]) &&
          decide ((Plan.mk [(s%"go", [.const s%"a" none, .const s%"b" none])]).inst d = .ok [coneGo])
      | .error _ => false) = true := by decide +kernel
  cases h1 : parseDomain (fun _ => none) .fresh coneText with
  | error e => rw [h1] at h; cases h
  | ok r => rw [h1] at h; exact ⟨r.1, r.2, rfl, by simpa using h⟩

/-- Painting before and after is not needed for moving, whatever the fee is. -/
example : ∀ (D : Type) (ρ : Str → D) (I I' J : Interp D), SameOn (· ∈ coneWords) I I' →
    Runs ρ [conePaint s%"a", coneGo, conePaint s%"b"] I J → ∃ J', Runs ρ [coneGo] I' J' ∧ SameOn (· ∈ coneWords) J J' := by
  obtain ⟨d, σ', h, hg, hg'⟩ := cone_parsed
  obtain ⟨ts, hts, hrun⟩ := C109_runs ParserState.fresh h hg
  have hts := readText_brackets.2 hts
  rw [cone_trees] at hts
  simp only [Except.ok.injEq, List.cons.injEq, Tree.node.injEq, and_true] at hts
  subst hts
  obtain ⟨hs, k1, _, k3⟩ := hrun (· ∈ coneWords) coneKeep (by
    intro s hs
    simp only [conePlan, List.mem_cons, List.not_mem_nil, or_false] at hs
    rcases hs with rfl | rfl | rfl
    · exact ⟨fun h => absurd h (by decide), fun _ => cone_paint⟩
    · exact ⟨fun _ => cone_go, fun h => absurd h (by decide)⟩
    · exact ⟨fun h => absurd h (by decide), fun _ => cone_paint⟩)
  have : conePlan.steps.filter (fun s => coneKeep s.1) = [(s%"go", [.const s%"a" none, .const s%"b" none])] := by decide +kernel
  rw [this, hg'] at k1
  simp only [Except.ok.injEq] at k1
  subst k1
  exact k3

/-- There is such a run. -/
example : ∃ I J : Interp Str, Runs id [conePaint s%"a", coneGo, conePaint s%"b"] I J := by
  let I : Interp Str := ⟨id, fun _ _ => True, fun n ds => (n = s%"at" ∧ ds = [s%"a"]) ∨ n = s%"road", fun _ _ => some 1⟩
  have hnext : ∀ (C : Change Str → Prop) (I : Interp Str), ∃ J, Next C I J := fun C I => by
    obtain ⟨J, hJ, _⟩ := next_exists C I (fun _ => False) I.fn (fun _ _ h => h.elim) (fun _ _ _ _ h => h.elim)
    exact ⟨J, hJ⟩
  obtain ⟨J1, h1⟩ := hnext (fun c => ∃ e, (conePaint s%"a").eff = some e ∧ makes I c e id) I
  obtain ⟨J2, h2⟩ := hnext (fun c => ∃ e, coneGo.eff = some e ∧ makes J1 c e id) J1
  obtain ⟨J3, h3⟩ := hnext (fun c => ∃ e, (conePaint s%"b").eff = some e ∧ makes J2 c e id) J2
  have c1 : J1.const = id := h1.const
  have c2 : J2.const = id := h2.const.trans c1
  refine ⟨I, J3, .cons ⟨?_, h1⟩ (.cons ⟨?_, h2⟩ (.cons ⟨?_, h3⟩ .nil))⟩
  · rintro e ⟨rfl⟩
    simp [I, holds, denote]
  · rintro e ⟨rfl⟩
    simp only [holds, holdsAll, denote, List.map, c1, id_eq, and_true, h1.pred]
    simp [I, conePaint, makes, deletes, denote]
  · rintro e ⟨rfl⟩
    simp only [holds, denote, List.map, c2, id_eq, h2.pred]
    refine .inl ⟨_, rfl, ?_⟩
    simp [makes, makesSome, denote, c1]

end Pddl.Props
