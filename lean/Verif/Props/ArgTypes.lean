/-
C107: the arguments of a checked plan suit the types of the parameters.
-/
import Verif.Spec.ArgTypes
import Verif.Props.Problem
import Verif.Props.Parser

namespace Pddl.Props
open Pddl Pddl.Spec

/-- C107. If `Plan.check` accepts a plan, then every argument of every step is an object or constant that has a type of
the parameter in its place, or a type below. -/
def C107_full : Prop :=
  ∀ (F : FloatOf) (dtext ptext text : Str) (d : Domain) (σ : PState) (pr : Pddl.Problem) (τ : List (Str × Term)) (p : Plan),
    parseDomain F .fresh dtext = .ok (d, σ) → parseProblem F [] ptext = .ok (pr, τ) → parsePlan text = .ok p →
    pr.check d = .ok () → p.check d pr = .ok () → PlanSuits d pr p

/-- Two lists of terms with the same names, all constants. -/
def SameConstants (a b : List Term) : Prop :=
  List.Forall₂ (fun s t => ∃ n x y, s = Term.const n x ∧ t = .const n y) a b

/-- Two domains and problems that differ in types only, as far as plans are concerned. -/
structure SameButTypes (d d' : Domain) (pr pr' : Pddl.Problem) : Prop where
  actions : List.Forall₂ (fun a b : Action => a.name = b.name ∧ a.params.length = b.params.length) d.actions d'.actions
  objects : SameConstants pr.objects pr'.objects
  constants : SameConstants d.constants d'.constants

theorem lastNamed_same {as bs : List Action}
    (h : List.Forall₂ (fun a b : Action => a.name = b.name ∧ a.params.length = b.params.length) as bs) {n : Str} {a : Action}
    (ha : lastNamed n as = some a) : ∃ b, lastNamed n bs = some b ∧ a.params.length = b.params.length := by
  unfold lastNamed at *
  have h := List.rel_reverse h
  generalize as.reverse = l at *
  generalize bs.reverse = l' at *
  induction h with
  | nil => simp at ha
  | cons h _ ih =>
    rename_i x y l l' _
    rw [List.find?_cons] at ha ⊢
    rw [← h.1]
    split at ha
    · injection ha with ha
      subst ha
      exact ⟨_, by simp, h.2⟩
    · obtain ⟨b, hb, hl⟩ := ih ha
      exact ⟨b, by simp [hb], hl⟩

theorem sameConstants_mem {l l' : List Term} (h : SameConstants l l') {t o : Term} (ho : o ∈ l) (he : t.pyEq o = true) :
    ∃ o' ∈ l', t.pyEq o' = true := by
  induction h with
  | nil => cases ho
  | cons h _ ih =>
    rcases List.mem_cons.1 ho with rfl | ho
    · obtain ⟨n, x, y, rfl, rfl⟩ := h
      refine ⟨_, List.mem_cons_self .., ?_⟩
      cases t with
      | const m z => simpa [Term.pyEq] using he
      | var v => simp [Term.pyEq] at he
    · obtain ⟨o', h1, h2⟩ := ih ho
      exact ⟨o', List.mem_cons_of_mem _ h1, h2⟩

theorem SameButTypes.step {d d' : Domain} {pr pr' : Pddl.Problem} (h : SameButTypes d d' pr pr') {s : Str × List Term}
    (hs : Spec.StepOk d pr s) : Spec.StepOk d' pr' s := by
  obtain ⟨a, ha, hl, ho⟩ := hs
  obtain ⟨b, hb, hlen⟩ := lastNamed_same h.actions ha
  refine ⟨b, hb, hl.trans hlen, fun t ht => ?_⟩
  obtain ⟨o, hin, he⟩ := ho t ht
  rcases List.mem_append.1 hin with hin | hin
  · obtain ⟨o', h1, h2⟩ := sameConstants_mem h.objects hin he
    exact ⟨o', List.mem_append_left _ h1, h2⟩
  · obtain ⟨o', h1, h2⟩ := sameConstants_mem h.constants hin he
    exact ⟨o', List.mem_append_right _ h1, h2⟩

theorem SameButTypes.symm {d d' : Domain} {pr pr' : Pddl.Problem} (h : SameButTypes d d' pr pr') :
    SameButTypes d' d pr' pr where
  actions := (List.Forall₂.flip h.actions).imp fun _ _ h => ⟨h.1.symm, h.2.symm⟩
  objects := (List.Forall₂.flip h.objects).imp fun _ _ ⟨n, x, y, h1, h2⟩ => ⟨n, y, x, h2, h1⟩
  constants := (List.Forall₂.flip h.constants).imp fun _ _ ⟨n, x, y, h1, h2⟩ => ⟨n, y, x, h2, h1⟩

/-- The exact role of types: none. Whatever types the parameters, objects and constants get, the check of a plan has
the same outcome. -/
theorem C107_blind {d d' : Domain} {pr pr' : Pddl.Problem} (h : SameButTypes d d' pr pr') (p : Plan) :
    p.check d pr = p.check d' pr' := by
  by_cases hp : ∀ s ∈ p.steps, Spec.StepOk d pr s
  · rw [(C27_check p d pr).2 hp, (C27_check p d' pr').2 fun s hs => h.step (hp s hs)]
  · rw [C27_error p d pr hp, C27_error p d' pr' fun hp' => hp fun s hs => h.symm.step (hp' s hs)]

/-- The claim holds if every object suits every parameter, in particular without types. -/
theorem C107_partial {d : Domain} {pr : Pddl.Problem} {p : Plan} (h : p.check d pr = .ok ())
    (hs : ∀ a ∈ d.actions, ∀ par ∈ a.params, ∀ o ∈ pr.objects ++ d.constants, Suits d.types o par) :
    PlanSuits d pr p := by
  intro s hin a ha
  obtain ⟨b, hb, hl, ho⟩ := (C27_check p d pr).1 h s hin
  rw [ha] at hb
  injection hb with hb
  subst hb
  rw [List.forall₂_iff_get]
  refine ⟨hl, fun i h1 h2 => ?_⟩
  obtain ⟨o, hin, he⟩ := ho _ (List.get_mem s.2 ⟨i, h1⟩)
  refine ⟨o, hin, ?_, hs a (lastNamed_mem ha).1 _ (List.get_mem _ _) o hin⟩
  revert he
  cases s.2.get ⟨i, h1⟩ <;> cases o <;> simp [Term.pyEq, Term.name, Var.pyEq]
  · exact fun h _ => h.symm
  · exact fun h => h.symm

/-- A domain whose action moves things of one type, and a problem with objects of two types. -/
def movesText : Str := s%"(define (domain d) (:requirements :typing) (:types t u)
  (:predicates (p ?x - t)) (:action m :parameters (?x - t) :precondition (p ?x) :effect (not (p ?x))))"
def thingsText : Str := s%"(define (problem q) (:domain d) (:objects a - t b - u) (:init (p a)) (:goal (p a)))"

/-- The texts are read, the problem fits and the plan `(m b)` passes the check, though `b` is not of type `t`. -/
theorem moves_accepted : ∃ d σ pr τ p a, parseDomain (fun _ => none) .fresh movesText = .ok (d, σ) ∧
    parseProblem (fun _ => none) [] thingsText = .ok (pr, τ) ∧ parsePlan s%"(m b)" = .ok p ∧
    pr.check d = .ok () ∧ p.check d pr = .ok () ∧ d.types = [(s%"t", none), (s%"u", none)] ∧ d.constants = [] ∧
    pr.objects.map (fun o => (o.name, o.tags)) = [(s%"a", [s%"t"]), (s%"b", [s%"u"])] ∧
    p.steps = [(s%"m", [.const s%"b" none])] ∧ lastNamed s%"m" d.actions = some a ∧ a.params = [.var ⟨s%"x", [s%"t"]⟩] := by
  have h0 : (match parseDomain (fun _ => none) .fresh movesText, parseProblem (fun _ => none) [] thingsText,
        parsePlan s%"(m b)" with
      | .ok (d, _), .ok (pr, _), .ok p => decide (pr.check d = .ok () ∧ p.check d pr = .ok () ∧
          d.types = [(s%"t", none), (s%"u", none)] ∧ d.constants = [] ∧
          pr.objects.map (fun o => (o.name, o.tags)) = [(s%"a", [s%"t"]), (s%"b", [s%"u"])] ∧
          p.steps = [(s%"m", [.const s%"b" none])] ∧
          (lastNamed s%"m" d.actions).map Action.params = some [.var ⟨s%"x", [s%"t"]⟩])
      | _, _, _ => false) = true := by decide +kernel
  cases h1 : parseDomain (fun _ => none) .fresh movesText with
  | error e => rw [h1] at h0; cases h0
  | ok r =>
    cases h2 : parseProblem (fun _ => none) [] thingsText with
    | error e => rw [h1, h2] at h0; cases h0
    | ok q =>
      cases h3 : parsePlan s%"(m b)" with
      | error e => rw [h1, h2, h3] at h0; cases h0
      | ok p =>
        rw [h1, h2, h3] at h0
        obtain ⟨g1, g2, g3, g4, g5, g6, g7⟩ := of_decide_eq_true h0
        obtain ⟨a, ha, hp⟩ := Option.map_eq_some_iff.1 g7
        exact ⟨r.1, r.2, q.1, q.2, p, a, rfl, rfl, rfl, g1, g2, g3, g4, g5, g6, ha, hp⟩

/-- C107 is false. -/
theorem C107_fails : ¬ C107_full := by
  intro hf
  obtain ⟨d, σ, pr, τ, p, a, h1, h2, h3, h4, h5, ht, hc, ho, hs, hl, hp⟩ := moves_accepted
  have := hf _ _ _ _ _ _ _ _ _ h1 h2 h3 h4 h5 (s%"m", [.const s%"b" none]) (by rw [hs]; exact List.mem_singleton.2 rfl) a hl
  rw [hp] at this
  rcases this with _ | ⟨⟨o, hin, hname, hsuit⟩, _⟩
  rw [hc, List.append_nil] at hin
  have := List.mem_map_of_mem (f := fun o : Term => (o.name, o.tags)) hin
  rw [ho, show o.name = s%"b" from hname] at this
  have htag : o.tags = [s%"u"] := by simpa using this
  rcases hsuit with hsuit | ⟨a, ha, b, hb, hab⟩
  · cases hsuit
  · rw [htag, List.mem_singleton] at ha
    obtain rfl : b = s%"t" := by simpa [Term.tags] using hb
    subst ha
    rcases hab.cases_head with h | ⟨c, ⟨h, _⟩, _⟩
    · exact absurd h (by decide)
    · rw [ht, show List.lookup s%"u" [(s%"t", none), (s%"u", none)] = some (none : Option Str) by decide] at h
      cases h

/-- A domain with one type, which suits the only parameter. -/
example : ∃ d pr p, (p : Plan).check d pr = .ok () ∧ p.steps ≠ [] ∧
    (∀ a ∈ d.actions, ∀ par ∈ a.params, ∀ o ∈ pr.objects ++ d.constants, Suits d.types o par) := by
  refine ⟨⟨s%"d", [], [(s%"t", none)], [], [], [], [], [⟨s%"m", [.var ⟨s%"x", [s%"t"]⟩], none, none⟩]⟩,
    ⟨s%"q", none, s%"d", none, [.const s%"a" (some s%"t")], [], .bin .and [], none⟩,
    ⟨[(s%"m", [.const s%"a" none])]⟩, by decide +kernel, by simp, ?_⟩
  intro a ha par hp o ho
  simp only [List.mem_singleton, List.append_nil] at ha hp ho
  subst ha
  simp only [List.mem_singleton] at hp
  subst hp ho
  exact .inr ⟨s%"t", by simp [Term.tags], s%"t", by simp [Term.tags], .refl⟩

/-- Another domain and problem with the same names and other types. -/
example : SameButTypes ⟨s%"d", [], [], [.const s%"c" none], [], [], [], [⟨s%"m", [.var ⟨s%"x", []⟩], none, none⟩]⟩
    ⟨s%"e", [.typing], [(s%"t", none)], [.const s%"c" (some s%"t")], [], [], [], [⟨s%"m", [.var ⟨s%"y", [s%"t"]⟩], none, none⟩]⟩
    ⟨s%"q", none, s%"d", none, [.const s%"a" none], [], .bin .and [], none⟩
    ⟨s%"q", none, s%"e", none, [.const s%"a" (some s%"t")], [], .bin .and [], none⟩ :=
  ⟨.cons ⟨rfl, rfl⟩ .nil, .cons ⟨_, _, _, rfl, rfl⟩ .nil, .cons ⟨_, _, _, rfl, rfl⟩ .nil⟩

end Pddl.Props
