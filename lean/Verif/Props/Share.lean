/-
C85: objects are isolated from the code that uses them.
-/
import Verif.Proofs.ShareSound
import Verif.Props.Problem
import Verif.Proofs.DecEq

namespace Pddl.Props
open Spec Share

/-! ### C85 -/

/-- The full statement: whatever a client does, a domain or plan keeps its value, and so does a problem until its
domain is assigned. -/
def C85_full : Prop :=
  ∀ (F : FloatOf) (w : World) (a : Nat) (ops : List Op), Reachable F w →
    (∀ d, w.heap.domain a = some d → (w.run F ops).heap.domain a = some d) ∧
    (∀ p, w.heap.problem a = some p → Along F (fun w op => ¬ SetsDomain a w op) w ops → (w.run F ops).heap.problem a = some p) ∧
    (∀ p, w.heap.plan a = some p → (w.run F ops).heap.plan a = some p)

theorem reachable_closed {F : FloatOf} {w : World} (h : Reachable F w) : Closed w ∧ Dicts w := by
  obtain ⟨ops, rfl⟩ := h
  exact ⟨run_closed closed_start, dicts_run dicts_start⟩

/-- C85, one call: a domain changes only when the call writes to its dictionary of types or of functions. -/
theorem C85_step {F : FloatOf} {w : World} {op : Op} {a : Nat} {d : Domain} (h : w.heap.domain a = some d)
    (hc : (w.step F op).1.heap.domain a ≠ some d) :
    ∃ o, w.heap[a]? = some (.domain o) ∧ (WritesTo o.types w op ∨ WritesTo o.functions w op) := by
  by_contra hn
  refine hc (domain_step h (fun o ho => ⟨fun hw => hn ⟨o, ho, .inl hw⟩, fun hw => hn ⟨o, ho, .inr hw⟩⟩))

/-- C85 for domains made by the parser or by `Domain(...)` without functions: the domain keeps its value, whatever
the client does with the collections it passed, as long as it does not ask for the types or the functions of this
domain. -/
theorem C85_domain_partial {F : FloatOf} {w : World} {op : Op} (hr : Reachable F w) (hop : Op.makesDomain op)
    (hok : (w.step F op).2 = .ok ()) :
    ∃ a d, (w.step F op).1.vars = w.vars ++ [a] ∧ ExistsDomain d ∧ (w.step F op).1.heap.domain a = some d ∧
      ∀ ops, Along F (fun w op => ¬ AsksFor a .types w op ∧ ¬ AsksFor a .functions w op) (w.step F op).1 ops →
        ((w.step F op).1.run F ops).heap.domain a = some d := by
  obtain ⟨hc, hd⟩ := reachable_closed hr
  obtain ⟨d, hx, e⟩ := makes_domain hd hop hok
  have hi := isolated_new (d := d) hc
  rw [e]
  exact ⟨_, d, by rw [storeDomain_none], hx, hi.view, fun ops hq => (hi.run hq).view⟩

/-- C85 for `Domain(...)` with a dictionary of functions: the domain keeps its value as long as the client does not
change that dictionary and does not ask for the types of this domain. -/
theorem C85_functions_partial {F : FloatOf} {w : World} {name : Str}
    {reqs types constants predicates derived actions : Option Nat} {x : Nat} (hr : Reachable F w)
    (hok : (w.step F (.domain name reqs types constants predicates (some x) derived actions)).2 = .ok ()) :
    ∃ w' a fa d, w' = (w.step F (.domain name reqs types constants predicates (some x) derived actions)).1 ∧
      w.vars[x]? = some fa ∧ w'.vars = w.vars ++ [a] ∧ ExistsDomain d ∧ w'.heap.domain a = some d ∧
      ∀ ops, Along F (fun w op => ¬ AsksFor a .types w op ∧ ¬ WritesTo fa w op) w' ops →
        (w'.run F ops).heap.domain a = some d := by
  obtain ⟨hc, hd⟩ := reachable_closed hr
  obtain ⟨a, fa, d, h1, h2, h3, h4⟩ := guarded_new hd hc hok
  exact ⟨_, a, fa, d, rfl, h1, h3, h2, h4.view, fun ops hq => (h4.run hq).view⟩

/-- C85 for problems: a problem keeps its value as long as its domain is not assigned and not changed, and nobody
asks for the requirements of this problem. -/
theorem C85_problem_partial {F : FloatOf} {w : World} {op : Op} (hr : Reachable F w) (hop : Op.makesProblem op)
    (hok : (w.step F op).2 = .ok ()) :
    ∃ a p, (w.step F op).1.vars = w.vars ++ [a] ∧ (w.step F op).1.heap.problem a = some p ∧
      ∀ ops, Along F (fun w op => ¬ SetsDomain a w op ∧ ¬ AsksFor a .requirements w op ∧ ¬ ChangesDomainOf a w op)
          (w.step F op).1 ops →
        ((w.step F op).1.run F ops).heap.problem a = some p := by
  obtain ⟨hc, _⟩ := reachable_closed hr
  obtain ⟨p, da, e, h1, _⟩ := makes_problem hop hok
  obtain ⟨a, h2, h3⟩ := kept_new hc h1
  rw [e]
  exact ⟨a, p, h2, h3.view, fun ops hq => (h3.run hq).view⟩

/-- C85 for parsed plans: they keep their value as long as nobody asks for their actions. -/
theorem C85_parsed_plan_partial {F : FloatOf} {w : World} {text : Str} (hr : Reachable F w)
    (hok : (w.step F (.parsePlan text)).2 = .ok ()) :
    ∃ w' a p, w' = (w.step F (.parsePlan text)).1 ∧ parsePlan text = .ok p ∧ w'.vars = w.vars ++ [a] ∧ w'.heap.plan a = some p ∧
      ∀ ops, Along F (fun w op => ¬ AsksFor a .actions w op) w' ops → (w'.run F ops).heap.plan a = some p := by
  obtain ⟨hc, _⟩ := reachable_closed hr
  simp only [World.step] at hok ⊢
  split at hok
  · rename_i p hp
    have ha := alone_new (p := p) hc
    exact ⟨_, _, p, rfl, hp, by rw [storePlan_eq], ha.view, fun ops hq => (ha.run hq).view⟩
  · cases hok

/-- C85 for `Plan(x)`: at any later time the plan is what the list passed to it contains then. -/
theorem C85_plan {F : FloatOf} {w : World} {x : Nat} (hok : (w.step F (.plan x)).2 = .ok ()) :
    ∃ a b, w.vars[x]? = some b ∧ (w.step F (.plan x)).1.vars = w.vars ++ [a] ∧
      ∀ ops w', w' = (w.step F (.plan x)).1.run F ops → ∀ p, w'.heap.plan a = some p ↔
        ∃ l, w'.heap.steps b = some l ∧ w'.heap.stepValues l = some p.steps := by
  simp only [World.step] at hok ⊢
  split at hok
  · rename_i b hb
    split at hok
    · rename_i l hl
      refine ⟨w.heap.length, b, hb, ?_⟩
      refine ⟨rfl, ?_⟩
      rintro ops w' rfl p
      have : (w.push (.plan b)).heap[w.heap.length]? = some (.plan b) := by simp [World.push]
      have hk := kept_run (F := F) (ops := ops) this (by simp) (by simp)
      rw [plan_some]
      constructor
      · rintro ⟨s, fr, l, h1, h2, h3⟩
        rw [hk] at h1
        cases h1
        exact ⟨l, steps_some.2 ⟨fr, h2⟩, h3⟩
      · rintro ⟨l, h1, h2⟩
        obtain ⟨fr, h1⟩ := steps_some.1 h1
        exact ⟨b, fr, l, hk, h1, h2⟩
    · cases hok
  · cases hok

/-- C85, consistency: a client that passes no dictionary of functions, asks for no dictionary and no requirements,
and assigns only domains that fit, always has domains that the constructor accepts and problems that fit their
domains. -/
theorem C85_consistent_partial {F : FloatOf} {ops : List Op}
    (hq : Along F (fun w op => Op.discreet op ∧ (Op.assigns op → (w.step F op).2 = .ok ())) World.start ops) (a : Nat) :
    (∀ d, (World.start.run F ops).heap.domain a = some d → ExistsDomain d) ∧
    (∀ p, (World.start.run F ops).heap.problem a = some p → Consistent p ∧ ∀ d, p.domain = some d → ExistsDomain d) := by
  have hs := sound_start.run hq
  have hdom : ∀ b d, (World.start.run F ops).heap.domain b = some d → ExistsDomain d := by
    intro b d hd
    obtain ⟨o, _, _, _, _, h1, _⟩ := domain_some.1 hd
    obtain ⟨d', hi, hx⟩ := hs.domains b o h1
    rw [hi.view, Option.some.injEq] at hd
    exact hd ▸ hx
  refine ⟨fun d hd => hdom a d hd, fun p hp => ?_⟩
  obtain ⟨o, d, rs, h1, h2, h3, h4⟩ := problem_some.1 hp
  obtain ⟨p', hk, hc⟩ := hs.problems a o h1
  rw [hk.view, Option.some.injEq] at hp
  subst hp
  have hex : ∀ d, p'.domain = some d → ExistsDomain d := by
    intro d' e
    have := domainAt_exists hk.view h1
    rw [e] at this
    cases hb : o.domain with
    | none => rw [hb] at this; cases this
    | some b =>
      rw [hb] at this
      simp only [Heap.domainAt, Option.map_eq_some_iff, Option.some.injEq, exists_eq_right] at this
      exact hdom b d' this
  exact ⟨fun d' e => (problemCheck_ok (hex d' e)).1 (hc d' e), hex⟩

/-! Wrong statements, and cases that meet the hypotheses -/

deriving instance DecidableEq for Domain
deriving instance DecidableEq for Metric
deriving instance DecidableEq for Problem
deriving instance DecidableEq for Plan

def noFloat : FloatOf := fun _ => none

/-- `d = Domain("d")`; `d` is variable 0. -/
def oneDomain : World := World.start.run noFloat [.domain s%"d" none none none none none none none]

/-- `d.types["a"] = "a"` -/
def cyclic : List Op := [.read 0 .types, .write 1 (.types [(s%"a", some s%"a")])]

/-- `d.functions[NumericFunction("total-cost")] = None` -/
def costs : List Op := [.read 0 .functions, .write 1 (.funs [(⟨s%"total-cost", []⟩, none)])]

theorem oneDomain_view : oneDomain.heap.domain 2 = some ⟨s%"d", [], [], [], [], [], [], []⟩ := by decide +kernel

theorem cyclic_view : (oneDomain.run noFloat cyclic).heap.domain 2 =
    some ⟨s%"d", [], [(s%"a", some s%"a")], [], [], [], [], []⟩ := by decide +kernel

theorem costs_view : (oneDomain.run noFloat costs).heap.domain 2 =
    some ⟨s%"d", [], [], [], [], [(⟨s%"total-cost", []⟩, none)], [], []⟩ := by decide +kernel

/-- It is false for domains: the types of a domain can be changed through the dictionary it returns, to types that
the constructor rejects. -/
theorem C85_fails_types : ¬ C85_full ∧ ∃ d, (oneDomain.run noFloat cyclic).heap.domain 2 = some d ∧ ¬ ExistsDomain d := by
  refine ⟨fun h => ?_, _, cyclic_view, ?_⟩
  · have := (h noFloat oneDomain 2 cyclic ⟨_, rfl⟩).1 _ oneDomain_view
    rw [cyclic_view] at this
    simp at this
  · rintro ⟨a, ht, hm⟩
    obtain ⟨_, _, hh, _, _, _, _, _, e⟩ := (mkDomain_ok ht).1 hm
    have hty : cleanDict a.types = [(s%"a", some s%"a")] := (congrArg Domain.types e).symm
    have hp : Parent a.types s%"a" s%"a" := by
      cases ha : a.types with
      | nil => rw [ha] at hty; cases hty
      | cons q rest =>
        rw [ha] at hty
        obtain ⟨k, v⟩ := q
        simp only [cleanDict, List.map_cons, List.cons.injEq, Prod.mk.injEq] at hty
        obtain ⟨⟨rfl, hv⟩, _⟩ := hty
        have : v = some s%"a" := by
          unfold cleanParent at hv
          split at hv
          · cases hv
          · exact hv
        subst this
        exact ⟨by simp [List.lookup], by simp⟩
    exact hh.acyclic _ (.single hp)

/-- The functions can be changed in the same way, to functions that the constructor rejects. -/
theorem C85_fails_functions : ¬ C85_full ∧ ∃ d, (oneDomain.run noFloat costs).heap.domain 2 = some d ∧ ¬ ExistsDomain d := by
  refine ⟨fun h => ?_, _, costs_view, ?_⟩
  · have := (h noFloat oneDomain 2 costs ⟨_, rfl⟩).1 _ oneDomain_view
    rw [costs_view] at this
    simp at this
  · rintro ⟨a, ht, hm⟩
    obtain ⟨_, _, _, ⟨h1, _⟩, _, _, _, _, e⟩ := (mkDomain_ok ht).1 hm
    have hf : a.functions = [(⟨s%"total-cost", []⟩, none)] := (congrArg Domain.functions e).symm
    have hr : reqSet a.reqs = [] := (congrArg Domain.reqs e).symm
    have := h1 ⟨_, by rw [hf]; exact List.mem_singleton.2 rfl, rfl⟩
    rw [← mem_reqSet, hr] at this
    cases this

/-- `p = Problem("p", domain_name="d", requirements={adl})`; `p` is variable 1. -/
def oneProblem : World :=
  World.start.run noFloat [.new false (.reqs [.adl]), .problem s%"p" none (some s%"d") (some 0) none none none none]

/-- `p.requirements.clear()` -/
def cleared : List Op := [.read 1 .requirements, .write 2 (.reqs [])]

theorem oneProblem_view : oneProblem.heap.problem 2 =
    some ⟨s%"p", none, s%"d", some [.adl], [], [], .bin .and [], none⟩ := by decide +kernel

theorem cleared_view : (oneProblem.run noFloat cleared).heap.problem 2 =
    some ⟨s%"p", none, s%"d", some [], [], [], .bin .and [], none⟩ := by decide +kernel

/-- The requirements of a problem without a domain can be changed through the set it returns: it then accepts a
domain that it rejected. -/
theorem C85_fails_requirements : ¬ C85_full ∧ ∃ p p' d, oneProblem.heap.problem 2 = some p ∧
    (oneProblem.run noFloat cleared).heap.problem 2 = some p' ∧ ExistsDomain d ∧
    (p.setDomain d).2 ≠ .ok () ∧ (p'.setDomain d).2 = .ok () := by
  refine ⟨fun h => ?_, _, _, ⟨s%"d", [], [], [], [], [], [], []⟩, oneProblem_view, cleared_view,
    ⟨{ name := s%"d" }, List.Pairwise.nil, rfl⟩, by decide +kernel, by decide +kernel⟩
  have hq : Along noFloat (fun w op => ¬ SetsDomain 2 w op) oneProblem cleared :=
    ⟨(fun ⟨_, _, e, _⟩ => by cases e), (fun ⟨_, _, e, _⟩ => by cases e), trivial⟩
  have := (h noFloat oneProblem 2 cleared ⟨_, rfl⟩).2.1 _ oneProblem_view hq
  rw [cleared_view] at this
  simp at this

/-- `l = [("go", [])]; q = Plan(l)`; `l` is variable 1. -/
def onePlan : World :=
  World.start.run noFloat [.new false (.terms []), .new false (.steps [(s%"go", 0)]), .plan 1]

/-- A plan changes with the list that was passed to it. -/
theorem C85_fails_plan : ¬ C85_full := by
  intro h
  have h1 : onePlan.heap.plan 2 = some ⟨[(s%"go", [])]⟩ := by decide +kernel
  have h2 : (onePlan.run noFloat [.write 1 (.steps [])]).heap.plan 2 = some ⟨[]⟩ := by decide +kernel
  have := (h noFloat onePlan 2 [.write 1 (.steps [])] ⟨_, rfl⟩).2.2 _ h1
  rw [h2] at this
  simp at this

/-- The client makes a dictionary of types and a set of requirements, ... -/
def withTypes : World :=
  World.start.run noFloat [.new false (.types [(s%"a", some s%"b"), (s%"b", none)]), .new false (.reqs [.typing])]

/-- ... passes them, ... -/
def typed : Op := .domain s%"d" (some 1) (some 0) none none none none none

/-- ... and changes them afterwards. -/
def changed : List Op := [.write 0 (.types [(s%"a", some s%"a")]), .write 1 (.reqs []), .read 2 .requirements, .read 2 .actions]

/-- `C85_domain_partial` applies: the domain is not changed. -/
example : (withTypes.step noFloat typed).2 = .ok () ∧
    ((withTypes.step noFloat typed).1.run noFloat changed).heap.types 0 = some [(s%"a", some s%"a")] ∧
    ((withTypes.step noFloat typed).1.run noFloat changed).heap.domain 4 =
      some ⟨s%"d", [.typing], [(s%"a", some s%"b"), (s%"b", none)], [], [], [], [], []⟩ := by
  obtain ⟨a, d, h1, _, h3, h4⟩ := C85_domain_partial (F := noFloat) (w := withTypes) (op := typed) ⟨_, rfl⟩ trivial (by decide +kernel)
  have e : (withTypes.step noFloat typed).1.vars = withTypes.vars ++ [4] := by decide +kernel
  rw [h1, List.append_cancel_left_eq] at e
  cases e
  refine ⟨by decide +kernel, by decide +kernel, ?_⟩
  rw [h4 changed]
  · rw [← h3]
    decide +kernel
  · have hn : ∀ (f : Field) (w : World) (op : Op), op ∈ changed → f = .types ∨ f = .functions → ¬ AsksFor 4 f w op := by
      rintro f w op hm hf ⟨x, rfl, _⟩
      simp [changed] at hm
      rcases hf with rfl | rfl <;> simp at hm
    refine ⟨⟨hn _ _ _ ?_ (.inl rfl), hn _ _ _ ?_ (.inr rfl)⟩, ⟨hn _ _ _ ?_ (.inl rfl), hn _ _ _ ?_ (.inr rfl)⟩,
      ⟨hn _ _ _ ?_ (.inl rfl), hn _ _ _ ?_ (.inr rfl)⟩, ⟨hn _ _ _ ?_ (.inl rfl), hn _ _ _ ?_ (.inr rfl)⟩, trivial⟩ <;>
      simp [changed]

/-- `C85_consistent_partial` applies to a program with a domain, a problem and an assignment. -/
def discreet : List Op :=
  [.domain s%"d" none none none none none none none, .problem s%"p" none (some s%"d") none none none none none,
    .setDomain 1 0, .read 1 .domain, .read 0 .predicates]

example : Along noFloat (fun w op => Op.discreet op ∧ (Op.assigns op → (w.step noFloat op).2 = .ok ())) World.start discreet ∧
    (((World.start.run noFloat discreet).heap.problem 3).bind Problem.domain).isSome = true := by
  refine ⟨⟨⟨trivial, fun h => h.elim⟩, ⟨trivial, fun h => h.elim⟩, ⟨trivial, fun _ => by decide +kernel⟩,
    ⟨trivial, fun h => h.elim⟩, ⟨trivial, fun h => h.elim⟩, trivial⟩, by decide +kernel⟩

/-- A parsed plan, and a domain with functions. -/
example : (World.start.step noFloat (.parsePlan s%"(go a b)")).2 = .ok () ∧
    ((World.start.run noFloat [.new false (.funs [])]).step noFloat (.domain s%"d" none none none none (some 0) none none)).2 =
      .ok () := by decide +kernel

end Pddl.Props
