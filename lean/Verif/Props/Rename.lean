/-
C83: the names used in a text do not matter.
-/
import Verif.Proofs.RenameExchange
import Verif.Proofs.DecEq

namespace Pddl.Props
open Pddl Pddl.Spec

/-- C83, the domains, for texts in which no name is glued to a keyword. Renaming the names of a domain text one to one
renames them in the domain that is read, and nothing else; a text that is rejected stays rejected with the same
error. -/
theorem C83_domain_partial {ρ : Str → Str} (R : Renaming ρ) (F : FloatOf) {t t' : Str} (h : Renamed ρ t t')
    (hl : LooseText t) (hl' : LooseText t') :
    (parseDomain F .fresh t').map Prod.fst = (parseDomain F .fresh t).map (fun p => p.1.rename ρ) := by
  have := R.parseDomain F .fresh h hl hl'
  rw [show PState.fresh.rename ρ = PState.fresh from rfl] at this
  rw [this]
  cases parseDomain F .fresh t <;> rfl

/-- The problems. -/
theorem C83_problem_partial {ρ : Str → Str} (R : Renaming ρ) (F : FloatOf) {t t' : Str} (h : Renamed ρ t t')
    (hl : LooseText t) (hl' : LooseText t') :
    (parseProblem F [] t').map Prod.fst = (parseProblem F [] t).map (fun p => p.1.rename ρ) := by
  have := R.parseProblem F [] h hl hl'
  rw [List.map_nil] at this
  rw [this]
  cases parseProblem F [] t <;> rfl

/-- The plans; their grammar has no keywords. -/
theorem C83_plan {ρ : Str → Str} (R : Renaming ρ) {t t' : Str} (h : Renamed ρ t t') :
    parsePlan t' = (parsePlan t).map (Plan.rename ρ) := R.parsePlan h

/-- Checking and instantiating do not depend on the names either. The check of a problem compares the names of the
domains without regard to case: a renaming must not change how these two compare. -/
theorem C83_use {ρ : Str → Str} (R : Renaming ρ) (p : Plan) (d : Domain) (pr : Problem) (a : Action)
    (args : List Term) :
    (p.rename ρ).check (d.rename ρ) (pr.rename ρ) = p.check d pr ∧
    (p.rename ρ).inst (d.rename ρ) = (p.inst d).map (List.map (Action.rename ρ)) ∧
    (a.rename ρ).inst (args.map (Term.rename ρ)) = (a.inst args).map (Action.rename ρ) ∧
    ((lower (ρ pr.domainName) = lower (ρ d.name) ↔ lower pr.domainName = lower d.name) →
      (pr.rename ρ).check (d.rename ρ) = pr.check d) :=
  ⟨R.planCheck p d pr, R.planInst p d, R.actionInst a args, R.problemCheck pr d⟩

/-- Without the condition C83 is false: after `(define (` the word `domainfoo` is read as `domain foo`, which no other
word is. -/
theorem C83_fails : ¬ (∀ (ρ : Str → Str), Renaming ρ → ∀ (F : FloatOf) (t t' : Str), Renamed ρ t t' →
    (parseDomain F .fresh t').map Prod.fst = (parseDomain F .fresh t).map (fun p => p.1.rename ρ)) := by
  intro h
  have hv : ∀ w : Str, nameRegex w = true → w ∉ allSymbols → ValidName w := by
    intro w h1 h2
    exact ⟨(nameRegex_iff w).1 h1, fun hr => h2 (symbol_of_reserved w ((reserved_iff w).1 hr))⟩
  have R : Renaming (exchange s%"domainfoo" s%"bar") :=
    exchange_renaming (hv _ (by decide +kernel) (by decide +kernel)) (hv _ (by decide +kernel) (by decide +kernel))
      (by decide +kernel) (by decide +kernel)
  have := h _ R (fun _ => none) s%"(define (domainfoo))" s%"(define (bar))" (by unfold Renamed; decide +kernel)
  have e1 : (match parseDomain (fun _ => none) .fresh s%"(define (domainfoo))" with
    | .ok _ => true | .error _ => false) = true := by decide +kernel
  have e2 : (match parseDomain (fun _ => none) .fresh s%"(define (bar))" with
    | .ok _ => false | .error _ => true) = true := by decide +kernel
  cases h1 : parseDomain (fun _ => none) .fresh s%"(define (domainfoo))" with
  | error e => rw [h1] at e1; cases e1
  | ok p =>
    cases h2 : parseDomain (fun _ => none) .fresh s%"(define (bar))" with
    | ok q => rw [h2] at e2; cases e2
    | error e => rw [h1, h2] at this; cases this

/-- The case the hypotheses are about: `ball` and `room` are exchanged, other white space is used, and the text is a
domain. -/
example :
    Renaming (exchange s%"ball" s%"room") ∧
    Renamed (exchange s%"ball" s%"room")
      s%"(define (domain d) (:requirements :typing) (:types ball - object) (:predicates (room ?x - ball)))"
      s%"(define (domain d) (:requirements :typing)(:types room - object) ;comment\n (:predicates(ball ?x - room)))" ∧
    LooseText s%"(define (domain d) (:requirements :typing) (:types ball - object) (:predicates (room ?x - ball)))" ∧
    LooseText s%"(define (domain d) (:requirements :typing)(:types room - object) ;comment\n (:predicates(ball ?x - room)))" ∧
    (match parseDomain (fun _ => none) .fresh
        s%"(define (domain d) (:requirements :typing) (:types ball - object) (:predicates (room ?x - ball)))" with
      | .ok (d, _) => decide (d.predicates = [⟨s%"room", [.var ⟨s%"x", [s%"ball"]⟩]⟩])
      | .error _ => false) = true := by
  have hv : ∀ w : Str, nameRegex w = true → w ∉ allSymbols → ValidName w := by
    intro w h1 h2
    exact ⟨(nameRegex_iff w).1 h1, fun hr => h2 (symbol_of_reserved w ((reserved_iff w).1 hr))⟩
  have hloose : ∀ t : Str, (∀ w ∈ (lex t).filterMap (fun k => match k with | .name w => some w | _ => none),
      ∀ k ∈ gluing, ¬ (k.isPrefixOf w = true ∧ k.length < w.length)) → LooseText t := by
    intro t h w hw k hk c cs e
    have hm : w ∈ (lex t).filterMap (fun k => match k with | .name w => some w | _ => none) :=
      List.mem_filterMap.2 ⟨_, hw, rfl⟩
    refine absurd ⟨?_, ?_⟩ (h w hm k hk)
    · rw [e]; simp
    · rw [e]; simp
  refine ⟨exchange_renaming (hv _ (by decide +kernel) (by decide +kernel)) (hv _ (by decide +kernel) (by decide +kernel))
    (by decide +kernel) (by decide +kernel), by unfold Renamed; decide +kernel, hloose _ (by decide +kernel),
    hloose _ (by decide +kernel), by decide +kernel⟩

end Pddl.Props
