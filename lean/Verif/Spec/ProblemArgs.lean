/-
What the arguments of `Problem(...)` must satisfy.
-/
import Verif.Spec.Problem
import Verif.Spec.Sem
import Verif.Spec.Names

namespace Pddl.Spec

/-- The domain fits the objects, facts and goal that are kept: of equal ones, the first. -/
structure ArgsFit (a : ProblemArgs) (d : Domain) : Prop where
  objects : ∀ t ∈ firstOcc Term.pyEq a.objects, WellTypedTerm (Declared d.types) d.reqs t
  init : ∀ e ∈ firstOcc Expr.pyEq a.init, WellTyped (Declared d.types) d.reqs e
  goal : ∀ g, a.goal = some g → WellTyped (Declared d.types) d.reqs g

/-- Arguments that make a problem. -/
structure ProblemArgsOk (a : ProblemArgs) : Prop where
  name : ValidName a.name
  domain : a.domain ≠ none ∨ a.domainName ≠ none
  domainName : ∀ n, a.domainName = some n → ValidName n
  sameName : ∀ d n, a.domain = some d → a.domainName = some n → d.name = n
  sameReqs : ∀ d rs, a.domain = some d → a.reqs = some rs → ∀ r, r ∈ rs ↔ r ∈ d.reqs
  init : ∀ e ∈ a.init, Literal e
  fits : ∀ d, a.domain = some d → ArgsFit a d

/-- The problem holds what it was given. -/
structure HoldsArgs (a : ProblemArgs) (p : Problem) : Prop where
  name : p.name = a.name
  domain : p.domain = a.domain
  domainName : p.domainName = match a.domain with
    | some d => d.name
    | none => a.domainName.getD []
  reqs : ∀ r, r ∈ p.reqs ↔ match a.domain with
    | some d => r ∈ d.reqs
    | none => r ∈ a.reqs.getD []
  objects : p.objects = firstOcc Term.pyEq a.objects
  init : p.init = firstOcc Expr.pyEq a.init
  goal : p.goal = a.goal.getD (.bin .and [])
  metric : p.metric = a.metric

end Pddl.Spec
