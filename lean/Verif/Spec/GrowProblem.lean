/-
Problem texts and problems with more objects and more facts.
-/
import Verif.Spec.RulesProblem

namespace Pddl.Spec
open Pddl Spec Grammar Rules

/-- The objects that a text declares, with their types. -/
def ProblemSections.Declares (s : ProblemSections) (l : NameList) : Prop := s.objects.getD [] = l.text ∧ l.Ok

/-- The second text has the objects and the facts of the first one, each with the same type, in any order and with
others between them; the rest is the same. -/
structure AddsTo (F : FloatOf) (s s' : ProblemSections) (l l' : NameList) : Prop where
  name : s'.name = s.name
  domain : s'.domain = s.domain
  reqs : s'.reqs = s.reqs
  goal : s'.goal = s.goal
  metric : s'.metric = s.metric
  objects : ∀ x ∈ l.pairs, x ∈ l'.pairs
  init : ∀ t ∈ s.init, t ∈ s'.init
  facts : ∀ t ∈ s'.init, InitIn F t

/-- A problem contains another one. Facts are compared with `==`: of several equal facts only the first is kept. -/
structure ProblemContains (p' p : Problem) : Prop where
  name : p'.name = p.name
  domain : p'.domain = p.domain
  domainName : p'.domainName_ = p.domainName_
  reqs : p'.reqs_ = p.reqs_
  objects : ∀ o ∈ p.objects, o ∈ p'.objects
  init : ∀ e ∈ p.init, ∃ e' ∈ p'.init, e'.pyEq e = true
  goal : p'.goal = p.goal
  metric : p'.metric = p.metric

end Pddl.Spec
