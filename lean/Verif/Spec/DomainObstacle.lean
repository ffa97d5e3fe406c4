/-
What can keep a domain that was parsed from being read back from its own text.
-/
import Verif.Spec.PrintDomain
import Verif.Spec.Grammar

namespace Pddl.Spec
open Pddl Spec.Grammar

/-- A domain with a text in the grammar, except for what the parser makes of types, of the empty condition
and effect `()`, and of numbers and operands. -/
structure DomainNoObstacle (F : FloatOf) (d : Domain) : Prop where
  /-- Types are declared only with `:typing` (or `:adl`, …). -/
  typing : d.types ≠ [] → HasTyping d.reqs
  /-- Every supertype is declared as a type. -/
  parents : ∀ p ∈ d.types, ∀ t, p.2 = some t → ∃ x, (t, x) ∈ d.types
  /-- A variable of a function has at most one type. -/
  functions : ∀ f ∈ d.functions, ∀ t ∈ f.1.terms, t.tags.length ≤ 1
  /-- A parameter of an action has at most one type. -/
  params : ∀ a ∈ d.actions, ∀ t ∈ a.params, t.tags.length ≤ 1
  /-- A precondition `()` is the empty disjunction, which must be allowed. -/
  pre : ∀ a ∈ d.actions, ∀ e, a.pre = some e → NoObstacle F e ∧
    (e = .bin .or [] → Allows (domainScope F d []) [.disPrecondition, .adl])
  /-- An effect `()` is the empty disjunction, which is not an effect. -/
  eff : ∀ a ∈ d.actions, ∀ e, a.eff = some e → NoObstacle F e ∧ e ≠ .bin .or []
  /-- The condition of a derived predicate. -/
  cond : ∀ x ∈ d.derived, NoObstacle F x.cond
  /-- The head of a derived predicate has no variable twice. -/
  head : ∀ x ∈ d.derived, (x.pred.terms.map Term.name).Nodup
  /-- The predicate is declared once. -/
  declared : ∀ x ∈ d.derived, ∀ p ∈ d.predicates, ∀ q ∈ d.predicates,
    p.name = x.pred.name → q.name = x.pred.name → q = p

/-- In the text, no derived predicate comes after an action. -/
def DerivedFirst (text : Str) : Prop :=
  ∀ ts, Brackets (lex text) [.node ts] →
    ts.Pairwise (fun a b => (∃ body, a = section_ s%"action" body) → ¬ ∃ body, b = section_ s%"derived" body)

end Pddl.Spec
