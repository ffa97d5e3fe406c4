/-
Arguments whose types suit the declared ones.
-/
import Verif.Spec.Declared
import Verif.Spec.Problem

namespace Pddl.Spec
open Pddl

/-- The type is the other one or lies below it in the hierarchy. -/
def Below (types : TypeDict) (a b : Str) : Prop := Relation.ReflTransGen (Parent types) a b

/-- An object that may stand where the declaration has `par`: any object if `par` has no types, otherwise one with a
type that is one of those of `par` or lies below one. -/
def Suits (types : TypeDict) (o par : Term) : Prop :=
  par.tags = [] ∨ ∃ a ∈ o.tags, ∃ b ∈ par.tags, Below types a b

/-- The term names an object of the problem or a constant of the domain, and that one suits the declaration. -/
def ArgSuits (d : Domain) (pr : Problem) (t par : Term) : Prop :=
  ∃ o ∈ pr.objects ++ d.constants, o.name = t.name ∧ Suits d.types o par

/-- The predicate is declared, for arguments like these. -/
def FactSuits (d : Domain) (pr : Problem) (p : Pred) : Prop :=
  ∃ q ∈ d.predicates, q.name = p.name ∧ List.Forall₂ (ArgSuits d pr) p.terms q.terms

/-- A formula of a problem that uses only what the problem and its domain declare. -/
structure ProblemUses (d : Domain) (pr : Problem) (e : Expr) : Prop where
  consts : ∀ n tag, UsesConst n tag e → ∃ o ∈ pr.objects ++ d.constants, o.name = n
  preds : PredsDeclared d e
  funs : FunsDeclared d e
  vars : freeVars e = []
  suits : ∀ p ∈ predsIn e, FactSuits d pr p

/-- Every argument of every step suits the parameter in its place. -/
def PlanSuits (d : Domain) (pr : Problem) (p : Plan) : Prop :=
  ∀ s ∈ p.steps, ∀ a, lastNamed s.1 d.actions = some a → List.Forall₂ (ArgSuits d pr) s.2 a.params

end Pddl.Spec
