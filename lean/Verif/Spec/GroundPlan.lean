/-
Plans whose ground actions do what the actions do.
-/
import Verif.Spec.SaidTask
import Verif.Spec.Subst

namespace Pddl.Spec
open Pddl

/-- Effects without choices, without conditional and without universal effects (`instantiate` has no method for these). -/
inductive Definite : Expr → Prop
  | pred (p) : Definite (.pred p)
  | eq (l r) : Definite (.eq l r)
  | not (p) : Definite (.not (.pred p))
  | notEq (l r) : Definite (.not (.eq l r))
  | update (o as) : Definite (.bfun o as)
  | and {as} : (∀ a ∈ as, Definite a) → Definite (.bin .and as)

/-- The formula can be instantiated with these arguments: numbers are where numbers belong, a variable is a parameter exactly if it
has the name of one and is not bound by a quantifier, and different operands of sums, products, quotients and equations stay
different. -/
structure SafeFormula (params args : List Term) (e : Expr) : Prop where
  sorted : WellSorted e
  safe : Safe (params.zip args) e []
  distinct : NoCollision (params.zip args) e

/-- The step of a plan by the action: different parameters, constants for them, and formulas that can be instantiated. -/
structure SafeStep (a : Action) (args : List Term) : Prop where
  params : ∃ vs : List Var, a.params = vs.map Term.var ∧ (vs.map Var.name).Nodup
  consts : ∀ t ∈ args, ∃ n tag, t = .const n tag
  pre : ∀ e, a.pre = some e → SafeFormula a.params args e
  eff : ∀ e, a.eff = some e → SafeFormula a.params args e ∧ Definite e

/-- No two actions with the same name. -/
def OneActionEach (d : Domain) : Prop := ∀ a ∈ d.actions, ∀ b ∈ d.actions, a.name = b.name → a = b

/-- All steps of the plan are safe. -/
def SafePlan (d : Domain) (plan : Plan) : Prop := ∀ st ∈ plan.steps, ∀ a ∈ d.actions, a.name = st.1 → SafeStep a st.2

end Pddl.Spec
