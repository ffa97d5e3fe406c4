/-
Plans whose ground actions may do what the actions may do.
-/
import Verif.Spec.GroundPlan

namespace Pddl.Spec
open Pddl

/-- Effects with choices, without conditional and without universal effects; no conjunction is an operand of a conjunction. -/
inductive Chosen : Expr → Prop
  | leaf {e} : Definite e → (∀ bs, e ≠ .bin .and bs) → Chosen e
  | oneof {as} : (∀ a ∈ as, Chosen a) → Chosen (.bin .oneof as)
  | and {as} : (∀ a ∈ as, Chosen a) → (∀ a ∈ as, ∀ bs, a ≠ .bin .and bs) → Chosen (.bin .and as)

/-- The instances of two operands of a conjunction are different, if there is a choice in them. -/
inductive Apart (m : Mapping) : Expr → Prop
  | leaf {e} : Definite e → (∀ bs, e ≠ .bin .and bs) → Apart m e
  | oneof {as} : (∀ a ∈ as, Apart m a) → Apart m (.bin .oneof as)
  | and {as} : (∀ a ∈ as, Apart m a) → (∀ bs, List.Forall₂ (fun a b => a.inst m = .ok b) as bs →
      bs.Pairwise (fun x y => x.pyEq y = true → choiceFree x)) → Apart m (.bin .and as)

/-- The step of a plan by the action: as `SafeStep`, with choices. -/
structure SafeChoice (a : Action) (args : List Term) : Prop where
  params : ∃ vs : List Var, a.params = vs.map Term.var ∧ (vs.map Var.name).Nodup
  consts : ∀ t ∈ args, ∃ n tag, t = .const n tag
  pre : ∀ e, a.pre = some e → SafeFormula a.params args e
  eff : ∀ e, a.eff = some e → SafeFormula a.params args e ∧ Chosen e

/-- The steps of the plan are safe. -/
def SafeChoices (d : Domain) (plan : Plan) : Prop := ∀ st ∈ plan.steps, ∀ a ∈ d.actions, a.name = st.1 → SafeChoice a st.2

/-- No two choices in a conjunction are made one by the arguments of the steps. -/
def ApartChoices (d : Domain) (plan : Plan) : Prop := ∀ st ∈ plan.steps, ∀ a ∈ d.actions, a.name = st.1 →
  ∀ e, a.eff = some e → Apart (a.params.zip st.2) e

end Pddl.Spec
