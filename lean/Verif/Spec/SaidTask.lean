/-
Executing plans as objects without instantiating actions, and tasks whose texts can say what they say.
-/
import Verif.Spec.Said
import Verif.Spec.PrintDomain
import Verif.Spec.Execute
import Verif.Spec.Cost
import Verif.Spec.MayRun

namespace Pddl.Spec
open Pddl Grammar

/-! ### Executing -/

/-- The step by an action of the domain leads from `I` to `J`, with the parameters denoting the arguments. -/
def Performs {D} (d : Domain) (ρ : Str → D) (st : Str × List Term) (I J : Interp D) : Prop :=
  ∃ a ∈ d.actions, ∃ ρ', a.name = st.1 ∧ st.2.length = a.params.length ∧ Binds I a.params st.2 ρ ρ' ∧
    (∀ e, a.pre = some e → holds I e ρ') ∧ Next (fun c => ∃ e, a.eff = some e ∧ makes I c e ρ') I J

/-- One of the outcomes of the step leads from `I` to `J`. -/
def MayPerform {D} (d : Domain) (ρ : Str → D) (st : Str × List Term) (I J : Interp D) : Prop :=
  ∃ a ∈ d.actions, ∃ ρ', a.name = st.1 ∧ st.2.length = a.params.length ∧ Binds I a.params st.2 ρ ρ' ∧
    (∀ e, a.pre = some e → holds I e ρ') ∧ ∃ e C, a.eff = some e ∧ outcome I e ρ' C ∧ Next C I J

/-- Steps one after the other. -/
inductive StepByStep {D α} (R : α → Interp D → Interp D → Prop) : List α → Interp D → Interp D → Prop
  | nil {I} : StepByStep R [] I I
  | cons {a as I J K} : R a I J → StepByStep R as J K → StepByStep R (a :: as) I K

/-- The plan leads from the start to the goal. -/
def TaskSolves {D} (ρ : Str → D) (d : Domain) (p : Pddl.Problem) (plan : Plan) (I : Interp D) : Prop :=
  StartsIn ρ p.init I ∧ ∃ J, StepByStep (Performs d ρ) plan.steps I J ∧ holds J p.goal ρ

/-- The plan may lead from the start to the goal. -/
def TaskMaySolve {D} (ρ : Str → D) (d : Domain) (p : Pddl.Problem) (plan : Plan) (I : Interp D) : Prop :=
  StartsIn ρ p.init I ∧ ∃ J, StepByStep (MayPerform d ρ) plan.steps I J ∧ holds J p.goal ρ

/-- The plan leads from the start to the goal, and the metric has the value `v` at the end. -/
def TaskSolvesFor {D} (lit : Str → Option Rat) (ρ : Str → D) (d : Domain) (p : Pddl.Problem) (m : Pddl.Metric) (plan : Plan)
    (I : Interp D) (v : Rat) : Prop :=
  StartsIn ρ p.init I ∧ ∃ J, StepByStep (Performs d ρ) plan.steps I J ∧ holds J p.goal ρ ∧ metricValue J lit ρ m.expr = some v

/-! ### Tasks -/

/-- An action with at most one type for each parameter, no parameter without a type before one with a type. -/
structure SaidAction (F : FloatOf) (a : Action) : Prop where
  params : ∃ vs : List Var, a.params = vs.map Term.var ∧ PrintVars vs
  pre : ∀ e, a.pre = some e → SaidCond F e
  eff : ∀ e, a.eff = some e → SaidEff F e

/-- Domains whose texts say what they say. -/
structure SaidDomain (F : FloatOf) (d : Domain) : Prop where
  reqs : Req.objectFluents ∉ d.reqs
  types : PrintTypes d.types d.reqs
  constants : ∀ o ∈ d.constants, IsObject o
  predicates : ∀ p ∈ d.predicates, PrintPredicate p
  functions : ∀ f ∈ d.functions, PrintFunction f
  derived : ∀ x ∈ d.derived, PrintPredicate x.pred ∧ SaidCond F x.cond
  actions : ∀ x ∈ d.actions, SaidAction F x

/-- Expressions of metrics of any depth; numbers are strings there. -/
inductive SaidMetric : Expr → Prop
  | num {w} : Numeral w → SaidMetric (.num (.str w))
  | fn {f : NFun} : ValidFunction f.name → (∀ t ∈ f.terms, ValidName t.name) → SaidMetric (.nfun f)
  | op {o as} : IsArithmetic o → (∀ a ∈ as, SaidMetric a) → SaidMetric (.bfun o as)

/-- Problems whose texts say what they say. -/
structure SaidProblem (F : FloatOf) (p : Pddl.Problem) : Prop where
  noDomain : p.domain = none
  reqs : Req.objectFluents ∉ p.reqs
  objects : ∀ o ∈ p.objects, IsObject o
  init : ∀ e ∈ p.init, InitText F e
  goal : SaidCond F p.goal
  metric : ∀ m, p.metric = some m → SaidMetric m.expr

/-- Plans whose actions have the shape of names, with constants. -/
def SaidPlan (plan : Plan) : Prop := ∀ s ∈ plan.steps, NameShape s.1 ∧ ∀ t ∈ s.2, IsConstant t

end Pddl.Spec
