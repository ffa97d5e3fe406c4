/-
What a plan costs: by the metric that was read, and by the written metric.
-/
import Verif.Spec.Execute

namespace Pddl.Spec
open Pddl Grammar

/-- The value of a number. The numbers of a metric are kept as texts. -/
def numberVal (lit : Str → Option Rat) : Num → Option Rat
  | .str w => lit w
  | n => numVal n

mutual
/-- The value of the expression of a metric in a state. -/
def metricValue {D} (I : Interp D) (lit : Str → Option Rat) (ρ : Str → D) : Expr → Option Rat
  | .nfun f => I.fn f.name (f.terms.map (denote I ρ))
  | .num n => numberVal lit n
  | .bfun o as => (metricValues I lit ρ as).bind (arith o)
  | _ => none
def metricValues {D} (I : Interp D) (lit : Str → Option Rat) (ρ : Str → D) : List Expr → Option (List Rat)
  | [] => some []
  | a :: as => (metricValue I lit ρ a).bind (fun x => (metricValues I lit ρ as).map (x :: ·))
end

/-- The parser keeps all operands of the arithmetic in the text `t` of a metric: the operands of `+` and `*` (also those of
nested sums and products) and of `/` are pairwise different as Python objects, and no operand of `/` is a quotient. -/
structure KeepsMetric (t : Tree) : Prop where
  plus : ∀ args es, Inside (.node (.atom .plus :: args)) t → metricExps args = .ok es → Distinct (leavesAll (.fop .plus) es)
  times : ∀ args es, Inside (.node (.atom .times :: args)) t → metricExps args = .ok es → Distinct (leavesAll (.fop .times) es)
  divide : ∀ args es, Inside (.node (.atom .divide :: args)) t → metricExps args = .ok es →
    Distinct es ∧ ∀ e ∈ es, ∀ as, e ≠ .bfun .divide as

/-- The ground actions lead from the start to the goal, and the metric has the value `v` at the end. -/
def SolvesFor {D} (lit : Str → Option Rat) (ρ : Str → D) (p : Pddl.Problem) (m : Pddl.Metric) (gs : List Action) (I : Interp D)
    (v : Rat) : Prop :=
  StartsIn ρ p.init I ∧ ∃ J, Runs ρ gs I J ∧ holds J p.goal ρ ∧ metricValue J lit ρ m.expr = some v

/-- The written steps lead from the written start to the written goal, and the written metric `u` has the value `v` at the
end. -/
def TextSolvesFor {D} (lit : Str → Option Rat) (ts : List Tree) (s : ProblemSections) (u : Tree) (us : List Tree) (ρ : Str → D)
    (I : Interp D) (v : Rat) : Prop :=
  TextStarts lit s.init I ∧ ∃ J, TextRuns lit ts ρ us I J ∧ treeHolds J lit s.goal ρ ∧ treeValue J lit ρ u = some v

/-- The metric `u` written after `:metric`, to be maximized or minimized. -/
def WrittenMetric (max : Bool) (b : List Tree) (u : Tree) : Prop :=
  if max then Keyword s%"maximize" b [u] else Keyword s%"minimize" b [u]

/-- The value `v` is at least as good as `w`. -/
def AsGood (max : Bool) (v w : Rat) : Prop := if max then w ≤ v else v ≤ w

/-- `a` is one of the best of `L`, where `C a v` says that `a` can have the value `v`. -/
def BestOf {α} (max : Bool) (L : α → Prop) (C : α → Rat → Prop) (a : α) : Prop :=
  L a ∧ ∃ v, C a v ∧ ∀ b w, L b → C b w → AsGood max v w

/-- The plan text is read and grounded with the actions of `d`. -/
def GroundPlan (d : Pddl.Domain) (ltext : Str) (gs : List Action) : Prop :=
  ∃ plan, parsePlan ltext = .ok plan ∧ plan.inst d = .ok gs

end Pddl.Spec
