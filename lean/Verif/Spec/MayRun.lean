/-
Executing plans of actions with choices: as objects, and directly on the texts.
-/
import Verif.Spec.Outcome
import Verif.Spec.Execute

namespace Pddl.Spec
open Pddl Grammar

/-- The ground action applies in `I` and one of its outcomes leads to `J`. -/
def MayAct {D} (ρ : Str → D) (g : Action) (I J : Interp D) : Prop :=
  (∀ e, g.pre = some e → holds I e ρ) ∧
    ∃ C, (∀ e, g.eff = some e → outcome I e ρ C) ∧ (g.eff = none → ∀ c, ¬ C c) ∧ Next C I J

/-- The ground actions one after the other may lead from the first state to the last. -/
inductive MayRun {D} (ρ : Str → D) : List Action → Interp D → Interp D → Prop
  | nil {I} : MayRun ρ [] I I
  | cons {g gs I J K} : MayAct ρ g I J → MayRun ρ gs J K → MayRun ρ (g :: gs) I K

/-- The plan may lead from the start to the goal (with luck). -/
def MaySolve {D} (ρ : Str → D) (p : Pddl.Problem) (gs : List Action) (I : Interp D) : Prop :=
  StartsIn ρ p.init I ∧ ∃ J, MayRun ρ gs I J ∧ holds J p.goal ρ

/-- Whenever the plan can be executed to its end, it leads from the start to the goal. -/
def NeverFails {D} (ρ : Str → D) (p : Pddl.Problem) (gs : List Action) (I : Interp D) : Prop :=
  StartsIn ρ p.init I ∧ ∀ J, MayRun ρ gs I J → holds J p.goal ρ

/-- Whatever the outcomes, each of the ground actions applies when it is due, and at the end `P` holds. -/
def Surely {D} (ρ : Str → D) (P : Interp D → Prop) : List Action → Interp D → Prop
  | [], I => P I
  | g :: gs, I => (∀ e, g.pre = some e → holds I e ρ) ∧ ∀ J, MayAct ρ g I J → Surely ρ P gs J

/-- The plan leads from the start to the goal, whatever the outcomes. -/
def SurelySolves {D} (ρ : Str → D) (p : Pddl.Problem) (gs : List Action) (I : Interp D) : Prop :=
  StartsIn ρ p.init I ∧ Surely ρ (fun J => holds J p.goal ρ) gs I

/-- The precondition of the step `(n a b …)` as it is written. -/
def TextApplies {D} (lit : Str → Option Rat) (ts : List Tree) (ρ : Str → D) (t : Tree) (I : Interp D) : Prop :=
  ∃ n ns ps pre eff l ρ', t = applied n ns ∧ actionText n ps pre eff ∈ ts ∧ VarsText ps l ∧ ns.length = l.vars.length ∧
    (∀ q ∈ (l.vars.map Prod.fst).zip ns, ρ' q.1 = I.const q.2) ∧ (∀ m, m ∉ l.vars.map Prod.fst → ρ' m = ρ m) ∧
    preHolds I lit pre ρ'

/-- The step `(n a b …)` by an action written in the text `ts` of a domain, with one of the written outcomes. -/
def TextMayAct {D} (lit : Str → Option Rat) (ts : List Tree) (ρ : Str → D) (t : Tree) (I J : Interp D) : Prop :=
  ∃ n ns ps pre eff l ρ', t = applied n ns ∧ actionText n ps pre eff ∈ ts ∧ VarsText ps l ∧ ns.length = l.vars.length ∧
    (∀ q ∈ (l.vars.map Prod.fst).zip ns, ρ' q.1 = I.const q.2) ∧ (∀ m, m ∉ l.vars.map Prod.fst → ρ' m = ρ m) ∧
    preHolds I lit pre ρ' ∧ ∃ C, treeOutcome I lit eff ρ' C ∧ Next C I J

/-- The written steps one after the other. -/
inductive TextMayRun {D} (lit : Str → Option Rat) (ts : List Tree) (ρ : Str → D) : List Tree → Interp D → Interp D → Prop
  | nil {I} : TextMayRun lit ts ρ [] I I
  | cons {u us I J K} : TextMayAct lit ts ρ u I J → TextMayRun lit ts ρ us J K → TextMayRun lit ts ρ (u :: us) I K

/-- The written plan may lead from the written start to the written goal. -/
def TextMaySolve {D} (lit : Str → Option Rat) (ts : List Tree) (s : ProblemSections) (us : List Tree) (ρ : Str → D)
    (I : Interp D) : Prop :=
  TextStarts lit s.init I ∧ ∃ J, TextMayRun lit ts ρ us I J ∧ treeHolds J lit s.goal ρ

/-- Whenever the written plan can be executed to its end, it leads from the written start to the written goal. -/
def TextNeverFails {D} (lit : Str → Option Rat) (ts : List Tree) (s : ProblemSections) (us : List Tree) (ρ : Str → D)
    (I : Interp D) : Prop :=
  TextStarts lit s.init I ∧ ∀ J, TextMayRun lit ts ρ us I J → treeHolds J lit s.goal ρ

/-- Whatever the written outcomes, each of the written steps applies when it is due, and at the end `P` holds. -/
def TextSurely {D} (lit : Str → Option Rat) (ts : List Tree) (ρ : Str → D) (P : Interp D → Prop) : List Tree → Interp D → Prop
  | [], I => P I
  | u :: us, I => TextApplies lit ts ρ u I ∧ ∀ J, TextMayAct lit ts ρ u I J → TextSurely lit ts ρ P us J

/-- The written plan leads from the written start to the written goal, whatever the outcomes. -/
def TextSurelySolves {D} (lit : Str → Option Rat) (ts : List Tree) (s : ProblemSections) (us : List Tree) (ρ : Str → D)
    (I : Interp D) : Prop :=
  TextStarts lit s.init I ∧ TextSurely lit ts ρ (fun J => treeHolds J lit s.goal ρ) us I

/-- The actions of the text `ts` have different names, each has different parameters, and they are without `()` as a
precondition and without parameters bound again (see C46 and C74). -/
structure UsualActions (ts : List Tree) : Prop where
  names : ∀ n ps pre eff ps' pre' eff', actionText n ps pre eff ∈ ts → actionText n ps' pre' eff' ∈ ts →
    ps = ps' ∧ pre = pre' ∧ eff = eff'
  params : ∀ n ps pre eff l, actionText n ps pre eff ∈ ts → VarsText ps l → (l.vars.map Prod.fst).Nodup
  pre : ∀ n ps pre eff, actionText n ps pre eff ∈ ts → pre ≠ .node []
  bound : ∀ n ps pre eff l, actionText n ps pre eff ∈ ts → VarsText ps l → NotRebound (l.vars.map Prod.fst) pre

/-- For each written step no choice is written twice in an `and` with the arguments of the step written in. -/
def ChoicesStay (F : FloatOf) (ts us : List Tree) : Prop :=
  ∀ n ns ps pre eff l, applied n ns ∈ us → actionText n ps pre eff ∈ ts → VarsText ps l →
    ChoicesOnce F (writeIn (nameFor (l.vars.map Prod.fst) ns) eff)

end Pddl.Spec
