/-
Executing the texts of plans of actions with choices, as the texts are read.
-/
import Verif.Spec.ReadExecute
import Verif.Spec.MayRun

namespace Pddl.Spec
open Pddl Grammar

/-- The actions of the text `ts` have different names, each has different parameters, and they are without parameters bound
again. -/
structure DistinctActions (ts : List Tree) : Prop where
  names : ∀ n ps pre eff ps' pre' eff', actionText n ps pre eff ∈ ts → actionText n ps' pre' eff' ∈ ts →
    ps = ps' ∧ pre = pre' ∧ eff = eff'
  params : ∀ n ps pre eff l, actionText n ps pre eff ∈ ts → VarsText ps l → (l.vars.map Prod.fst).Nodup
  bound : ∀ n ps pre eff l, actionText n ps pre eff ∈ ts → VarsText ps l → NotRebound (l.vars.map Prod.fst) pre

/-- The precondition of the step `(n a b …)`, with the names `a b …` in place of the parameters, holds as it is read. -/
def ReadApplies {D} (F : FloatOf) (lit : Str → Option Rat) (ts : List Tree) (ρ : Str → D) (t : Tree) (I : Interp D) : Prop :=
  ∃ n ns ps pre eff l, t = applied n ns ∧ actionText n ps pre eff ∈ ts ∧ VarsText ps l ∧ ns.length = l.vars.length ∧
    treeHolds I lit (readPre F (writeIn (nameFor (l.vars.map Prod.fst) ns) pre)) ρ

/-- The step `(n a b …)` with one of the outcomes of its effect as it is read. -/
def ReadMayAct {D} (F : FloatOf) (lit : Str → Option Rat) (ts : List Tree) (ρ : Str → D) (t : Tree) (I J : Interp D) : Prop :=
  ∃ n ns ps pre eff l, t = applied n ns ∧ actionText n ps pre eff ∈ ts ∧ VarsText ps l ∧ ns.length = l.vars.length ∧
    treeHolds I lit (readPre F (writeIn (nameFor (l.vars.map Prod.fst) ns) pre)) ρ ∧
    ∃ C, treeOutcome I lit (readEff F (writeIn (nameFor (l.vars.map Prod.fst) ns) eff)) ρ C ∧ Next C I J

/-- The written steps one after the other. -/
inductive ReadMayRun {D} (F : FloatOf) (lit : Str → Option Rat) (ts : List Tree) (ρ : Str → D) :
    List Tree → Interp D → Interp D → Prop
  | nil {I} : ReadMayRun F lit ts ρ [] I I
  | cons {u us I J K} : ReadMayAct F lit ts ρ u I J → ReadMayRun F lit ts ρ us J K → ReadMayRun F lit ts ρ (u :: us) I K

/-- The written plan may lead from the written start to the written goal, as it is read. -/
def ReadMaySolve {D} (F : FloatOf) (lit : Str → Option Rat) (ts : List Tree) (s : ProblemSections) (us : List Tree) (ρ : Str → D)
    (I : Interp D) : Prop :=
  TextStarts lit s.init I ∧ ∃ J, ReadMayRun F lit ts ρ us I J ∧ treeHolds J lit (readCond F s.goal) ρ

/-- Whenever the written plan can be executed to its end as it is read, it leads from the start to the goal. -/
def ReadNeverFails {D} (F : FloatOf) (lit : Str → Option Rat) (ts : List Tree) (s : ProblemSections) (us : List Tree) (ρ : Str → D)
    (I : Interp D) : Prop :=
  TextStarts lit s.init I ∧ ∀ J, ReadMayRun F lit ts ρ us I J → treeHolds J lit (readCond F s.goal) ρ

/-- Whatever the outcomes as they are read, each of the written steps applies when it is due, and at the end `P` holds. -/
def ReadSurely {D} (F : FloatOf) (lit : Str → Option Rat) (ts : List Tree) (ρ : Str → D) (P : Interp D → Prop) :
    List Tree → Interp D → Prop
  | [], I => P I
  | u :: us, I => ReadApplies F lit ts ρ u I ∧ ∀ J, ReadMayAct F lit ts ρ u I J → ReadSurely F lit ts ρ P us J

/-- The written plan leads from the written start to the written goal as it is read, whatever the outcomes. -/
def ReadSurelySolves {D} (F : FloatOf) (lit : Str → Option Rat) (ts : List Tree) (s : ProblemSections) (us : List Tree) (ρ : Str → D)
    (I : Interp D) : Prop :=
  TextStarts lit s.init I ∧ ReadSurely F lit ts ρ (fun J => treeHolds J lit (readCond F s.goal) ρ) us I

end Pddl.Spec
