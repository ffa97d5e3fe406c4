/-
Texts of tasks that keep their solutions when they are read, and when they are read and written.
-/
import Verif.Spec.SaidTask
import Verif.Spec.Written
import Verif.Spec.ReadExecute

namespace Pddl.Spec
open Pddl Grammar

/-- The actions of the text: different parameters, no precondition `()`, no choices, and no operands that the parser drops. -/
structure PlainSchemas (F : FloatOf) (ts : List Tree) : Prop where
  params : ∀ n ps pre eff l, actionText n ps pre eff ∈ ts → VarsText ps l → (l.vars.map Prod.fst).Nodup
  pre : ∀ n ps pre eff, actionText n ps pre eff ∈ ts → pre ≠ .node [] ∧ KeepsOperands (textEnv F) pre
  eff : ∀ n ps pre eff, actionText n ps pre eff ∈ ts → NoOneof eff ∧ KeepsOperands (textEnv F) eff

/-! ### Texts as they are read -/

/-- The actions of the text: different parameters and no choices. -/
structure ClearSchemas (ts : List Tree) : Prop where
  params : ∀ n ps pre eff l, actionText n ps pre eff ∈ ts → VarsText ps l → (l.vars.map Prod.fst).Nodup
  eff : ∀ n ps pre eff, actionText n ps pre eff ∈ ts → NoOneof eff

/-- The step `(n a b …)` by an action written in the text `ts` of a domain, with the parameters denoting the objects `a b …`: the
precondition holds as it is read, and the changes are those of the effect as it is read. -/
def ReadSchema {D} (F : FloatOf) (lit : Str → Option Rat) (ts : List Tree) (ρ : Str → D) (t : Tree) (I J : Interp D) : Prop :=
  ∃ n ns ps pre eff l ρ', t = applied n ns ∧ actionText n ps pre eff ∈ ts ∧ VarsText ps l ∧ ns.length = l.vars.length ∧
    (∀ q ∈ (l.vars.map Prod.fst).zip ns, ρ' q.1 = I.const q.2) ∧ (∀ m, m ∉ l.vars.map Prod.fst → ρ' m = ρ m) ∧
    treeHolds I lit (readPre F pre) ρ' ∧ Next (fun c => treeMakes I lit c (readEff F eff) ρ') I J

/-- The written plan `us` leads from the written start to the written goal, as they are read. -/
def ReadTaskSolves {D} (F : FloatOf) (lit : Str → Option Rat) (ts : List Tree) (s : ProblemSections) (us : List Tree) (ρ : Str → D)
    (I : Interp D) : Prop :=
  TextStarts lit s.init I ∧ ∃ J, StepByStep (ReadSchema F lit ts ρ) us I J ∧ treeHolds J lit (readCond F s.goal) ρ

/-- The same, and the metric `u` as it is read has the value `v` at the end. -/
def ReadTaskSolvesFor {D} (F : FloatOf) (lit : Str → Option Rat) (ts : List Tree) (s : ProblemSections) (u : Tree) (us : List Tree)
    (ρ : Str → D) (I : Interp D) (v : Rat) : Prop :=
  TextStarts lit s.init I ∧ ∃ J, StepByStep (ReadSchema F lit ts ρ) us I J ∧ treeHolds J lit (readCond F s.goal) ρ ∧
    treeValue J lit ρ (readMetric u) = some v

/-- What an action says exactly, in terms of its text as it is read. -/
def ActionExact (F : FloatOf) (t : Tree) (a : Action) : Prop :=
  ∃ ps pre eff p e, t = actionText a.name ps pre eff ∧ a.pre = some p ∧ a.eff = some e ∧
    (∀ (D : Type) (I : Interp D) lit ρ, LitOk lit F → (holds I p ρ ↔ treeHolds I lit (readPre F pre) ρ)) ∧
    (NoOneof eff → ∀ (D : Type) (I : Interp D) lit c ρ, LitOk lit F → (makes I c e ρ ↔ treeMakes I lit c (readEff F eff) ρ))

/-! ### Choices -/

/-- The actions of the text have different parameters. -/
def NamedParams (ts : List Tree) : Prop :=
  ∀ n ps pre eff l, actionText n ps pre eff ∈ ts → VarsText ps l → (l.vars.map Prod.fst).Nodup

/-- No choice is written twice in an `and`. -/
def EachChoiceOnce (F : FloatOf) (ts : List Tree) : Prop := ∀ n ps pre eff, actionText n ps pre eff ∈ ts → ChoicesOnce F eff

/-- No precondition `()`, and no operands that the parser drops. -/
def KeptSchemas (F : FloatOf) (ts : List Tree) : Prop := ∀ n ps pre eff, actionText n ps pre eff ∈ ts →
  pre ≠ .node [] ∧ KeepsOperands (textEnv F) pre ∧ KeepsOperands (textEnv F) eff

/-- The step `(n a b …)` by an action written in the text `ts` of a domain, with one of the outcomes of its effect as it is read. -/
def ReadMaySchema {D} (F : FloatOf) (lit : Str → Option Rat) (ts : List Tree) (ρ : Str → D) (t : Tree) (I J : Interp D) : Prop :=
  ∃ n ns ps pre eff l ρ', t = applied n ns ∧ actionText n ps pre eff ∈ ts ∧ VarsText ps l ∧ ns.length = l.vars.length ∧
    (∀ q ∈ (l.vars.map Prod.fst).zip ns, ρ' q.1 = I.const q.2) ∧ (∀ m, m ∉ l.vars.map Prod.fst → ρ' m = ρ m) ∧
    treeHolds I lit (readPre F pre) ρ' ∧ ∃ C, treeOutcome I lit (readEff F eff) ρ' C ∧ Next C I J

/-- The written plan may lead from the written start to the written goal, as they are read. -/
def ReadTaskMaySolve {D} (F : FloatOf) (lit : Str → Option Rat) (ts : List Tree) (s : ProblemSections) (us : List Tree) (ρ : Str → D)
    (I : Interp D) : Prop :=
  TextStarts lit s.init I ∧ ∃ J, StepByStep (ReadMaySchema F lit ts ρ) us I J ∧ treeHolds J lit (readCond F s.goal) ρ

/-- What the effect of an action can do, in terms of its text as it is read, and as it is written. -/
def ActionMay (F : FloatOf) (t : Tree) (a : Action) : Prop :=
  ∃ ps pre eff e, t = actionText a.name ps pre eff ∧ a.eff = some e ∧ ∀ (D : Type) (I : Interp D) lit ρ C, LitOk lit F →
    ((outcome I e ρ C → treeOutcome I lit (readEff F eff) ρ C) ∧
      (ChoicesOnce F eff → treeOutcome I lit (readEff F eff) ρ C → outcome I e ρ C)) ∧
    (KeepsOperands (textEnv F) eff → (outcome I e ρ C → treeOutcome I lit eff ρ C) ∧
      (ChoicesOnce F eff → treeOutcome I lit eff ρ C → outcome I e ρ C))

end Pddl.Spec
