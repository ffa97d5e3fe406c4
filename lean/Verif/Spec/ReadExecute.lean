/-
Executing the texts of plans as the texts are read.
-/
import Verif.Spec.AsRead
import Verif.Spec.DerivedSem
import Verif.Spec.Cost

namespace Pddl.Spec
open Pddl Grammar

/-- The step `(n a b …)` by an action written in the text `ts` of a domain: with the names `a b …` in place of the parameters
the precondition holds in `I'` as it is read, and the changes from `I` to `J` are those of the effect as it is read, in `I'`. -/
def ReadActsAt {D} (F : FloatOf) (lit : Str → Option Rat) (ts : List Tree) (ρ : Str → D) (t : Tree) (I' I J : Interp D) : Prop :=
  ∃ n ns ps pre eff l, t = applied n ns ∧ actionText n ps pre eff ∈ ts ∧ VarsText ps l ∧ ns.length = l.vars.length ∧
    treeHolds I' lit (readPre F (writeIn (nameFor (l.vars.map Prod.fst) ns) pre)) ρ ∧
    Next (fun c => treeMakes I' lit c (readEff F (writeIn (nameFor (l.vars.map Prod.fst) ns) eff)) ρ) I J

/-- The step, with no derived predicates. -/
def ReadActs {D} (F : FloatOf) (lit : Str → Option Rat) (ts : List Tree) (ρ : Str → D) (t : Tree) (I J : Interp D) : Prop :=
  ReadActsAt F lit ts ρ t I I J

/-- The written steps one after the other. -/
inductive ReadRuns {D} (F : FloatOf) (lit : Str → Option Rat) (ts : List Tree) (ρ : Str → D) : List Tree → Interp D → Interp D → Prop
  | nil {I} : ReadRuns F lit ts ρ [] I I
  | cons {u us I J K} : ReadActs F lit ts ρ u I J → ReadRuns F lit ts ρ us J K → ReadRuns F lit ts ρ (u :: us) I K

/-- The written plan `us` leads from the written start to the written goal as it is read. -/
def ReadSolves {D} (F : FloatOf) (lit : Str → Option Rat) (ts : List Tree) (s : ProblemSections) (us : List Tree) (ρ : Str → D)
    (I : Interp D) : Prop :=
  TextStarts lit s.init I ∧ ∃ J, ReadRuns F lit ts ρ us I J ∧ treeHolds J lit (readCond F s.goal) ρ

/-- The actions of the text `ts` have different names, each has different parameters, and they are without `oneof` and without
parameters bound again. -/
structure ClearActions (ts : List Tree) : Prop where
  names : ∀ n ps pre eff ps' pre' eff', actionText n ps pre eff ∈ ts → actionText n ps' pre' eff' ∈ ts →
    ps = ps' ∧ pre = pre' ∧ eff = eff'
  params : ∀ n ps pre eff l, actionText n ps pre eff ∈ ts → VarsText ps l → (l.vars.map Prod.fst).Nodup
  bound : ∀ n ps pre eff l, actionText n ps pre eff ∈ ts → VarsText ps l → NotRebound (l.vars.map Prod.fst) pre
  eff : ∀ n ps pre eff, actionText n ps pre eff ∈ ts → NoOneof eff

/-! ### Derived predicates -/

/-- What the text derives, with the conditions as they are read (see `TextDerives`). -/
def ReadDerives {D} (F : FloatOf) (lit : Str → Option Rat) (s : DomainSections) (ρ : Str → D) : RuleSet D := fun I n ds =>
  ∃ b c l b' l' ρ', section_ s%"derived" [.node (word n :: b), c] ∈ s.structures ∧ VarsText b l ∧
    .node (word n :: b') ∈ s.predicates.getD [] ∧ VarsText b' l' ∧ l'.vars.length = l.vars.length ∧
    (∀ m, m ∉ l.vars.map Prod.fst → ρ' m = ρ m) ∧ ds = l.vars.map (fun p => ρ' p.1) ∧
    (∀ q ∈ l.vars.zip l'.vars, InRange I ⟨q.1.1, if q.1.2 = [] then q.2.2 else q.1.2⟩ (ρ' q.1.1)) ∧ treeHolds I lit (readCond F c) ρ'

/-- The written steps one after the other, with derived predicates. -/
inductive ReadRunsBy {D} (E : Interp D → Interp D → Prop) (F : FloatOf) (lit : Str → Option Rat) (ts : List Tree) (ρ : Str → D) :
    List Tree → Interp D → Interp D → Prop
  | nil {I} : ReadRunsBy E F lit ts ρ [] I I
  | cons {u us I I' J K} : E I I' → ReadActsAt F lit ts ρ u I' I J → ReadRunsBy E F lit ts ρ us J K →
      ReadRunsBy E F lit ts ρ (u :: us) I K

/-- The written plan leads from the written start to the written goal as it is read, with derived predicates. -/
def ReadSolvesBy {D} (E : Interp D → Interp D → Prop) (F : FloatOf) (lit : Str → Option Rat) (ts : List Tree) (s : ProblemSections)
    (us : List Tree) (ρ : Str → D) (I : Interp D) : Prop :=
  TextStarts lit s.init I ∧ ∃ J J', ReadRunsBy E F lit ts ρ us I J ∧ E J J' ∧ treeHolds J' lit (readCond F s.goal) ρ

/-- Each derived predicate is declared once, and the variables after its name are different. -/
structure ClearDerived (s : DomainSections) : Prop where
  once : ∀ n b c b1 b2, section_ s%"derived" [.node (word n :: b), c] ∈ s.structures →
    .node (word n :: b1) ∈ s.predicates.getD [] → .node (word n :: b2) ∈ s.predicates.getD [] → b1 = b2
  vars : ∀ n b c l, section_ s%"derived" [.node (word n :: b), c] ∈ s.structures → VarsText b l → (l.vars.map Prod.fst).Nodup

/-! ### Metrics -/

mutual
/-- The texts are the same. -/
def sameText : Tree → Tree → Bool
  | .atom a, .atom b => decide (a = b)
  | .node as, .node bs => sameTexts as bs
  | _, _ => false
def sameTexts : List Tree → List Tree → Bool
  | [], [] => true
  | a :: as, b :: bs => sameText a b && sameTexts as bs
  | _, _ => false
end

/-- The texts that are not the same as an earlier one. -/
def firstTexts : List Tree → List Tree
  | [] => []
  | t :: ts => t :: (firstTexts ts).filter (fun u => !sameText t u)

mutual
/-- A metric as it is read. As in other numeric expressions nested operands are spread out and repeated ones dropped, but numbers
are the same only if they are written in the same way. -/
def readMetric : Tree → Tree
  | .atom (.name n) => .node [.atom (.name n)]
  | .node (.atom .plus :: args) => .node (.atom .plus :: firstTexts (spreadAll .plus (readMetrics args)))
  | .node (.atom .times :: args) => .node (.atom .times :: firstTexts (spreadAll .times (readMetrics args)))
  | .node (.atom .divide :: args) => .node (.atom .divide :: firstTexts (spreadAll .divide (readMetrics args)))
  | .node (.atom .minus :: args) => .node (.atom .minus :: readMetrics args)
  | t => t
def readMetrics : List Tree → List Tree
  | [] => []
  | t :: ts => readMetric t :: readMetrics ts
end

/-- The written steps lead from the written start to the written goal, all as they are read, and the metric `u` as it is read
has the value `v` at the end. -/
def ReadSolvesFor {D} (F : FloatOf) (lit : Str → Option Rat) (ts : List Tree) (s : ProblemSections) (u : Tree) (us : List Tree)
    (ρ : Str → D) (I : Interp D) (v : Rat) : Prop :=
  TextStarts lit s.init I ∧ ∃ J, ReadRuns F lit ts ρ us I J ∧ treeHolds J lit (readCond F s.goal) ρ ∧
    treeValue J lit ρ (readMetric u) = some v

end Pddl.Spec
