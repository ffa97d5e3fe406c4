/-
Executing plans with derived predicates as objects, without instantiating actions, and derived predicates whose texts say what
they say.
-/
import Verif.Spec.SaidTask
import Verif.Spec.DerivedSem
import Verif.Spec.FormatTask

namespace Pddl.Spec
open Pddl Grammar

/-- The step by an action of the domain applies in `I`, where `I'` holds with what is derived, and leads to `J`. -/
def PerformsAt {D} (d : Domain) (ρ : Str → D) (st : Str × List Term) (I' I J : Interp D) : Prop :=
  ∃ a ∈ d.actions, ∃ ρ', a.name = st.1 ∧ st.2.length = a.params.length ∧ Binds I' a.params st.2 ρ ρ' ∧
    (∀ e, a.pre = some e → holds I' e ρ') ∧ Next (fun c => ∃ e, a.eff = some e ∧ makes I' c e ρ') I J

/-- The plan leads from the start to the goal, where `E I I'` says that `I'` is `I` together with what is derived in it. -/
def TaskSolvesBy {D} (E : Interp D → Interp D → Prop) (ρ : Str → D) (d : Domain) (p : Pddl.Problem) (plan : Plan) (I : Interp D) : Prop :=
  StartsIn ρ p.init I ∧ ∃ J J', StepByStep (fun st I J => ∃ I', E I I' ∧ PerformsAt d ρ st I' I J) plan.steps I J ∧ E J J' ∧
    holds J' p.goal ρ

/-- Each derived predicate is declared, and has types wherever a declaration for as many arguments has some. -/
structure DeclaredHeads (d : Domain) : Prop where
  declared : ∀ x ∈ d.derived, ∃ q ∈ d.predicates, q.name = x.pred.name ∧ q.terms.length = x.pred.terms.length
  typed : ∀ x ∈ d.derived, ∀ q ∈ d.predicates, q.name = x.pred.name → q.terms.length = x.pred.terms.length →
    ∀ z ∈ x.pred.terms.zip q.terms, z.1.tags = [] → z.2.tags = []

/-- The step `(n a b …)` by an action written in the text `ts`, as it is read (see `ReadSchema`), where `I'` holds with what is
derived. -/
def ReadSchemaAt {D} (F : FloatOf) (lit : Str → Option Rat) (ts : List Tree) (ρ : Str → D) (t : Tree) (I' I J : Interp D) : Prop :=
  ∃ n ns ps pre eff l ρ', t = applied n ns ∧ actionText n ps pre eff ∈ ts ∧ VarsText ps l ∧ ns.length = l.vars.length ∧
    (∀ q ∈ (l.vars.map Prod.fst).zip ns, ρ' q.1 = I'.const q.2) ∧ (∀ m, m ∉ l.vars.map Prod.fst → ρ' m = ρ m) ∧
    treeHolds I' lit (readPre F pre) ρ' ∧ Next (fun c => treeMakes I' lit c (readEff F eff) ρ') I J

/-- The written plan `us` leads from the written start to the written goal, as they are read, where `E I I'` says that `I'` is `I`
together with what is derived in it. -/
def ReadTaskSolvesBy {D} (E : Interp D → Interp D → Prop) (F : FloatOf) (lit : Str → Option Rat) (ts : List Tree) (s : ProblemSections)
    (us : List Tree) (ρ : Str → D) (I : Interp D) : Prop :=
  TextStarts lit s.init I ∧ ∃ J J', StepByStep (fun u I J => ∃ I', E I I' ∧ ReadSchemaAt F lit ts ρ u I' I J) us I J ∧ E J J' ∧
    treeHolds J' lit (readCond F s.goal) ρ

end Pddl.Spec
