/-
Executing plans with derived predicates: as objects, and directly on the texts.
-/
import Verif.Spec.Execute
import Verif.Spec.Written

namespace Pddl.Spec
open Pddl Grammar

/-! ### Rules -/

/-- Rules: the atoms that they derive in a state in one step. -/
abbrev RuleSet (D : Type) := Interp D → Str → List D → Prop

/-- What the derived predicates of a domain derive. -/
def Derives {D} (ρ : Str → D) (xs : List Derived) : RuleSet D := fun I n ds =>
  ∃ x ∈ xs, x.pred.name = n ∧ ∃ ρ', (∀ m, m ∉ x.pred.terms.map Term.name → ρ' m = ρ m) ∧
    ds = x.pred.terms.map (denote I ρ') ∧ (∀ v, .var v ∈ x.pred.terms → InRange I v (ρ' v.name)) ∧ holds I x.cond ρ'

/-- What the text derives: by `(:derived (n ?x …) c)`, for all values of the variables for which `c` is true. The values
are of the types written there, or else of those written in the declaration of `n`. -/
def TextDerives {D} (lit : Str → Option Rat) (s : DomainSections) (ρ : Str → D) : RuleSet D := fun I n ds =>
  ∃ b c l b' l' ρ', section_ s%"derived" [.node (word n :: b), c] ∈ s.structures ∧ VarsText b l ∧
    .node (word n :: b') ∈ s.predicates.getD [] ∧ VarsText b' l' ∧ l'.vars.length = l.vars.length ∧
    (∀ m, m ∉ l.vars.map Prod.fst → ρ' m = ρ m) ∧ ds = l.vars.map (fun p => ρ' p.1) ∧
    (∀ q ∈ l.vars.zip l'.vars, InRange I ⟨q.1.1, if q.1.2 = [] then q.2.2 else q.1.2⟩ (ρ' q.1.1)) ∧ treeHolds I lit c ρ'

/-- Each derived predicate is declared once, the variables after its name are different, and the operands of each sum,
product, quotient and equation in its conditions are written differently. -/
structure PlainDerived (F : FloatOf) (s : DomainSections) : Prop where
  once : ∀ n b c b1 b2, section_ s%"derived" [.node (word n :: b), c] ∈ s.structures →
    .node (word n :: b1) ∈ s.predicates.getD [] → .node (word n :: b2) ∈ s.predicates.getD [] → b1 = b2
  vars : ∀ n b c l, section_ s%"derived" [.node (word n :: b), c] ∈ s.structures → VarsText b l → (l.vars.map Prod.fst).Nodup
  cond : ∀ n b c, section_ s%"derived" [.node (word n :: b), c] ∈ s.structures → KeepsOperands (textEnv F) c

/-- `J` is `I` with the least set of atoms that contains those of `I` and what the rules derive from it. -/
structure LeastClosed {D} (R : RuleSet D) (I J : Interp D) : Prop where
  const : J.const = I.const
  ty : J.ty = I.ty
  fn : J.fn = I.fn
  pred : ∀ n ds, J.pred n ds ↔ ∀ S : Str → List D → Prop, (∀ n ds, I.pred n ds → S n ds) →
    (∀ n ds, R { I with pred := S } n ds → S n ds) → S n ds

/-! ### Steps

`E I I'` says that `I'` is the state `I` together with what is derived in it. Conditions are evaluated in `I'`; changes are
made to `I`. -/

/-- The ground action applies in `I`, where `I'` holds with what is derived, and leads to `J`. -/
def ActsAt {D} (ρ : Str → D) (g : Action) (I' I J : Interp D) : Prop :=
  (∀ e, g.pre = some e → holds I' e ρ) ∧ Next (fun c => ∃ e, g.eff = some e ∧ makes I' c e ρ) I J

/-- The ground actions one after the other. -/
inductive RunsBy {D} (E : Interp D → Interp D → Prop) (ρ : Str → D) : List Action → Interp D → Interp D → Prop
  | nil {I} : RunsBy E ρ [] I I
  | cons {g gs I I' J K} : E I I' → ActsAt ρ g I' I J → RunsBy E ρ gs J K → RunsBy E ρ (g :: gs) I K

/-- The plan leads from the start to the goal. -/
def SolvesBy {D} (E : Interp D → Interp D → Prop) (ρ : Str → D) (p : Pddl.Problem) (gs : List Action) (I : Interp D) : Prop :=
  StartsIn ρ p.init I ∧ ∃ J J', RunsBy E ρ gs I J ∧ E J J' ∧ holds J' p.goal ρ

/-- The step `(n a b …)` by an action written in the text `ts` of a domain. -/
def TextActsAt {D} (lit : Str → Option Rat) (ts : List Tree) (ρ : Str → D) (t : Tree) (I' I J : Interp D) : Prop :=
  ∃ n ns ps pre eff l ρ', t = applied n ns ∧ actionText n ps pre eff ∈ ts ∧ VarsText ps l ∧ ns.length = l.vars.length ∧
    (∀ q ∈ (l.vars.map Prod.fst).zip ns, ρ' q.1 = I'.const q.2) ∧ (∀ m, m ∉ l.vars.map Prod.fst → ρ' m = ρ m) ∧
    preHolds I' lit pre ρ' ∧ Next (fun c => treeMakes I' lit c eff ρ') I J

/-- The written steps one after the other. -/
inductive TextRunsBy {D} (E : Interp D → Interp D → Prop) (lit : Str → Option Rat) (ts : List Tree) (ρ : Str → D) :
    List Tree → Interp D → Interp D → Prop
  | nil {I} : TextRunsBy E lit ts ρ [] I I
  | cons {u us I I' J K} : E I I' → TextActsAt lit ts ρ u I' I J → TextRunsBy E lit ts ρ us J K → TextRunsBy E lit ts ρ (u :: us) I K

/-- The written plan leads from the written start to the written goal. -/
def TextSolvesBy {D} (E : Interp D → Interp D → Prop) (lit : Str → Option Rat) (ts : List Tree) (s : ProblemSections) (us : List Tree)
    (ρ : Str → D) (I : Interp D) : Prop :=
  TextStarts lit s.init I ∧ ∃ J J', TextRunsBy E lit ts ρ us I J ∧ E J J' ∧ treeHolds J' lit s.goal ρ

end Pddl.Spec
