/-
Executing plans: as objects, and directly on the texts.
-/
import Verif.Spec.Ground
import Verif.Spec.Effect
import Verif.Spec.WrittenProblem
import Verif.Spec.Goal
import Verif.Spec.Replace

namespace Pddl.Spec
open Pddl Grammar

/-- The new value of a numeric fluent. -/
def update : FOp → Option Rat → Rat → Option Rat
  | .assign, _, v => some v
  | .increase, some x, v => some (x + v)
  | .decrease, some x, v => some (x - v)
  | .scaleUp, some x, v => some (x * v)
  | .scaleDown, some x, v => if v = 0 then none else some (x / v)
  | _, _, _ => none

/-- `J` is the state after the changes `C` in the state `I`. What is both added and deleted holds afterwards. A fluent
with contradicting updates may have any value. -/
structure Next {D} (C : Change D → Prop) (I J : Interp D) : Prop where
  const : J.const = I.const
  ty : J.ty = I.ty
  pred : ∀ p ds, J.pred p ds ↔ C (.add p ds) ∨ I.pred p ds ∧ ¬ C (.del p ds)
  same : ∀ f ds, (∀ op v, ¬ C (.num op f ds v)) → J.fn f ds = I.fn f ds
  updated : ∀ f ds op v, C (.num op f ds v) → (∀ op' v', C (.num op' f ds v') → op' = op ∧ v' = v) →
    J.fn f ds = update op (I.fn f ds) v

/-! ### Objects -/

/-- The ground action applies in `I` and leads to `J`. -/
def Acts {D} (ρ : Str → D) (g : Action) (I J : Interp D) : Prop :=
  (∀ e, g.pre = some e → holds I e ρ) ∧ Next (fun c => ∃ e, g.eff = some e ∧ makes I c e ρ) I J

/-- The ground actions one after the other lead from the first state to the last. -/
inductive Runs {D} (ρ : Str → D) : List Action → Interp D → Interp D → Prop
  | nil {I} : Runs ρ [] I I
  | cons {g gs I J K} : Acts ρ g I J → Runs ρ gs J K → Runs ρ (g :: gs) I K

/-- `I` is a state in which a problem starts: the atoms that hold and the fluents with a value are those listed. -/
structure StartsIn {D} (ρ : Str → D) (init : List Expr) (I : Interp D) : Prop where
  pred : ∀ n ds, I.pred n ds ↔ ∃ ts, .pred ⟨n, ts⟩ ∈ init ∧ ds = ts.map (denote I ρ)
  not : ∀ p, .not (.pred p) ∈ init → ¬ I.pred p.name (p.terms.map (denote I ρ))
  value : ∀ f v, .bfun .eq [.nfun f, .num v] ∈ init → I.fn f.name (f.terms.map (denote I ρ)) = numVal v
  other : ∀ n ds, I.fn n ds ≠ none → ∃ ts v, .bfun .eq [.nfun ⟨n, ts⟩, .num v] ∈ init ∧ ds = ts.map (denote I ρ)

/-- The plan leads from the start to the goal. -/
def Solves {D} (ρ : Str → D) (p : Pddl.Problem) (gs : List Action) (I : Interp D) : Prop :=
  StartsIn ρ p.init I ∧ ∃ J, Runs ρ gs I J ∧ holds J p.goal ρ

/-! ### Texts -/

/-- The step `(n a b …)` by an action written in the text `ts` of a domain. -/
def TextActs {D} (lit : Str → Option Rat) (ts : List Tree) (ρ : Str → D) (t : Tree) (I J : Interp D) : Prop :=
  ∃ n ns ps pre eff l ρ', t = applied n ns ∧ actionText n ps pre eff ∈ ts ∧ VarsText ps l ∧ ns.length = l.vars.length ∧
    (∀ q ∈ (l.vars.map Prod.fst).zip ns, ρ' q.1 = I.const q.2) ∧ (∀ m, m ∉ l.vars.map Prod.fst → ρ' m = ρ m) ∧
    preHolds I lit pre ρ' ∧ Next (fun c => treeMakes I lit c eff ρ') I J

/-- The written steps one after the other. -/
inductive TextRuns {D} (lit : Str → Option Rat) (ts : List Tree) (ρ : Str → D) : List Tree → Interp D → Interp D → Prop
  | nil {I} : TextRuns lit ts ρ [] I I
  | cons {u us I J K} : TextActs lit ts ρ u I J → TextRuns lit ts ρ us J K → TextRuns lit ts ρ (u :: us) I K

/-- The written fluent `(f a b …)`, or `f`, and its arguments. -/
def WrittenFluent (t : Tree) (f : Str) (ns : List Str) : Prop := t = applied f ns ∨ t = word f ∧ ns = []

/-- `I` is a state in which the written problem starts. -/
structure TextStarts {D} (lit : Str → Option Rat) (init : List Tree) (I : Interp D) : Prop where
  pred : ∀ n ds, I.pred n ds ↔ ∃ ns, applied n ns ∈ init ∧ ds = ns.map I.const
  not : ∀ n ns, .node [word s%"not", applied n ns] ∈ init → ¬ I.pred n (ns.map I.const)
  value : ∀ t f ns s, .node [.atom .eq, t, .atom (.num s)] ∈ init → WrittenFluent t f ns → I.fn f (ns.map I.const) = lit s
  other : ∀ n ds, I.fn n ds ≠ none → ∃ t ns s, .node [.atom .eq, t, .atom (.num s)] ∈ init ∧ WrittenFluent t n ns ∧ ds = ns.map I.const

/-- The written plan `us` leads from the written start to the written goal. -/
def TextSolves {D} (lit : Str → Option Rat) (ts : List Tree) (s : ProblemSections) (us : List Tree) (ρ : Str → D)
    (I : Interp D) : Prop :=
  TextStarts lit s.init I ∧ ∃ J, TextRuns lit ts ρ us I J ∧ treeHolds J lit s.goal ρ

/-- The actions of the text `ts` have different names, each has different parameters, and they are without the features
for which C46 and C74 fail: `()` as a precondition, `oneof`, and parameters bound again. -/
structure PlainActions (ts : List Tree) : Prop where
  names : ∀ n ps pre eff ps' pre' eff', actionText n ps pre eff ∈ ts → actionText n ps' pre' eff' ∈ ts →
    ps = ps' ∧ pre = pre' ∧ eff = eff'
  params : ∀ n ps pre eff l, actionText n ps pre eff ∈ ts → VarsText ps l → (l.vars.map Prod.fst).Nodup
  pre : ∀ n ps pre eff, actionText n ps pre eff ∈ ts → pre ≠ .node []
  bound : ∀ n ps pre eff l, actionText n ps pre eff ∈ ts → VarsText ps l → NotRebound (l.vars.map Prod.fst) pre
  eff : ∀ n ps pre eff, actionText n ps pre eff ∈ ts → NoOneof eff

/-- For each written step the operands of the sums, products, quotients and equations of the action stay different with
the arguments of the step written in place of the parameters. -/
def OperandsStay (F : FloatOf) (ts us : List Tree) : Prop :=
  ∀ n ns ps pre eff l, applied n ns ∈ us → actionText n ps pre eff ∈ ts → VarsText ps l →
    KeepsOperands (textEnv F) (writeIn (nameFor (l.vars.map Prod.fst) ns) pre) ∧
    KeepsOperands (textEnv F) (writeIn (nameFor (l.vars.map Prod.fst) ns) eff)

end Pddl.Spec
