/-
Which problems have a text that the grammar can read back.
-/
import Verif.Model.ParseProblem
import Verif.Spec.Printable
import Verif.Spec.Built

namespace Pddl.Spec
open Pddl

/-- The shape of numbers in texts: digits, then any number of times a dot and digits. -/
inductive Numeral : Str → Prop
  | digits {w} : DigitText w → Numeral w
  | dot {w b} : Numeral w → DigitText b → Numeral (w ++ '.' :: b)

/-- A constant with a valid name. -/
def IsConstant : Term → Prop
  | .const n _ => ValidName n
  | .var _ => False

/-- A term of a goal: a constant, or a variable without types. -/
def GoalTerm : Term → Prop
  | .const n _ => ValidName n
  | .var v => ValidName v.name ∧ v.tags = []

/-- Numeric expressions of goals. -/
inductive GoalNum (F : FloatOf) : Expr → Prop
  | num {n} : NumberText F n → GoalNum F (.num n)
  | fn {f : NFun} : (∀ t ∈ f.terms, GoalTerm t) → GoalNum F (.nfun f)
  | plus {as} : 2 ≤ as.length → (∀ a ∈ as, GoalNum F a) → GoalNum F (.bfun .plus as)
  | times {as} : 2 ≤ as.length → (∀ a ∈ as, GoalNum F a) → GoalNum F (.bfun .times as)
  | divide {a b} : GoalNum F a → GoalNum F b → GoalNum F (.bfun .divide [a, b])
  | minus {a} : GoalNum F a → GoalNum F (.bfun .minus [a])

/-- Goals: atoms, conjunctions, negations and comparisons. (The problem parser accepts nothing that
depends on a requirement.) -/
inductive GoalText (F : FloatOf) : Expr → Prop
  | pred {p : Pred} : (∀ t ∈ p.terms, GoalTerm t) → GoalText F (.pred p)
  | and {as} : (∀ a ∈ as, GoalText F a) → GoalText F (.bin .and as)
  | not {a} : GoalText F a → GoalText F (.not a)
  | comp {o a b} : IsComparison o → GoalNum F a → GoalNum F b → GoalText F (.bfun o [a, b])

/-- Initial facts: ground atoms, their negations, and values of functions. -/
inductive InitText (F : FloatOf) : Expr → Prop
  | pred {p : Pred} : (∀ t ∈ p.terms, IsConstant t) → InitText F (.pred p)
  | not {p : Pred} : (∀ t ∈ p.terms, IsConstant t) → InitText F (.not (.pred p))
  | value {f : NFun} {n} : (∀ t ∈ f.terms, IsConstant t) → NumberText F n →
      InitText F (.bfun .eq [.nfun f, .num n])

/-- Expressions of metrics; numbers are strings there. -/
inductive MetricText : Expr → Prop
  | num {w} : Numeral w → MetricText (.num (.str w))
  | fn {f : NFun} : (∀ t ∈ f.terms, IsConstant t) → MetricText (.nfun f)
  | plus {as} : 2 ≤ as.length → (∀ a ∈ as, MetricText a) → MetricText (.bfun .plus as)
  | times {as} : 2 ≤ as.length → (∀ a ∈ as, MetricText a) → MetricText (.bfun .times as)
  | divide {a b} : MetricText a → MetricText b → MetricText (.bfun .divide [a, b])
  | minus {a} : MetricText a → MetricText (.bfun .minus [a])

/-- An object of a problem. -/
def IsObject : Term → Prop
  | .const n x => ValidName n ∧ ∀ t, x = some t → ValidType t
  | .var _ => False

/-- Problems that the grammar can write. -/
structure PrintProblem (F : FloatOf) (p : Problem) : Prop where
  noDomain : p.domain = none
  reqs : Req.objectFluents ∉ p.reqs
  objects : ∀ o ∈ p.objects, IsObject o
  init : ∀ e ∈ p.init, InitText F e
  goal : GoalText F p.goal
  metric : ∀ m, p.metric = some m → MetricText m.expr

/-- Arguments of `Problem(...)` made by the constructors. -/
structure BuiltArgs (a : ProblemArgs) : Prop where
  init : ∀ e ∈ a.init, Built e
  goal : ∀ g, a.goal = some g → Built g
  metric : ∀ m, a.metric = some m → Built m.expr

/-- A problem made by `Problem(...)`. -/
def BuiltProblem (p : Problem) : Prop := ∃ a, BuiltArgs a ∧ mkProblem a = .ok p

/-- The state of a problem parser: objects under their own names. -/
def OwnNames (σ : List (Str × Term)) : Prop := ∀ n t, dictGet σ n = some t → ValidName n ∧ ∃ x, t = .const n x

mutual
/-- No operator whose operands were merged. -/
def AritiesWritten : Expr → Prop
  | .bfun o as => WrittenArity o as.length ∧ AllAritiesWritten as
  | _ => True
def AllAritiesWritten : List Expr → Prop
  | [] => True
  | a :: as => AritiesWritten a ∧ AllAritiesWritten as
end

/-- What keeps a problem that has been read from being written: numbers with another spelling and
operators whose operands were merged. -/
structure ProblemNoObstacle (F : FloatOf) (p : Problem) : Prop where
  init : ∀ e ∈ p.init, NoObstacle F e
  goal : NoObstacle F p.goal
  metric : ∀ m, p.metric = some m → AritiesWritten m.expr

end Pddl.Spec
