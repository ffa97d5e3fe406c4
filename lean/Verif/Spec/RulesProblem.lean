/-
Rules for the problem texts and plan texts that are accepted.
-/
import Verif.Spec.WrittenProblem
import Verif.Spec.PrintProblem
import Verif.Spec.Goal

namespace Pddl.Spec.Rules
open Pddl Spec Grammar

/-- Arguments in a goal: neither objects nor variables need be declared. -/
inductive GoalTerms : List Tree → Prop
  | nil : GoalTerms []
  | object {n ts} : ValidName n → GoalTerms ts → GoalTerms (word n :: ts)
  | var {n ts} : ValidName n → GoalTerms ts → GoalTerms (varTrees n ++ ts)

/-- Numeric expressions in a goal. -/
inductive GoalNumber (F : FloatOf) : Tree → Prop
  | literal {s} : ('.' ∈ s → F s ≠ none) → GoalNumber F (.atom (.num s))
  | plus {ts} : 2 ≤ ts.length → (∀ t ∈ ts, GoalNumber F t) → GoalNumber F (.node (.atom .plus :: ts))
  | times {ts} : 2 ≤ ts.length → (∀ t ∈ ts, GoalNumber F t) → GoalNumber F (.node (.atom .times :: ts))
  | divide {a b} : GoalNumber F a → GoalNumber F b → GoalNumber F (.node [.atom .divide, a, b])
  | negate {a} : GoalNumber F a → GoalNumber F (.node [.atom .minus, a])
  | name {n} : ValidFunction n → GoalNumber F (word n)
  | args {n ts} : ValidFunction n → GoalTerms ts → GoalNumber F (.node (word n :: ts))

/-- Goals. Whatever requirements are declared, there are no disjunctions, quantifiers and equalities of
terms. -/
inductive GoalIn (F : FloatOf) : Tree → Prop
  | predicate {n ts} : ValidName n → GoalTerms ts → GoalIn F (.node (word n :: ts))
  | and {ts} : (∀ t ∈ ts, GoalIn F t) → GoalIn F (.node (word s%"and" :: ts))
  | not {t} : GoalIn F t → GoalIn F (.node [word s%"not", t])
  | compare {op a b} : op ∈ [.gt, .lt, .ge, .le] → GoalNumber F a → GoalNumber F b → GoalIn F (.node [.atom op, a, b])
  | equal {a b} : (∀ n, a ≠ word n) → GoalNumber F a → GoalNumber F b → GoalIn F (.node [.atom .eq, a, b])

/-- `(f a b …)`, or `f` without brackets. -/
inductive FluentIn : Tree → Prop
  | name {n} : ValidFunction n → FluentIn (word n)
  | args {n ns} : ValidFunction n → (∀ m ∈ ns, ValidName m) → FluentIn (applied n ns)

/-- Elements of the initial state. -/
inductive InitIn (F : FloatOf) : Tree → Prop
  | fact {n ns} : ValidName n → (∀ m ∈ ns, ValidName m) → InitIn F (applied n ns)
  | not {n ns} : ValidName n → (∀ m ∈ ns, ValidName m) → InitIn F (.node [word s%"not", applied n ns])
  | value {t s} : FluentIn t → ('.' ∈ s → F s ≠ none) → InitIn F (.node [.atom .eq, t, .atom (.num s)])

/-- Expressions of a metric: decimals are not read. -/
inductive MetricNumber : Tree → Prop
  | literal {s} : MetricNumber (.atom (.num s))
  | plus {ts} : 2 ≤ ts.length → (∀ t ∈ ts, MetricNumber t) → MetricNumber (.node (.atom .plus :: ts))
  | times {ts} : 2 ≤ ts.length → (∀ t ∈ ts, MetricNumber t) → MetricNumber (.node (.atom .times :: ts))
  | divide {a b} : MetricNumber a → MetricNumber b → MetricNumber (.node [.atom .divide, a, b])
  | negate {a} : MetricNumber a → MetricNumber (.node [.atom .minus, a])
  | fluent {t} : FluentIn t → MetricNumber t

/-- The sections of a problem text obey the rules. -/
structure ProblemSectionsIn (F : FloatOf) (s : ProblemSections) : Prop where
  name : ValidName s.name
  domain : ValidName s.domain
  reqs : ∀ b, s.reqs = some b → Requirements b
  objects : ∀ b, s.objects = some b → ∃ l : NameList, b = l.text ∧ l.Ok
  init : ∀ t ∈ s.init, InitIn F t
  goal : GoalIn F s.goal
  metric : ∀ b, s.metric = some b → ∃ t, (Keyword s%"maximize" b [t] ∨ Keyword s%"minimize" b [t]) ∧ MetricNumber t

/-- The text of a problem obeys the rules. -/
def ProblemIn (F : FloatOf) (text : Str) : Prop :=
  ∃ t s, Brackets (lex text) [t] ∧ s.Of t ∧ ProblemSectionsIn F s

/-- The text of a plan obeys the rules: the names of the actions need not be valid. -/
def PlanIn (text : Str) : Prop :=
  ∃ ts, Brackets (lex text) ts ∧ ∀ t ∈ ts, ∃ n ns, t = applied n ns ∧ ∀ m ∈ ns, ValidName m

end Pddl.Spec.Rules
