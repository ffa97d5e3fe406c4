/-
Goals that use no requirement.
-/
import Verif.Spec.Parse
import Verif.Spec.Names
import Verif.Model.Requirements

namespace Pddl.Spec
open Pddl

/-- `(f a b …)` -/
def applied (f : Str) (ns : List Str) : Tree := .node (.atom (.name f) :: ns.map (fun n => .atom (.name n)))

/-- A written number or an application of a function to objects. -/
inductive PlainNumber : Tree → Prop
  | int {s} : '.' ∉ s → PlainNumber (.atom (.num s))
  | fn {f ns} : ValidFunction f → (∀ n ∈ ns, ValidName n) → PlainNumber (applied f ns)

/-- Conjunctions and negations of atoms about objects, and comparisons of numbers. -/
inductive PlainGoal : Tree → Prop
  | atom {p ns} : ValidName p → (∀ n ∈ ns, ValidName n) → PlainGoal (applied p ns)
  | and {l} : (∀ t ∈ l, PlainGoal t) → PlainGoal (.node (.atom (.name s%"and") :: l))
  | not {t} : PlainGoal t → PlainGoal (.node [.atom (.name s%"not"), t])
  | comp {k a b} : k ∈ [.eq, .lt, .le, .gt, .ge] → PlainNumber a → PlainNumber b → PlainGoal (.node [.atom k, a, b])

/-- A problem without objects and metric, with the given requirements and goal. -/
def goalProblem (n dn : Str) (rs : List Req) (g : Tree) : List Tree :=
  [.atom (.name s%"define"), .node [.atom (.name s%"problem"), .atom (.name n)],
   .node [.atom (.kw s%"domain"), .atom (.name dn)],
   .node (.atom (.kw s%"requirements") :: rs.map (fun r => .atom (.kw r.value))),
   .node [.atom (.kw s%"init")], .node [.atom (.kw s%"goal"), g]]

end Pddl.Spec
