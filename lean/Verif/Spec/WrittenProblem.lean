/-
What the text of a problem and the text of a plan say.
-/
import Verif.Spec.Written
import Verif.Model.ParseProblem

namespace Pddl.Spec
open Pddl Grammar

/-- The sections of a problem text: `none` for a section that is absent. -/
structure ProblemSections where
  name : Str
  domain : Str
  reqs : Option (List Tree)
  objects : Option (List Tree)
  init : List Tree
  goal : Tree
  metric : Option (List Tree)

/-- The text consists of these sections. -/
def ProblemSections.Of (t : Tree) (s : ProblemSections) : Prop :=
  ∃ h, NamedHeader s%"problem" h s.name ∧
    t = .node (word s%"define" :: h :: section_ s%"domain" [word s.domain] ::
      (optText s%"requirements" s.reqs ++ optText s%"objects" s.objects ++
        section_ s%"init" s.init :: section_ s%"goal" [s.goal] :: optText s%"metric" s.metric))

/-- `x` is the type with which the object `n` is declared; names that are not declared have none. -/
def ObjectType (objs : List Term) (n : Str) (x : Option Str) : Prop :=
  .const n x ∈ objs ∨ x = none ∧ ∀ y, .const n y ∉ objs

/-- `(p a b …)`: the constants have the written names and, if `T`, the declared types. -/
def FactWritten (T : Prop) (objs : List Term) (t : Tree) (p : Pred) : Prop :=
  ∃ ns : List Str, t = .node (word p.name :: ns.map word) ∧
    List.Forall₂ (fun n u => ∃ x, u = .const n x ∧ (T → ObjectType objs n x)) ns p.terms

/-- `(f a b …)`, or `f` without brackets. -/
def FluentWritten (t : Tree) (f : NFun) : Prop :=
  ∃ ns : List Str, (t = .node (word f.name :: ns.map word) ∨ t = word f.name ∧ ns = []) ∧
    List.Forall₂ (fun n u => ∃ x, u = .const n x) ns f.terms

/-- An element of the initial state. -/
inductive InitWritten (F : FloatOf) (T : Prop) (objs : List Term) : Tree → Expr → Prop
  | fact {t p} : FactWritten T objs t p → InitWritten F T objs t (.pred p)
  | not {t p} : FactWritten T objs t p → InitWritten F T objs (.node [word s%"not", t]) (.not (.pred p))
  | value {t f s v} : FluentWritten t f → (∀ lit, LitOk lit F → numVal v = lit s) →
      InitWritten F T objs (.node [.atom .eq, t, .atom (.num s)]) (.bfun .eq [.nfun f, .num v])

/-- The metric has the written direction, and the written value where `C` holds. -/
def MetricWritten (F : FloatOf) (C : Tree → Prop) (b : List Tree) (m : Pddl.Metric) : Prop :=
  ∃ t, (if m.max then Keyword s%"maximize" b [t] else Keyword s%"minimize" b [t]) ∧
    (C t → ∀ (D : Type) (I : Interp D) lit ρ, LitOk lit F → value I ρ m.expr = treeValue I lit ρ t)

/-- No numbers in the text. -/
def NoNumbers (t : Tree) : Prop := ∀ s, ¬ Inside (.atom (.num s)) t

/-- The problem contains exactly what is written. For the goal and sums in the metric see C46 and C47. -/
structure ProblemWritten (F : FloatOf) (T : Prop) (C : Tree → Prop) (s : ProblemSections) (p : Pddl.Problem) : Prop where
  name : p.name = s.name
  noDomain : p.domain = none
  domain : p.domainName = s.domain
  reqs : match s.reqs, p.reqs_ with
    | none, none => True
    | some b, some rs => ReqsWritten b rs
    | _, _ => False
  objects : ConstantsWritten (s.objects.getD []) p.objects
  init : ∀ e ∈ p.init, ∃ t ∈ s.init, InitWritten F T p.objects t e
  allInit : ∀ t ∈ s.init, ∃ e ∈ p.init, InitWritten F T p.objects t e
  goal : KeepsOperands (goalEnv F) s.goal → SaysTheSame F s.goal p.goal
  metric : match s.metric, p.metric with
    | none, none => True
    | some b, some m => MetricWritten F C b m
    | _, _ => False

/-- `(a x y …)`: a step of a plan. -/
def StepWritten (t : Tree) (s : Str × List Term) : Prop :=
  ∃ ns : List Str, t = .node (word s.1 :: ns.map word) ∧ s.2 = ns.map (.const · none)

end Pddl.Spec
