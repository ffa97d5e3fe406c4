/-
The same objects, with the sets and dictionaries inside iterated in another order.
-/
import Verif.Model.Core

namespace Pddl.Spec
open Pddl

/-- The same elements, each up to `R`, in any order. -/
def PermBy {α} (R : α → α → Prop) (l l' : List α) : Prop :=
  ∃ m, l.Perm m ∧ List.Forall₂ R m l'

namespace Reorder

/-- The type tags of a variable are a set. -/
structure SameVar (v w : Var) : Prop where
  name : v.name = w.name
  tags : v.tags.Perm w.tags

inductive SameTerm : Term → Term → Prop
  | var {v w : Var} : SameVar v w → SameTerm (.var v) (.var w)
  | const (n : Str) (t : Option Str) : SameTerm (.const n t) (.const n t)

/-- Formulas, effects and numeric expressions: operands are sequences, the variables of
quantifiers are sets. -/
inductive SameExpr : Expr → Expr → Prop
  | pred {n : Str} {ts us : List Term} : List.Forall₂ SameTerm ts us →
      SameExpr (.pred ⟨n, ts⟩) (.pred ⟨n, us⟩)
  | eq {l r l' r' : Term} : SameTerm l l' → SameTerm r r' → SameExpr (.eq l r) (.eq l' r')
  | nfun {n : Str} {ts us : List Term} : List.Forall₂ SameTerm ts us →
      SameExpr (.nfun ⟨n, ts⟩) (.nfun ⟨n, us⟩)
  | num (x : Num) : SameExpr (.num x) (.num x)
  | bfun {o : FOp} {as bs : List Expr} : as.length = bs.length →
      (∀ p ∈ as.zip bs, SameExpr p.1 p.2) → SameExpr (.bfun o as) (.bfun o bs)
  | bin {o : BOp} {as bs : List Expr} : as.length = bs.length →
      (∀ p ∈ as.zip bs, SameExpr p.1 p.2) → SameExpr (.bin o as) (.bin o bs)
  | not {a b : Expr} : SameExpr a b → SameExpr (.not a) (.not b)
  | quant {q : QOp} {vs ws : List Var} {a b : Expr} : PermBy SameVar vs ws → SameExpr a b →
      SameExpr (.quant q vs a) (.quant q ws b)
  | when {c e c' e' : Expr} : SameExpr c c' → SameExpr e e' → SameExpr (.when c e) (.when c' e')
  | fall {vs ws : List Var} {a b : Expr} : PermBy SameVar vs ws → SameExpr a b →
      SameExpr (.fall vs a) (.fall ws b)

inductive SameOpt {α} (R : α → α → Prop) : Option α → Option α → Prop
  | absent : SameOpt R .none .none
  | present {a b : α} : R a b → SameOpt R (.some a) (.some b)

structure SamePred (p q : Pred) : Prop where
  name : p.name = q.name
  terms : List.Forall₂ SameTerm p.terms q.terms

structure SameFun (p q : NFun × Option Str) : Prop where
  name : p.1.name = q.1.name
  terms : List.Forall₂ SameTerm p.1.terms q.1.terms
  type : p.2 = q.2

structure SameDerived (p q : Derived) : Prop where
  pred : SamePred p.pred q.pred
  cond : SameExpr p.cond q.cond

/-- The parameters of an action are a sequence. -/
structure SameAction (a b : Action) : Prop where
  name : a.name = b.name
  params : List.Forall₂ SameTerm a.params b.params
  pre : SameOpt SameExpr a.pre b.pre
  eff : SameOpt SameExpr a.eff b.eff

structure SameDomain (d e : Domain) : Prop where
  name : d.name = e.name
  reqs : d.reqs.Perm e.reqs
  types : d.types.Perm e.types
  constants : d.constants.Perm e.constants
  predicates : PermBy SamePred d.predicates e.predicates
  functions : PermBy SameFun d.functions e.functions
  derived : PermBy SameDerived d.derived e.derived
  actions : PermBy SameAction d.actions e.actions

structure SameMetric (m n : Metric) : Prop where
  expr : SameExpr m.expr n.expr
  max : m.max = n.max

structure SameProblem (p q : Problem) : Prop where
  name : p.name = q.name
  domainName : p.domainName = q.domainName
  reqs : p.reqs.Perm q.reqs
  objects : p.objects.Perm q.objects
  init : PermBy SameExpr p.init q.init
  goal : SameExpr p.goal q.goal
  metric : SameOpt SameMetric p.metric q.metric

end Reorder

/-! ### Where the order shows -/

mutual
/-- The variable lists of the quantifiers in a formula or effect. -/
def blocks : Expr → List (List Var)
  | .pred _ => []
  | .eq _ _ => []
  | .nfun _ => []
  | .num _ => []
  | .bfun _ as => blocksAll as
  | .bin _ as => blocksAll as
  | .not a => blocks a
  | .quant _ vs c => vs :: blocks c
  | .when c e => blocks c ++ blocks e
  | .fall vs e => vs :: blocks e
def blocksAll : List Expr → List (List Var)
  | [] => []
  | a :: as => blocks a ++ blocksAll as
end

/-- No quantifier of the formula binds more than one variable, or one with more than one type. -/
def OrderFree (e : Expr) : Prop :=
  ∀ vs ∈ blocks e, vs.length ≤ 1 ∧ ∀ v ∈ vs, v.tags.length ≤ 1

structure OrderFreeAction (a : Action) : Prop where
  params : ∀ t ∈ a.params, t.tags.length ≤ 1
  pre : ∀ e ∈ a.pre, OrderFree e
  eff : ∀ e ∈ a.eff, OrderFree e

/-- The order of sets cannot be seen in the text of the domain. -/
structure OrderFreeDomain (d : Domain) : Prop where
  derived : ∀ p ∈ d.derived, OrderFree p.cond
  actions : ∀ a ∈ d.actions, OrderFreeAction a

structure OrderFreeProblem (p : Problem) : Prop where
  init : ∀ e ∈ p.init, OrderFree e
  goal : OrderFree p.goal
  metric : ∀ m ∈ p.metric, OrderFree m.expr

/-- The predicates of a domain are a set, and so are the types of their variables. -/
structure PredicateSet (ps : List Pred) : Prop where
  distinct : ps.Pairwise (fun a b => a.pyEq b = false)
  tags : ∀ p ∈ ps, ∀ t ∈ p.terms, t.tags.Nodup

end Pddl.Spec
