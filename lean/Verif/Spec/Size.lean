/-
The size of objects and of texts.
-/
import Verif.Model.ParseProblem
import Verif.Model.Core

namespace Pddl.Spec
open Pddl

mutual
/-- The number of objects that make up a formula or an effect: itself, its parts, the terms and bound variables. -/
def nodes : Expr → Nat
  | .pred p => 1 + p.terms.length
  | .eq _ _ => 3
  | .nfun f => 1 + f.terms.length
  | .num _ => 1
  | .bfun _ as => 1 + nodesAll as
  | .bin _ as => 1 + nodesAll as
  | .not a => 1 + nodes a
  | .quant _ vs c => 1 + vs.length + nodes c
  | .when c e => 1 + nodes c + nodes e
  | .fall vs e => 1 + vs.length + nodes e
def nodesAll : List Expr → Nat
  | [] => 0
  | a :: as => nodes a + nodesAll as
end

mutual
/-- How deeply a formula or effect is nested: atoms and numbers are at depth 0. -/
def nesting : Expr → Nat
  | .pred _ => 0
  | .eq _ _ => 0
  | .nfun _ => 0
  | .num _ => 0
  | .bfun _ as => 1 + nestingAll as
  | .bin _ as => 1 + nestingAll as
  | .not a => 1 + nesting a
  | .quant _ _ c => 1 + nesting c
  | .when c e => 1 + max (nesting c) (nesting e)
  | .fall _ e => 1 + nesting e
def nestingAll : List Expr → Nat
  | [] => 0
  | a :: as => max (nesting a) (nestingAll as)
end

mutual
/-- The number of tokens of a text. -/
def tokens : Tree → Nat
  | .atom _ => 1
  | .node ts => 2 + tokensAll ts
def tokensAll : List Tree → Nat
  | [] => 0
  | t :: ts => tokens t + tokensAll ts
end

mutual
/-- How deeply the brackets of a text are nested. -/
def brackets : Tree → Nat
  | .atom _ => 0
  | .node ts => 1 + bracketsAll ts
def bracketsAll : List Tree → Nat
  | [] => 0
  | t :: ts => max (brackets t) (bracketsAll ts)
end

/-- The largest number of brackets that are open at the same time, if `k` are open at the beginning. -/
def openBrackets : Nat → List Tok → Nat
  | k, [] => k
  | k, .lpar :: ts => openBrackets (k + 1) ts
  | k, .rpar :: ts => max k (openBrackets (k - 1) ts)
  | k, _ :: ts => openBrackets k ts

/-- The depth of a text. -/
def textDepth (text : Str) : Nat := openBrackets 0 (lex text)

/-- The part of an action that may be absent. -/
def nodesOpt : Option Expr → Nat
  | none => 0
  | some e => nodes e

def nestingOpt : Option Expr → Nat
  | none => 0
  | some e => nesting e

/-- An action with its parameters, precondition and effect. -/
def actionNodes (a : Action) : Nat := 1 + a.params.length + nodesOpt a.pre + nodesOpt a.eff

/-- A derived predicate. -/
def derivedNodes (d : Derived) : Nat := 1 + d.pred.terms.length + nodes d.cond

/-- A domain with all its parts. -/
def domainNodes (d : Domain) : Nat :=
  1 + d.reqs.length + d.types.length + d.constants.length + (d.predicates.map (fun p => 1 + p.terms.length)).sum +
    (d.functions.map (fun f => 1 + f.1.terms.length)).sum + (d.derived.map derivedNodes).sum +
    (d.actions.map actionNodes).sum

/-- The metric that may be absent. -/
def metricNodes : Option Metric → Nat
  | none => 0
  | some m => 1 + nodes m.expr

/-- A problem with all its parts, without the domain that is attached to it. -/
def problemNodes (p : Pddl.Problem) : Nat :=
  1 + (p.reqs_.getD []).length + p.objects.length + nodesAll p.init + nodes p.goal +
    metricNodes p.metric

/-- A plan. -/
def planNodes (p : Plan) : Nat := (p.steps.map (fun s => 1 + s.2.length)).sum

end Pddl.Spec
