/-
Which domains have a text that the grammar can read back.
-/
import Verif.Spec.Printable
import Verif.Spec.PrintProblem
import Verif.Spec.Types
import Verif.Spec.Tags
import Verif.Spec.Built
import Verif.Model.ParseDomain

namespace Pddl.Spec
open Pddl

/-- Arguments of `Domain(...)` made by the constructors. Dictionaries have distinct keys, and the types
of a term are a set. -/
structure BuiltDomainArgs (a : DomainArgs) : Prop where
  types : IsDict a.types
  predicates : ∀ p ∈ a.predicates, ∃ n ts, mkPred n ts = .ok p
  functions : IsFunDict a.functions
  functionNames : ∀ f ∈ a.functions, ∃ n ts, mkNFun n ts = .ok f.1
  actions : ∀ x ∈ a.actions, BuiltAction x
  derived : ∀ x ∈ a.derived, BuiltDerived x
  tags : ∀ x ∈ a.actions, ∀ t ∈ x.params ++ termsOpt x.pre ++ termsOpt x.eff, t.tags.Nodup

/-- A domain made by `Domain(...)`. -/
def BuiltDomain (d : Domain) : Prop := ∃ a, BuiltDomainArgs a ∧ mkDomain a = .ok d

/-- Variables of a declaration: no variable without type before one with types, and the same types
wherever a name is repeated. -/
structure DeclVars (vs : List Var) : Prop where
  names : ∀ v ∈ vs, ValidName v.name
  types : ∀ v ∈ vs, ∀ t ∈ v.tags, ValidType t
  order : vs.Pairwise (fun a b => a.tags = [] → b.tags = [])
  same : ∀ v ∈ vs, ∀ w ∈ vs, v.name = w.name → SameTypes v.tags w.tags

/-- A declared predicate. -/
def PrintPredicate (p : Pred) : Prop := ∃ vs : List Var, p.terms = vs.map Term.var ∧ DeclVars vs

/-- A declared function: at most one type for each variable, none for `total-cost`, and no type but
`number` for the function. -/
structure PrintFunction (f : NFun × Option Str) : Prop where
  terms : ∃ vs : List Var, f.1.terms = vs.map Term.var ∧ DeclVars vs ∧ ∀ v ∈ vs, v.tags.length ≤ 1
  cost : f.1.name = s%"total-cost" → f.1.terms = []
  type : f.2 = none ∨ f.2 = some s%"number"

/-- The types section can be written: it always contains `- object`, so it needs `:typing`; `object` is
not listed; every parent is listed. -/
structure PrintTypes (d : TypeDict) (rs : List Req) : Prop where
  typing : d ≠ [] → HasTyping rs
  keys : ∀ p ∈ d, p.1 ≠ s%"object"
  parents : ∀ p ∈ d, ∀ t, p.2 = some t → t ≠ s%"object" ∧ ∃ x, (t, x) ∈ d

/-- The first constant with the name. -/
def constantNamed (cs : List Term) (n : Str) : Except Exc Term :=
  match cs.find? (fun c => decide (c.name = n)) with
  | some c => .ok c
  | none => .error .undefined

/-- The scope of the conditions and effects in a domain, for an action with these parameters. -/
def domainScope (F : FloatOf) (d : Domain) (params : List Term) : GEnv :=
  ⟨F, extendReqs d.reqs, constantNamed d.constants, params.map (fun t => (t.name, t)), typedListVariable⟩

/-- An action whose text can be read back. -/
structure PrintAction (F : FloatOf) (d : Domain) (a : Action) : Prop where
  params : ∃ vs : List Var, a.params = vs.map Term.var ∧ PrintVars vs
  pre : ∀ e, a.pre = some e → PrintCond (domainScope F d a.params) e
  eff : ∀ e, a.eff = some e → PrintEff (domainScope F d a.params) true e

/-- The types written in the head of a derived predicate. -/
def writtenTypes (ts : List Term) : VarTypes :=
  ts.filterMap (fun t => if t.tags = [] then none else some (t.name, t.tags))

/-- The types `l` of a variable in the head fit the types `r` of the declaration: written if there are
declared ones, and each declared, or with a declared parent. -/
def HeadFits (d : TypeDict) (l r : List Str) : Prop :=
  (l = [] → r = []) ∧ (r = [] ∨ ∀ t ∈ l, t ∈ r ∨ ∃ p ∈ r, d.lookup t = some (some p))

/-- A derived predicate whose text can be read back: the head fits the only declaration, and the
condition is one whose variables have no types, with the types of the scope filled in. -/
structure PrintDerived (F : FloatOf) (d : Domain) (x : Derived) : Prop where
  head : ∃ vs : List Var, x.pred.terms = vs.map Term.var ∧ DeclVars vs ∧ (vs.map Var.name).Nodup
  declared : ∃ p ∈ d.predicates, p.name = x.pred.name ∧ (∀ q ∈ d.predicates, q.name = x.pred.name → q = p) ∧
    List.Forall₂ (fun l r : Term => HeadFits d.types l.tags r.tags) x.pred.terms p.terms
  cond : ∃ c, Built c ∧ PrintCond (domainScope F d []) c ∧ x.cond = retagged [] (writtenTypes x.pred.terms) c

/-- Domains that the grammar can write. -/
structure PrintDomain (F : FloatOf) (d : Domain) : Prop where
  reqs : Req.objectFluents ∉ d.reqs
  types : PrintTypes d.types d.reqs
  constants : ∀ o ∈ d.constants, IsObject o
  predicates : ∀ p ∈ d.predicates, PrintPredicate p
  functions : ∀ f ∈ d.functions, PrintFunction f
  derived : ∀ x ∈ d.derived, PrintDerived F d x
  actions : ∀ x ∈ d.actions, PrintAction F d x

end Pddl.Spec
