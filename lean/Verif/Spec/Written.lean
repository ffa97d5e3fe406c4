/-
What a text declares, section by section.
-/
import Verif.Spec.Grammar
import Verif.Spec.TextSem
import Verif.Spec.Effect
import Verif.Spec.Replace

namespace Pddl.Spec
open Pddl Grammar

/-- The sections of a domain text: `none` for a section that is absent. -/
structure DomainSections where
  name : Str
  reqs : Option (List Tree)
  types : Option (List Tree)
  constants : Option (List Tree)
  predicates : Option (List Tree)
  functions : Option (List Tree)
  structures : List Tree

/-- The text of an optional section. -/
def optText (k : Str) : Option (List Tree) → List Tree
  | none => []
  | some b => [section_ k b]

/-- `(k name)`. -/
def NamedHeader (k : Str) (t : Tree) (n : Str) : Prop := ∃ l, t = .node l ∧ Keyword k l [word n]

/-- The text consists of these sections. -/
def DomainSections.Of (t : Tree) (s : DomainSections) : Prop :=
  ∃ h, NamedHeader s%"domain" h s.name ∧
    t = .node (word s%"define" :: h :: (optText s%"requirements" s.reqs ++ optText s%"types" s.types ++
      optText s%"constants" s.constants ++ optText s%"predicates" s.predicates ++
      optText s%"functions" s.functions ++ s.structures))

/-- The requirements are those written. -/
def ReqsWritten (b : List Tree) (rs : List Req) : Prop := ∀ r : Req, r ∈ rs ↔ .atom (.kw r.value) ∈ b

/-- The types in order with the supertypes written after the next `-`. The supertype `object`, which all
types have, is not recorded. -/
def TypesWritten (b : List Tree) (d : TypeDict) : Prop :=
  ∃ l : NameList, b = l.text ∧ d = l.pairs.map (fun p => (p.1, if p.2 = some s%"object" then none else p.2))

/-- The constants in order with the types written after the next `-`. -/
def ConstantsWritten (b : List Tree) (cs : List Term) : Prop :=
  ∃ l : NameList, b = l.text ∧ cs = l.pairs.map (fun p => .const p.1 p.2)

/-- The terms are the written variables, in order, with the written types. -/
def VarsWritten (b : List Tree) (ts : List Term) : Prop :=
  ∃ l, VarsText b l ∧ List.Forall₂ (fun p t => ∃ v : Var, t = .var v ∧ v.name = p.1 ∧ SameTypes v.tags p.2) l.vars ts

/-- `(p ?x - t …)`. -/
def PredicateWritten (t : Tree) (p : Pred) : Prop := ∃ b, t = .node (word p.name :: b) ∧ VarsWritten b p.terms

/-- `(f ?x - t …)`. -/
def FunctionWritten (t : Tree) (f : NFun) : Prop := ∃ b, t = .node (word f.name :: b) ∧ VarsWritten b f.terms

/-- The same, but variables written for `total-cost` are ignored. -/
def FunctionRead (t : Tree) (f : NFun) : Prop :=
  FunctionWritten t f ∧ f.name ≠ s%"total-cost" ∨
    ∃ b, f = ⟨s%"total-cost", []⟩ ∧ t = .node (word s%"total-cost" :: b) ∧ TypedVars b

/-- The functions in order with the type `number` where it is written. -/
inductive FunctionsText : List Tree → List (Tree × Option Str) → Prop
  | rest (ts : List Tree) : FunctionsText ts (ts.map (fun t => (t, none)))
  | group {ts us l} : ts ≠ [] → FunctionsText us l →
      FunctionsText (ts ++ .atom .minus :: word s%"number" :: us) (ts.map (fun t => (t, some s%"number")) ++ l)

/-- The functions are those written, where `W` says what is written for one. -/
def FunctionsWritten (W : Tree → NFun → Prop) (b : List Tree) (d : FunDict) : Prop :=
  ∃ l, FunctionsText b l ∧ List.Forall₂ (fun p q => W p.1 q.1 ∧ q.2 = p.2) l d

/-- The terms are the written variables in order of their first mention, with the written types. -/
structure ParamsWritten (b : List Tree) (ts : List Term) (l : TypedList) (vs : List Var) : Prop where
  text : VarsText b l
  terms : ts = vs.map Term.var
  nodup : (vs.map Var.name).Nodup
  order : (vs.map Var.name).Sublist (l.vars.map Prod.fst)
  all : ∀ p ∈ l.vars, p.1 ∈ vs.map Var.name
  types : ∀ v ∈ vs, ∀ p ∈ l.vars, p.1 = v.name → SameTypes v.tags p.2

/-- The condition says what is written, in every state. -/
def SaysTheSame (F : FloatOf) (t : Tree) (e : Expr) : Prop :=
  ∀ (D : Type) (I : Interp D) lit ρ, LitOk lit F → (holds I e ρ ↔ treeHolds I lit t ρ)

/-- The effect makes the written changes, in every state. -/
def MakesTheSame (F : FloatOf) (t : Tree) (e : Expr) : Prop :=
  ∀ (D : Type) (I : Interp D) lit c ρ, LitOk lit F → (makes I c e ρ ↔ treeMakes I lit c t ρ)

/-- `(:action n :parameters (…) :precondition … :effect …)`. For the precondition and the effect see C46, C47
and C54. -/
def ActionWritten (F : FloatOf) (t : Tree) (a : Action) : Prop :=
  ∃ ps pre eff l vs p e, t = actionText a.name ps pre eff ∧ ParamsWritten ps a.params l vs ∧
    a.pre = some p ∧ a.eff = some e ∧ (pre ≠ .node [] → KeepsOperands (textEnv F) pre → SaysTheSame F pre p) ∧
    (NoOneof eff → KeepsOperands (textEnv F) eff → MakesTheSame F eff e)

/-- `(:derived (p ?x …) condition)`. The types of the variables may come from the declaration. -/
def DerivedWritten (F : FloatOf) (t : Tree) (d : Derived) : Prop :=
  ∃ b c l, t = section_ s%"derived" [.node (word d.pred.name :: b), c] ∧ VarsText b l ∧
    d.pred.terms.map Term.name = l.vars.map Prod.fst ∧ (KeepsOperands (textEnv F) c → SaysTheSame F c d.cond)

/-- The domain declares exactly what is written; `W` says what is written for a function. -/
structure DomainWritten (F : FloatOf) (W : Tree → NFun → Prop) (s : DomainSections) (d : Domain) : Prop where
  name : d.name = s.name
  reqs : ReqsWritten (s.reqs.getD []) d.reqs
  types : TypesWritten (s.types.getD []) d.types
  constants : ConstantsWritten (s.constants.getD []) d.constants
  predicates : ∀ p ∈ d.predicates, ∃ t ∈ s.predicates.getD [], PredicateWritten t p
  allPredicates : ∀ t ∈ s.predicates.getD [], ∃ p ∈ d.predicates, PredicateWritten t p
  functions : FunctionsWritten W (s.functions.getD []) d.functions
  actions : ∀ a ∈ d.actions, ∃ t ∈ s.structures, ActionWritten F t a
  derived : ∀ x ∈ d.derived, ∃ t ∈ s.structures, DerivedWritten F t x
  allStructures : ∀ t ∈ s.structures, (∃ a ∈ d.actions, ActionWritten F t a) ∨ ∃ x ∈ d.derived, DerivedWritten F t x

end Pddl.Spec
