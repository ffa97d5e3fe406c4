/-
Formulas and effects whose texts can say what they say.
-/
import Verif.Spec.Printable
import Verif.Spec.Outcome

namespace Pddl.Spec
open Pddl

/-- The operators of arithmetic. -/
def IsArithmetic : FOp → Prop
  | .plus => True | .minus => True | .times => True | .divide => True
  | _ => False

/-- Numeric expressions of any depth, with numbers that are written as the grammar writes numbers. -/
inductive SaidNum (F : FloatOf) : Expr → Prop
  | num {n} : NumberText F n → SaidNum F (.num n)
  | fn {f : NFun} : ValidFunction f.name → (∀ t ∈ f.terms, ValidName t.name) → SaidNum F (.nfun f)
  | op {o as} : IsArithmetic o → (∀ a ∈ as, SaidNum F a) → SaidNum F (.bfun o as)

/-- Quantified variables with at most one type each, none without a type before one with a type. -/
structure SaidVars (vs : List Var) : Prop where
  names : ∀ v ∈ vs, ValidName v.name
  types : ∀ v ∈ vs, v.tags = [] ∨ ∃ t, v.tags = [t] ∧ ValidType t
  order : vs.Pairwise (fun a b => a.tags = [] → b.tags = [])

/-- Conditions of any depth. -/
inductive SaidCond (F : FloatOf) : Expr → Prop
  | pred {p : Pred} : ValidName p.name → (∀ t ∈ p.terms, ValidName t.name) → SaidCond F (.pred p)
  | eq {l r} : ValidName l.name → ValidName r.name → SaidCond F (.eq l r)
  | and {as} : (∀ a ∈ as, SaidCond F a) → SaidCond F (.bin .and as)
  | or {as} : (∀ a ∈ as, SaidCond F a) → SaidCond F (.bin .or as)
  | imply {as} : (∀ a ∈ as, SaidCond F a) → SaidCond F (.bin .imply as)
  | not {a} : SaidCond F a → SaidCond F (.not a)
  | quant {q vs c} : SaidVars vs → SaidCond F c → SaidCond F (.quant q vs c)
  | comp {o as} : IsComparison o → (∀ a ∈ as, SaidNum F a) → SaidCond F (.bfun o as)

/-- Effects of any depth. -/
inductive SaidEff (F : FloatOf) : Expr → Prop
  | pred {p : Pred} : ValidName p.name → (∀ t ∈ p.terms, ValidName t.name) → SaidEff F (.pred p)
  | eq {l r} : ValidName l.name → ValidName r.name → SaidEff F (.eq l r)
  | not {p : Pred} : ValidName p.name → (∀ t ∈ p.terms, ValidName t.name) → SaidEff F (.not (.pred p))
  | notEq {l r} : ValidName l.name → ValidName r.name → SaidEff F (.not (.eq l r))
  | update {o} {f : NFun} {x} : IsAssignment o → ValidFunction f.name → (∀ t ∈ f.terms, ValidName t.name) → SaidNum F x →
      SaidEff F (.bfun o [.nfun f, x])
  | and {as} : (∀ a ∈ as, SaidEff F a) → SaidEff F (.bin .and as)
  | oneof {as} : as ≠ [] → (∀ a ∈ as, SaidEff F a) → SaidEff F (.bin .oneof as)
  | when {c e} : SaidCond F c → SaidEff F e → SaidEff F (.when c e)
  | fall {vs e} : SaidVars vs → SaidEff F e → SaidEff F (.fall vs e)

/-- Conditions without numbers whose names are valid; the quantified variables may have any types. -/
inductive WellNamed : Expr → Prop
  | pred {p : Pred} : ValidName p.name → (∀ t ∈ p.terms, ValidName t.name) → WellNamed (.pred p)
  | eq {l r} : ValidName l.name → ValidName r.name → WellNamed (.eq l r)
  | bin {o as} : (∀ a ∈ as, WellNamed a) → WellNamed (.bin o as)
  | not {a} : WellNamed a → WellNamed (.not a)
  | quant {q vs c} : (∀ v ∈ vs, ValidName v.name ∧ ∀ t ∈ v.tags, ValidType t) → WellNamed c → WellNamed (.quant q vs c)

/-- The effect has exactly the written possible outcomes, in every state. -/
def SameOutcomes (F : FloatOf) (t : Tree) (e : Expr) : Prop :=
  ∀ (D : Type) (I : Interp D) lit ρ C, LitOk lit F → (outcome I e ρ C ↔ treeOutcome I lit t ρ C)

end Pddl.Spec
