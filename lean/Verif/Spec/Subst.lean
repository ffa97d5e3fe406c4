/- Substitution: what instantiating a formula should do. -/
import Verif.Spec.Sem
import Verif.Model.Instantiate

namespace Pddl.Spec
open Pddl

/-- All values of the mapping are constants. -/
def ToConstants (m : Mapping) : Prop := ∀ p ∈ m, ∃ n t, p.2 = .const n t

/-- The mapping has a variable of that name among its keys. -/
def MapsName (m : Mapping) (n : Str) : Prop := ∃ v c, (Term.var v, c) ∈ m ∧ v.name = n

/-- `ρ'` is `ρ` where each variable of the mapping denotes the object it is mapped to. -/
structure Updated {D} (I : Interp D) (m : Mapping) (ρ ρ' : Str → D) : Prop where
  mapped : ∀ v t, m.get (.var v) = some t → ρ' v.name = denote I ρ t
  other : ∀ n, ¬ MapsName m n → ρ' n = ρ n

/-- The mapping treats an occurrence of a term correctly. `B` are the names bound
by enclosing quantifiers. A bound variable is not in the mapping; a free variable
with the name of a mapped variable is that variable (same type tags). -/
def SafeTerm (m : Mapping) (B : List Str) : Term → Prop
  | .const _ _ => True
  | .var v =>
    (v.name ∈ B → m.get (.var v) = none) ∧
    (v.name ∉ B → MapsName m v.name → m.get (.var v) ≠ none)

mutual
/-- The mapping treats every term of the formula correctly. -/
def Safe (m : Mapping) : Expr → List Str → Prop
  | .pred p, B => ∀ t ∈ p.terms, SafeTerm m B t
  | .eq l r, B => SafeTerm m B l ∧ SafeTerm m B r
  | .nfun f, B => ∀ t ∈ f.terms, SafeTerm m B t
  | .num _, _ => True
  | .bfun _ as, B => SafeAll m as B
  | .bin _ as, B => SafeAll m as B
  | .not a, B => Safe m a B
  | .quant _ vs c, B => Safe m c (B ++ vs.map Var.name)
  | .when c e, B => Safe m c B ∧ Safe m e B
  | .fall vs e, B => Safe m e (B ++ vs.map Var.name)
def SafeAll (m : Mapping) : List Expr → List Str → Prop
  | [], _ => True
  | a :: as, B => Safe m a B ∧ SafeAll m as B
end

mutual
/-- The operands of `=`, `+`, `-`, `*`, `/` remain different after instantiation
(otherwise the constructor drops operands, see C09). -/
def NoCollision (m : Mapping) : Expr → Prop
  | .bfun o as => NoCollisions m as ∧
      ((Cls.fop o).isMeta = true → ∀ as', Expr.insts m as = .ok as' → Distinct as')
  | .bin _ as => NoCollisions m as
  | .not a => NoCollision m a
  | .quant _ _ c => NoCollision m c
  | .when c e => NoCollision m c ∧ NoCollision m e
  | .fall _ e => NoCollision m e
  | _ => True
def NoCollisions (m : Mapping) : List Expr → Prop
  | [] => True
  | a :: as => NoCollision m a ∧ NoCollisions m as
end

/-- Replacing one term. -/
def substTerm (m : Mapping) (t : Term) : Term :=
  match t with
  | .const n tag => .const n tag
  | .var v => (m.get (.var v)).getD (.var v)

mutual
/-- The atoms of a formula: predicate and function symbols with their terms, and
term equalities (under the symbol `=`). -/
def atoms : Expr → List (Str × List Term)
  | .pred p => [(p.name, p.terms)]
  | .eq l r => [(s%"=", [l, r])]
  | .nfun f => [(f.name, f.terms)]
  | .num _ => []
  | .bfun _ as => atomsAll as
  | .bin _ as => atomsAll as
  | .not a => atoms a
  | .quant _ _ c => atoms c
  | .when c e => atoms c ++ atoms e
  | .fall _ e => atoms e
def atomsAll : List Expr → List (Str × List Term)
  | [] => []
  | a :: as => atoms a ++ atomsAll as
end

/-- A function expression (`FunctionExpression` object). -/
def Numeric : Expr → Prop
  | .nfun _ => True
  | .num _ => True
  | .bfun _ _ => True
  | _ => False

mutual
/-- The operands of arithmetic operators and comparisons are function
expressions, as the type annotations of the code demand. -/
def WellSorted : Expr → Prop
  | .bfun _ as => (∀ a ∈ as, Numeric a) ∧ WellSorteds as
  | .bin _ as => WellSorteds as
  | .not a => WellSorted a
  | .quant _ _ c => WellSorted c
  | .when c e => WellSorted c ∧ WellSorted e
  | .fall _ e => WellSorted e
  | _ => True
def WellSorteds : List Expr → Prop
  | [] => True
  | a :: as => WellSorted a ∧ WellSorteds as
end

mutual
/-- No conditional or universal effect in it. -/
def NoEffect : Expr → Prop
  | .bfun _ as => NoEffects as
  | .bin _ as => NoEffects as
  | .not a => NoEffect a
  | .quant _ _ c => NoEffect c
  | .when _ _ => False
  | .fall _ _ => False
  | _ => True
def NoEffects : List Expr → Prop
  | [] => True
  | a :: as => NoEffect a ∧ NoEffects as
end

end Pddl.Spec
