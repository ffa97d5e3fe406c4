/- Type tags by lexical scope; subtypes. -/
import Verif.Model.UpdateTags
import Verif.Spec.Types
import Verif.Spec.Subst

namespace Pddl.Spec
open Pddl

/-- The types a variable name gets: those of the innermost enclosing quantifier that
binds the name, else those of the mapping, if any. `S` are the variables of the
enclosing quantifiers, innermost first. When one quantifier binds the same name twice
(with different types), the variable that comes last counts. -/
def scopeTypes : List (List Var) → VarTypes → Str → Option (List Str)
  | [], env, n => env.lookup n
  | vs :: S, env, n =>
    match vs.reverse.find? (fun v => decide (v.name = n)) with
    | some v => some v.tags
    | none => scopeTypes S env n

/-- A term with the types of its scope. -/
def retagTerm (S : List (List Var)) (env : VarTypes) : Term → Term
  | .var v => .var ⟨v.name, (scopeTypes S env v.name).getD v.tags⟩
  | .const n t => .const n t

mutual
/-- The same formula with each variable occurrence carrying the types of its scope. -/
def retagged (S : List (List Var)) (env : VarTypes) : Expr → Expr
  | .pred p => .pred ⟨p.name, p.terms.map (retagTerm S env)⟩
  | .eq l r => .eq (retagTerm S env l) (retagTerm S env r)
  | .nfun f => .nfun ⟨f.name, f.terms.map (retagTerm S env)⟩
  | .num n => .num n
  | .bfun o as => .bfun o (retaggeds S env as)
  | .bin o as => .bin o (retaggeds S env as)
  | .not a => .not (retagged S env a)
  | .quant q vs c => .quant q vs (retagged (vs :: S) env c)
  | .when c e => .when (retagged S env c) (retagged S env e)
  | .fall vs e => .fall vs (retagged S env e)
def retaggeds (S : List (List Var)) (env : VarTypes) : List Expr → List Expr
  | [] => []
  | a :: as => retagged S env a :: retaggeds S env as
end

/-- The variable names of a term. -/
def varOf : Term → List Var
  | .var v => [v]
  | .const _ _ => []

/-- The variable occurrences of a formula (not the binders). -/
def occurrences (e : Expr) : List Var := (atoms e).flatMap (fun a => a.2.flatMap varOf)

/-- All occurrences of a variable name carry the same set of types `τ`. -/
def Uniform (τ : Str → List Str) (e : Expr) : Prop :=
  ∀ v ∈ occurrences e, ∀ x, x ∈ v.tags ↔ x ∈ τ v.name

mutual
/-- The variables bound by the quantifiers of a formula. -/
def binders : Expr → List Var
  | .bfun _ as => bindersAll as
  | .bin _ as => bindersAll as
  | .not a => binders a
  | .quant _ vs c => vs ++ binders c
  | .when c e => binders c ++ binders e
  | .fall vs e => vs ++ binders e
  | _ => []
def bindersAll : List Expr → List Var
  | [] => []
  | a :: as => binders a ++ bindersAll as
end

/-- A tag collection of a term: type names, none twice. -/
def TagsOk (l : List Str) : Prop := l.Nodup ∧ ∀ t ∈ l, ValidType t

/-- A mapping whose tag collections are such. -/
def EnvOk (env : VarTypes) : Prop := ∀ p ∈ env, TagsOk p.2

/-- The terms of an atom agree: no name occurs with two different sets of types. -/
def Consistent (ts : List Term) : Prop :=
  ∀ a ∈ ts, ∀ b ∈ ts, a.name = b.name → ∀ x, x ∈ a.tags ↔ x ∈ b.tags

mutual
/-- The terms of every predicate and term equality agree. -/
def AtomsConsistent : Expr → Prop
  | .pred p => Consistent p.terms
  | .eq l r => Consistent [l, r]
  | .bfun _ as => AtomsConsistents as
  | .bin _ as => AtomsConsistents as
  | .not a => AtomsConsistent a
  | .quant _ _ c => AtomsConsistent c
  | .when c e => AtomsConsistent c ∧ AtomsConsistent e
  | .fall _ e => AtomsConsistent e
  | _ => True
def AtomsConsistents : List Expr → Prop
  | [] => True
  | a :: as => AtomsConsistent a ∧ AtomsConsistents as
end

/-- What the head of a derived predicate says about the types of its variables: the
written ones, else those of the declaration. The list pairs head and declared terms. -/
def headTypes : List (Term × Term) → VarTypes
  | [] => []
  | (.var v, d) :: l =>
    if v.tags ≠ [] then (v.name, v.tags) :: headTypes l
    else if d.tags ≠ [] then (v.name, d.tags) :: headTypes l
    else headTypes l
  | (.const _ _, _) :: l => headTypes l

/-- `a` is a (reflexive, transitive) subtype of `b`. -/
def IsSubtype (d : TypeDict) (a b : Str) : Prop :=
  Relation.ReflTransGen (fun x y => d.lookup x = some (some y)) a b

/-- Each left type is a subtype of a right type; no right type means `object`. -/
def SubtypesOk (d : TypeDict) (left right : List Str) : Prop :=
  right = [] ∨ ∀ a ∈ left, ∃ b ∈ right, IsSubtype d a b

end Pddl.Spec
