/-
Renaming the variables of a text, and of the objects made from it.
-/
import Verif.Spec.Names
import Verif.Model.ParseDomain
import Verif.Spec.Scope

namespace Pddl.Spec

/-- `ρ` gives different names to different variables, turns names that are not reserved into such names, and moves none
of the names in `K`. -/
structure VarRenaming (ρ : Str → Str) (K : Str → Prop) : Prop where
  inj : ∀ a b, ρ a = ρ b → a = b
  valid : ∀ w, ValidName w → ValidName (ρ w)
  fixed : ∀ c, K c → ρ c = c

end Pddl.Spec

namespace Pddl
variable (ρ : Str → Str)

/-! ### Texts -/

mutual
/-- The text with `?(ρ x)` in place of `?x`. -/
def Tree.renVar : Tree → Tree
  | .atom k => .atom k
  | .node l => .node (Tree.renVars l)
def Tree.renVars : List Tree → List Tree
  | [] => []
  | .atom .qmark :: .atom (.name n) :: ts => .atom .qmark :: .atom (.name (ρ n)) :: Tree.renVars ts
  | t :: ts => t.renVar :: Tree.renVars ts
end

/-- The name in `(:action n …)`. -/
def Spec.actionNameOf : Tree → Str
  | .node (_ :: .atom (.name n) :: _) => n
  | _ => []

/-! ### Objects -/

def Var.renVar (v : Var) : Var := ⟨ρ v.name, v.tags⟩

def Term.renVar : Term → Term
  | .var v => .var (v.renVar ρ)
  | .const n t => .const n t

def Pred.renVar (p : Pred) : Pred := ⟨p.name, p.terms.map (Term.renVar ρ)⟩
def NFun.renVar (f : NFun) : NFun := ⟨f.name, f.terms.map (Term.renVar ρ)⟩

mutual
def Expr.renVar : Expr → Expr
  | .pred p => .pred (p.renVar ρ)
  | .eq l r => .eq (l.renVar ρ) (r.renVar ρ)
  | .nfun f => .nfun (f.renVar ρ)
  | .num n => .num n
  | .bfun o as => .bfun o (Expr.renVars as)
  | .bin o as => .bin o (Expr.renVars as)
  | .not a => .not a.renVar
  | .quant q vs c => .quant q (vs.map (Var.renVar ρ)) c.renVar
  | .when c e => .when c.renVar e.renVar
  | .fall vs e => .fall (vs.map (Var.renVar ρ)) e.renVar
def Expr.renVars : List Expr → List Expr
  | [] => []
  | a :: as => a.renVar :: Expr.renVars as
end

/-- The same action with other names for its variables. -/
def Action.renVar (a : Action) : Action :=
  ⟨a.name, a.params.map (Term.renVar ρ), a.pre.map (Expr.renVar ρ), a.eff.map (Expr.renVar ρ)⟩

/-- `a'` is `a` with its variables renamed, moving no name in `K`. -/
def Spec.RenamedVars (K : Str → Prop) (a a' : Action) : Prop := ∃ ρ, Spec.VarRenaming ρ K ∧ a' = a.renVar ρ

/-- `t'` is the text `t` of an action with its variables renamed, moving no name in `K`. -/
def Spec.RenamedText (K : Str → Prop) (t t' : Tree) : Prop := ∃ ρ, Spec.VarRenaming ρ K ∧ t' = t.renVar ρ

/-- Two texts of a domain with the same declarations `pre` and the same derived predicates `S0`, which come before the
actions; the actions have different names, and those of the second text are those of the first with other variables. -/
structure Spec.VarsRenamed (K : Str → Prop) (text text' : Str) (pre S0 S S' : List Tree) : Prop where
  read : Spec.DomainText text pre (S0 ++ S)
  read' : readText text' = .ok [.node (pre ++ (S0 ++ S'))]
  derived : ∀ t ∈ S0, ∃ b, t = .node (.atom (.kw s%"derived") :: b)
  actions : ∀ t ∈ S, ∃ b, t = .node (.atom (.kw s%"action") :: b)
  names : (S.map Spec.actionNameOf).Nodup
  renamed : List.Forall₂ (Spec.RenamedText K) S S'

end Pddl
