/-
When formulas and actions can be instantiated.
-/
import Verif.Spec.Subst

namespace Pddl.Spec
open Pddl

mutual
/-- The terms of each predicate atom and of each equality of terms. -/
def atomTerms : Expr → List (List Term)
  | .pred p => [p.terms]
  | .eq l r => [[l, r]]
  | .nfun _ => []
  | .num _ => []
  | .bfun _ as => atomTermsAll as
  | .bin _ as => atomTermsAll as
  | .not a => atomTerms a
  | .quant _ _ c => atomTerms c
  | .when c e => atomTerms c ++ atomTerms e
  | .fall _ e => atomTerms e
def atomTermsAll : List Expr → List (List Term)
  | [] => []
  | a :: as => atomTerms a ++ atomTermsAll as
end

/-- Terms of one name have the same types. -/
def OneType (ts : List Term) : Prop := ∀ t ∈ ts, ∀ u ∈ ts, t.name = u.name → ∀ x, x ∈ t.tags ↔ x ∈ u.tags

/-- The term after the parameters are replaced by the arguments: the last of the parameters that are equal to it counts. -/
def replaced (params args : List Term) (t : Term) : Term :=
  match t with
  | .const n tag => .const n tag
  | .var v => (((params.zip args).reverse.find? (fun p => Term.pyEq (.var v) p.1)).map Prod.snd).getD (.var v)

/-- The formula has no conditional or universal effect, and in no atom do different types meet for one name. -/
def CanReplace (f : Term → Term) (e : Expr) : Prop := NoEffect e ∧ ∀ ts ∈ atomTerms e, OneType (ts.map f)

/-- Precondition and effect can be instantiated with these arguments. -/
def Instantiable (a : Action) (args : List Term) : Prop :=
  args.length = a.params.length ∧ (∀ e, a.pre = some e → CanReplace (replaced a.params args) e) ∧
    ∀ e, a.eff = some e → CanReplace (replaced a.params args) e

end Pddl.Spec
