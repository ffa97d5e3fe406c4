/-
States whose facts have the declared types.
-/
import Verif.Spec.ArgTypes
import Verif.Spec.Execute

namespace Pddl.Spec
open Pddl

/-- In the state `I` the objects and constants have their types, and what has a type has the types above. -/
structure TypedBy {D} (d : Domain) (pr : Problem) (I : Interp D) : Prop where
  objects : ∀ o ∈ pr.objects ++ d.constants, ∀ t ∈ o.tags, I.ty t (I.const o.name)
  above : ∀ a b, Parent d.types a b → ∀ x, I.ty a x → I.ty b x

/-- The term of an action may stand where the declaration has `par`: whatever object it stands for, the object has a
type of `par`. -/
def TermFits (types : TypeDict) (t par : Term) : Prop :=
  par.tags = [] ∨ t.tags ≠ [] ∧ ∀ a ∈ t.tags, ∃ b ∈ par.tags, Below types a b

/-- The effect of the action uses no variables but the parameters (and bound ones), and each predicate in it is declared
for terms like these. -/
def EffectFits (d : Domain) (a : Action) : Prop :=
  ∀ e, a.eff = some e → ClosedBy (a.params.map Term.name) e ∧
    ∀ p ∈ predsIn e, ∃ q ∈ d.predicates, q.name = p.name ∧ List.Forall₂ (TermFits d.types) p.terms q.terms

/-- Every atom that holds is an atom of a declared predicate, of objects with the declared types. -/
def StateFits {D} (d : Domain) (I : Interp D) : Prop :=
  ∀ n ds, I.pred n ds → ∃ q ∈ d.predicates, q.name = n ∧
    List.Forall₂ (fun x (par : Term) => par.tags = [] ∨ ∃ b ∈ par.tags, I.ty b x) ds q.terms

/-- All states from the first to the last. -/
inductive Visits {D} (ρ : Str → D) : List Action → Interp D → Interp D → Prop
  | here {gs I} : Visits ρ gs I I
  | step {g gs I J K} : Acts ρ g I J → Visits ρ gs J K → Visits ρ (g :: gs) I K

end Pddl.Spec
