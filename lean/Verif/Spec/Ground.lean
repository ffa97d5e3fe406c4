/-
Ground actions: parameters bound to arguments.
-/
import Verif.Spec.Effect

namespace Pddl.Spec
open Pddl

/-- `ρ'` is `ρ` with the parameters denoting the objects of the arguments. -/
structure Binds {D} (I : Interp D) (params args : List Term) (ρ ρ' : Str → D) : Prop where
  param : ∀ p ∈ params.zip args, ρ' p.1.name = denote I ρ p.2
  other : ∀ n, (∀ t ∈ params, t.name ≠ n) → ρ' n = ρ n

/-- No quantifier in the text binds one of the names. -/
def NotRebound (ns : List Str) (t : Tree) : Prop :=
  ∀ w vs c l, w = s%"forall" ∨ w = s%"exists" → Inside (.node [.atom (.name w), .node vs, c]) t → VarsText vs l →
    ∀ p ∈ l.vars, p.1 ∉ ns

/-- What a written precondition says: `()` says nothing. -/
def preHolds {D} (I : Interp D) (lit : Str → Option Rat) (pre : Tree) (ρ : Str → D) : Prop :=
  pre = .node [] ∨ treeHolds I lit pre ρ

/-- The ground action `g` of an action with these parameters says what is written, where the conditions `P` on the
written precondition and `E` on the written effect hold: `g` applies in the states where the written precondition
holds with the parameters denoting the arguments, and makes the changes that are written. -/
def SaysWritten (F : FloatOf) (params args : List Term) (g : Action) (pre eff : Tree) (P E : Prop) : Prop :=
  ∃ gp ge, g.pre = some gp ∧ g.eff = some ge ∧
    ∀ (D : Type) (I : Interp D) lit ρ ρ', LitOk lit F → Binds I params args ρ ρ' →
      (P → (holds I gp ρ ↔ preHolds I lit pre ρ')) ∧
      (E → ∀ c, makes I c ge ρ ↔ treeMakes I lit c eff ρ')

end Pddl.Spec
