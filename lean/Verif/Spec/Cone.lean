/-
What the conditions of a text depend on.
-/
import Verif.Spec.Frame
import Verif.Spec.Execute

namespace Pddl.Spec
open Pddl

/-- All words of the text are in `R`. -/
def NamesIn (R : Str → Prop) (t : Tree) : Prop := ∀ n, Inside (.atom (.name n)) t → R n

mutual
/-- In the written effect, whatever decides about a change is in `R`: the conditions of conditional effects, and the
values with which the fluents in `R` are updated. -/
def Feeds (R : Str → Prop) : Tree → Prop
  | .node (.atom (.name w) :: args) =>
    if w = s%"and" ∨ w = s%"oneof" then FeedsAll R args
    else if w = s%"forall" then
      match args with
      | [_, e] => Feeds R e
      | _ => True
    else if w = s%"when" then
      match args with
      | [c, e] => NamesIn R c ∧ Feeds R e
      | _ => True
    else match updateWord w with
      | some _ => ∀ f, updatedName args = some f → R f → ∀ v ∈ args.tail, NamesIn R v
      | none => True
  | _ => True
def FeedsAll (R : Str → Prop) : List Tree → Prop
  | [] => True
  | t :: ts => Feeds R t ∧ FeedsAll R ts
end

/-- Whatever the actions of the name `a` in the text `ts` ask, and whatever decides about their changes to something in
`R`, is in `R`. -/
def Covers (R : Str → Prop) (ts : List Tree) (a : Str) : Prop :=
  ∀ ps pre eff, actionText a ps pre eff ∈ ts → NamesIn R pre ∧ Feeds R eff

/-- The states have the same objects, and the same facts and values for the names in `R`. -/
structure SameOn {D} (R : Str → Prop) (I I' : Interp D) : Prop where
  const : I'.const = I.const
  ty : I'.ty = I.ty
  pred : ∀ n, R n → I'.pred n = I.pred n
  fn : ∀ n, R n → I'.fn n = I.fn n

/-- The lists have the same facts and values for the names in `R`. -/
structure SameFacts (R : Str → Prop) (l l' : List Expr) : Prop where
  pred : ∀ n ts, R n → (.pred ⟨n, ts⟩ ∈ l ↔ .pred ⟨n, ts⟩ ∈ l')
  value : ∀ n ts v, R n → (.bfun .eq [.nfun ⟨n, ts⟩, .num v] ∈ l ↔ .bfun .eq [.nfun ⟨n, ts⟩, .num v] ∈ l')

/-- The actions of the name `a` in the text `ts` change nothing in `R`. -/
def Useless (R : Str → Prop) (ts : List Tree) (a : Str) : Prop :=
  ∀ ps pre eff, actionText a ps pre eff ∈ ts → ∀ k n, R n → writesTo k n eff = false

end Pddl.Spec
