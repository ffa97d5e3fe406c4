/-
Actions that do not influence each other.
-/
import Verif.Spec.Frame

namespace Pddl.Spec
open Pddl

/-- Nothing the written effect changes has a name that is a word of the other condition or effect. -/
def Leaves (eff pre' eff' : Tree) : Prop :=
  ∀ k n, writesTo k n eff = true → ¬ Inside (.atom (.name n)) pre' ∧ ¬ Inside (.atom (.name n)) eff'

/-- In the text of a domain, the actions `a` and `b` change nothing that the other one uses or changes. -/
def Independent (ts : List Tree) (a b : Str) : Prop :=
  ∀ ps pre eff ps' pre' eff', actionText a ps pre eff ∈ ts → actionText b ps' pre' eff' ∈ ts →
    Leaves eff pre' eff' ∧ Leaves eff' pre eff

/-- The same steps in another order: neighbours of independent actions are swapped, any number of times. -/
inductive Reordered (ts : List Tree) : List (Str × List Term) → List (Str × List Term) → Prop
  | refl {l} : Reordered ts l l
  | swap {xs ys s s'} : Independent ts s.1 s'.1 → Reordered ts (xs ++ s :: s' :: ys) (xs ++ s' :: s :: ys)
  | trans {l m r} : Reordered ts l m → Reordered ts m r → Reordered ts l r

end Pddl.Spec
