/-
Actions written with fewer conditions, fewer deletions and more additions.
-/
import Verif.Spec.Monotone
import Verif.Spec.Effect

namespace Pddl.Spec
open Pddl

/-- The parts of a written conjunction; anything else is its only part. -/
def conjuncts : Tree → List Tree
  | .node (.atom (.name w) :: args) => if w = s%"and" then args else [.node (.atom (.name w) :: args)]
  | t => [t]

/-- A written effect that adds an atom. -/
def AddsAtom (t : Tree) : Prop :=
  ∃ w args, t = .node (.atom (.name w) :: args) ∧ w ∉ [s%"and", s%"forall", s%"when", s%"oneof", s%"not"] ∧ updateWord w = none

/-- A written effect that deletes an atom. -/
def DeletesAtom (t : Tree) : Prop := ∃ x, t = .node [.atom (.name s%"not"), x]

/-- The second effect makes all changes of the first except for deletions, and besides these only additions. -/
def EasierEffect (eff eff' : Tree) : Prop :=
  (∀ t ∈ conjuncts eff, t ∈ conjuncts eff' ∨ DeletesAtom t ∨ t = .node []) ∧
  ∀ t ∈ conjuncts eff', t ∈ conjuncts eff ∨ AddsAtom t ∨ t = .node []

/-- The actions of the second text have the parameters of the actions of that name in the first text, some of their
conditions, and easier effects. -/
def Easier (ts ts' : List Tree) : Prop := ∀ n ps pre eff ps' pre' eff', actionText n ps pre eff ∈ ts → actionText n ps' pre' eff' ∈ ts' →
  ps' = ps ∧ (∀ t ∈ conjuncts pre', t ∈ conjuncts pre) ∧ EasierEffect eff eff'

/-- A part of an effect that adds nothing and updates nothing: `()`, or a deletion. -/
def addsNothing : Tree → Bool
  | .node [] => true
  | .node [.atom (.name w), _] => decide (w = s%"not")
  | _ => false

/-- The effect without its deletions. -/
def dropDeletions (eff : Tree) : Tree := .node (.atom (.name s%"and") :: (conjuncts eff).filter (fun t => !addsNothing t))

/-- The section of a domain text, if it is an action without the deletions. -/
def withoutDeletions : Tree → Tree
  | .node [.atom (.kw a), n, p, ps, q, pre, r, eff] =>
    .node [.atom (.kw a), n, p, ps, q, pre, r, if a = s%"action" then dropDeletions eff else eff]
  | t => t

end Pddl.Spec
