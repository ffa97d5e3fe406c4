/-
The order in which supertypes are printed, and the rounds of the loop that finds it.
-/
import Verif.Spec.Types
import Verif.Spec.Built

namespace Pddl.Spec
open Pddl

/-- `b` is given as the supertype of `a`. -/
def Super (d : TypeDict) (a b : Str) : Prop := d.lookup a = some (some b)

/-- `ks` lists the supertypes other than `object`, in alphabetical order. -/
structure Supers (d : TypeDict) (ks : List Str) : Prop where
  order : ks.Pairwise fun a b => strLt a b = true
  mem : ∀ k, k ∈ ks ↔ k ≠ s%"object" ∧ ∃ a, Super d a k

/-- Supertypes other than `object`, one given as the supertype of the other. -/
def Under (d : TypeDict) (a b : Str) : Prop := Super d a b ∧ a ≠ s%"object" ∧ b ≠ s%"object"

/-- With the supertypes `ks` left, looking at the one at place `i`, the search takes `n` further rounds; in the end all
are listed (`true`), or none of those that are left can be next (`false`). -/
inductive Rounds (d : TypeDict) : List Str → Nat → Nat → Bool → Prop
  | done {i} : Rounds d [] i 0 true
  | stuck {ks i} : ks ≠ [] → ks.length ≤ i → Rounds d ks i 1 false
  | next {ks i k n r} : ks[i]? = some k → (∃ q ∈ ks, Super d k q) → Rounds d ks (i + 1) n r → Rounds d ks i (n + 1) r
  | line {ks i k n r} : ks[i]? = some k → (∀ q ∈ ks, ¬ Super d k q) → Rounds d (ks.erase k) 0 n r → Rounds d ks i (n + 1) r

end Pddl.Spec
