/-
Words separated by white space.
-/
import Verif.Model.Lex
import Verif.Spec.Names

namespace Pddl.Spec

/-- The text consists of these words, with white space between any two and possibly at the ends. -/
inductive WordsOf : Str → List Str → Prop
  | none {sp : Str} : (∀ c ∈ sp, isSpaceC c = true) → WordsOf sp []
  | word {sp w rest : Str} {ws : List Str} : (∀ c ∈ sp, isSpaceC c = true) → w ≠ [] → (∀ c ∈ w, isSpaceC c = false) →
      (∀ c r, rest = c :: r → isSpaceC c = true) → WordsOf rest ws → WordsOf (sp ++ w ++ rest) (w :: ws)

/-- The number that a decimal text denotes. -/
def decimal : Str → Option Nat
  | [] => none
  | s => s.foldl (fun acc c => do
      let n ← acc
      if 48 ≤ c.toNat ∧ c.toNat ≤ 57 then some (10 * n + (c.toNat - 48)) else none) (some 0)

/-- The integer that a decimal text with an optional minus sign denotes. -/
def integer : Str → Option Int
  | '-' :: s => (decimal s).map (fun n : Nat => - (n : Int))
  | s => (decimal s).map (fun n : Nat => (n : Int))

end Pddl.Spec
