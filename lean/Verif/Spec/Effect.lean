/-
What a (deterministic) effect does, and what its text says.
-/
import Verif.Spec.TextSem

namespace Pddl.Spec
open Pddl

/-- One change of a state: an atom becomes true or false, or a numeric fluent is updated with a value. -/
inductive Change (D : Type)
  | add (p : Str) (ds : List D)
  | del (p : Str) (ds : List D)
  | num (op : FOp) (f : Str) (ds : List D) (v : Rat)

/-- The operators that update a numeric fluent. -/
def updates : FOp → Bool
  | .assign => true
  | .scaleUp => true
  | .scaleDown => true
  | .increase => true
  | .decrease => true
  | _ => false

/-- The change made by a negated formula. -/
def deletes {D} (I : Interp D) (c : Change D) (ρ : Str → D) : Expr → Prop
  | .pred p => c = .del p.name (p.terms.map (denote I ρ))
  | _ => False

/-- The change made by a numeric update. -/
def updated {D} (I : Interp D) (c : Change D) (o : FOp) (ρ : Str → D) : List Expr → Prop
  | [.nfun f, e] => updates o = true ∧ ∃ v, value I ρ e = some v ∧ c = .num o f.name (f.terms.map (denote I ρ)) v
  | _ => False

mutual
/-- The effect makes the change `c` in the state `I`. (`oneof` makes no definite change, and what is not an
effect makes none.) -/
def makes {D} (I : Interp D) (c : Change D) : Expr → (Str → D) → Prop
  | .pred p, ρ => c = .add p.name (p.terms.map (denote I ρ))
  | .not a, ρ => deletes I c ρ a
  | .bfun o as, ρ => updated I c o ρ as
  | .bin .and as, ρ => makesSome I c as ρ
  | .when cond e, ρ => holds I cond ρ ∧ makes I c e ρ
  | .fall vs e, ρ => ∃ ρ', Rebind I vs ρ ρ' ∧ makes I c e ρ'
  | _, _ => False
def makesSome {D} (I : Interp D) (c : Change D) : List Expr → (Str → D) → Prop
  | [], _ => False
  | a :: as, ρ => makes I c a ρ ∨ makesSome I c as ρ
end

/-- The words that update a numeric fluent. -/
def updateWord (w : Str) : Option FOp :=
  if w = s%"assign" then some .assign
  else if w = s%"scale-up" then some .scaleUp
  else if w = s%"scale-down" then some .scaleDown
  else if w = s%"increase" then some .increase
  else if w = s%"decrease" then some .decrease
  else none

/-- A written fluent: the function and its arguments. -/
def treeFluent {D} (I : Interp D) (ρ : Str → D) : Tree → Option (Str × List D)
  | .atom (.name n) => some (n, [])
  | .node (.atom (.name n) :: args) => (treeTerms I ρ args).map (fun ds => (n, ds))
  | _ => none

/-- The written update `(w h x)`. -/
def treeUpdate {D} (I : Interp D) (lit : Str → Option Rat) (c : Change D) (op : FOp) (ρ : Str → D) : List Tree → Prop
  | [h, x] => ∃ f ds v, treeFluent I ρ h = some (f, ds) ∧ treeValue I lit ρ x = some v ∧ c = .num op f ds v
  | _ => False

/-- The written negation `(not a)`. -/
def treeDelete {D} (I : Interp D) (c : Change D) (ρ : Str → D) : List Tree → Prop
  | [.node (.atom (.name p) :: args)] => ∃ ds, treeTerms I ρ args = some ds ∧ c = .del p ds
  | _ => False

mutual
/-- The written effect makes the change `c`. `()` makes none. -/
def treeMakes {D} (I : Interp D) (lit : Str → Option Rat) (c : Change D) : Tree → (Str → D) → Prop
  | .node (.atom (.name w) :: args), ρ =>
    if w = s%"and" then treeMakesSome I lit c args ρ
    else if w = s%"forall" then
      match args with
      | [.node vs, e] => ∃ l, VarsText vs l ∧ ∃ ρ', Rebind I l.varList ρ ρ' ∧ treeMakes I lit c e ρ'
      | _ => False
    else if w = s%"when" then
      match args with
      | [cond, e] => treeHolds I lit cond ρ ∧ treeMakes I lit c e ρ
      | _ => False
    else if w = s%"not" then treeDelete I c ρ args
    else match updateWord w with
      | some op => treeUpdate I lit c op ρ args
      | none => ∃ ds, treeTerms I ρ args = some ds ∧ c = .add w ds
  | _, _ => False
def treeMakesSome {D} (I : Interp D) (lit : Str → Option Rat) (c : Change D) : List Tree → (Str → D) → Prop
  | [], _ => False
  | t :: ts, ρ => treeMakes I lit c t ρ ∨ treeMakesSome I lit c ts ρ
end

end Pddl.Spec
