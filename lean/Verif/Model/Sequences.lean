/-
The helpers of pddl/helpers/base.py for sequences.
-/
import Verif.Model.Py

namespace Pddl

variable {α : Type}

/-- `ensure` (pddl/helpers/base.py:58-60). -/
def ensure (arg : Option α) (default : α) : α :=
  match arg with
  | some a => a
  | none => default

/-- `ensure_sequence` (pddl/helpers/base.py:91-100): `tuple` or `list`. -/
def ensureSequence (arg : Option (List α)) : List α :=
  match arg with
  | some l => l
  | none => []

/-- `seq[index]`: negative indices count from the end (called at pddl/helpers/base.py:113). -/
def pyItem (seq : List α) (index : Int) : Except Exc α :=
  let i := if index < 0 then index + seq.length else index
  if i < 0 then .error .index
  else match seq[i.toNat]? with
    | some a => .ok a
    | none => .error .index

/-- `safe_get` (pddl/helpers/base.py:111-113). -/
def safeGet (seq : List α) (index : Int) (default : Option α) : Except Exc (Option α) :=
  if index < seq.length then
    match pyItem seq index with
    | .ok a => .ok (some a)
    | .error e => .error e
  else .ok default

/-- A bound of `list.index`: negative ones count from the end and are cut off at 0
(used at pddl/helpers/base.py:106). -/
def pyBound (n : Nat) (i : Int) : Nat := if i < 0 then (i + n).toNat else i.toNat

/-- `seq.index(x, start, stop)` of a list or tuple from the position `i` on (called at pddl/helpers/base.py:106). -/
def indexFrom (eq : α → α → Bool) (x : α) (stop : Nat) : Nat → List α → Except Exc Nat
  | _, [] => .error .value
  | i, y :: ys => if i < stop then (if eq y x then .ok i else indexFrom eq x stop (i + 1) ys) else .error .value

/-- The bound `stop`; up to the end without it (used at pddl/helpers/base.py:106). -/
def pyStop (n : Nat) : Option Int → Nat
  | some s => pyBound n s
  | none => n

/-- `seq.index(x, start, stop)` (called at pddl/helpers/base.py:106). -/
def pyIndex (eq : α → α → Bool) (seq : List α) (x : α) (start : Int) (stop : Option Int) : Except Exc Nat :=
  let a := pyBound seq.length start
  indexFrom eq x (pyStop seq.length stop) a (seq.drop a)

/-- `safe_index` (pddl/helpers/base.py:103-108): `ValueError` becomes `None`. -/
def safeIndex (eq : α → α → Bool) (seq : List α) (x : α) (start : Int) (stop : Option Int) : Except Exc (Option Nat) :=
  match pyIndex eq seq x start stop with
  | .ok i => .ok (some i)
  | .error .value => .ok none
  | .error e => .error e

/-- The generator of `find`, from the position `i` on (pddl/helpers/base.py:124). -/
def findFrom (cond : α → Bool) : Nat → List α → Int
  | _, [] => -1
  | i, x :: xs => if cond x then i else findFrom cond (i + 1) xs

/-- `find` (pddl/helpers/base.py:116-124). -/
def find (seq : List α) (cond : α → Bool) : Int := findFrom cond 0 seq

end Pddl
