/-
Python values used by the model: strings, exceptions, ordered comparison,
sets and dictionaries as lists.
-/
import Mathlib.Data.List.Basic

namespace Pddl

/-- A Python `str`: a sequence of code points (names and texts throughout, e.g. pddl/custom_types.py:23-56). -/
abbrev Str := List Char

/-- String literals as character lists: `s%"foo"`. -/
macro:max "s%" s:str : term => do
  let cs := s.getString.toList.map (fun c => Lean.Syntax.mkCharLit c)
  `(([ $(cs.toArray),* ] : Str))

/-- Exceptions, as values.  `missingReq` is `PDDLMissingRequirementError`
(pddl/exceptions.py:33-44), `validation` is `PDDLValidationError`, `parsing` is
`PDDLParsingError`, `lark` is a syntax error reported by the lark library
(unexpected token, character or end), `undefined` is the `ParseError` of that library which the
transformers raise for undeclared constants and predicates (domain.py:173-182, 414-420).
Messages are not modelled. `diverges` is not an exception: it stands for a call
that does not return (used for `_check_subtypes` only; no handler catches it). -/
inductive Exc
  | validation | parsing | missingReq | value | assertion | attribute | type_
  | notImplemented | runtime | lark | undefined | key | index | diverges
  deriving DecidableEq, Repr

/-- The order `<=` on Python strings: lexicographic by code point (used by `sorted`, pddl/formatter.py:53). -/
def strLe : Str → Str → Bool
  | [], _ => true
  | _ :: _, [] => false
  | a :: as, b :: bs =>
    if a.toNat < b.toNat then true
    else if b.toNat < a.toNat then false
    else strLe as bs

/-- The order `<` on Python strings (pddl/logic/terms.py:67-74). -/
def strLt (a b : Str) : Bool := !(strLe b a)

/-- Insert an element before the first one that is not smaller (used by `sorted`, pddl/formatter.py:53). -/
def insertBy {α} (le : α → α → Bool) (a : α) : List α → List α
  | [] => [a]
  | b :: l => if le a b then a :: b :: l else b :: insertBy le a l

/-- A stable sort. Python's own algorithm differs; it gives the same result when `le` is a total
order, which is how it is used (used by `sorted`, pddl/formatter.py:53). -/
def sortBy {α} (le : α → α → Bool) : List α → List α
  | [] => []
  | a :: l => insertBy le a (sortBy le l)

/-- Python `sorted` on strings (stable) (called at pddl/formatter.py:53, 153, 177). -/
def sortedStr (l : List Str) : List Str := sortBy strLe l

/-- Python `sep.join(l)` (called at pddl/formatter.py:53, 153, 177). -/
def joinStr (sep : Str) : List Str → Str
  | [] => []
  | [a] => a
  | a :: b :: l => a ++ sep ++ joinStr sep (b :: l)

/-- `x in c` for a set or dict whose elements compare with `eq`
(called at pddl/helpers/base.py:83, pddl/core.py:439). -/
def memBy {α} (eq : α → α → Bool) (x : α) (l : List α) : Bool := l.any (fun y => eq x y)

/-- Building a `set`/`frozenset`/`dict.fromkeys` from a sequence: the first of
equal elements is kept.  `acc` holds the elements added so far (called at pddl/helpers/base.py:63-72). -/
def dedupAux {α} (eq : α → α → Bool) : List α → List α → List α
  | _, [] => []
  | seen, x :: l => if memBy eq x seen then dedupAux eq seen l
                    else x :: dedupAux eq (seen ++ [x]) l

/-- `list(dict.fromkeys(l))`, and `set(l)` in first-occurrence order (called at pddl/helpers/base.py:63-72). -/
def dedupBy {α} (eq : α → α → Bool) (l : List α) : List α := dedupAux eq [] l

/-- Equality of two sets given as lists (called at pddl/core.py:152-158). -/
def setEqBy {α} (eq : α → α → Bool) (a b : List α) : Bool :=
  a.all (fun x => memBy eq x b) && b.all (fun x => memBy eq x a)

/-- Equality of two sets of strings (called at pddl/logic/terms.py:135-141). -/
def setEq (a b : List Str) : Bool := setEqBy (fun x y => decide (x = y)) a b

/-- `d.get(k)` on a dictionary given as a list of items (called at pddl/core.py:416-418). -/
def dictGet {β} (d : List (Str × β)) (k : Str) : Option β := d.lookup k

/-- `k in d` (called at pddl/core.py:416). -/
def dictHas {β} (d : List (Str × β)) (k : Str) : Bool := d.any (fun p => decide (p.1 = k))

/-- `d[k] = v`: overwrite in place or append (called at pddl/parser/_update_type_tags.py:69). -/
def dictSet {β} (d : List (Str × β)) (k : Str) (v : β) : List (Str × β) :=
  if dictHas d k then d.map (fun p => if p.1 = k then (k, v) else p) else d ++ [(k, v)]

/-- A dictionary comprehension `{k: v for k, v in items}` (called at pddl/core.py:413, 425). -/
def dictOf {β} (items : List (Str × β)) : List (Str × β) :=
  items.foldl (fun d p => dictSet d p.1 p.2) []

/-- Python `check(cond, msg, exc)` (pddl/helpers/base.py:50-55). -/
def check (c : Bool) (e : Exc) : Except Exc Unit := if c then .ok () else .error e

end Pddl
