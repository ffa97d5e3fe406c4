/-
pddl/parser/typed_list_parser.py
-/
import Verif.Model.Formula

namespace Pddl

/-- An element of the token list passed to `parse_typed_list`: a string (a name, the
separator `-`, or a single type), a list of types (the result of `type_def`), or a
`NumericFunction` (pddl/parser/typed_list_parser.py:75-87). -/
inductive TTok
  | str (s : Str)
  | list (l : List Str)
  | fn (f : NFun)

/-- An item of the index: a name or a function (pddl/parser/typed_list_parser.py:24, 170-172). -/
inductive Item
  | name (s : Str)
  | fn (f : NFun)

/-- `==` of two items (pddl/parser/typed_list_parser.py:182, 208). -/
def Item.pyEq : Item → Item → Bool
  | .name a, .name b => decide (a = b)
  | .fn f, .fn g => f.pyEq g
  | _, _ => false

/-- The state of a `TypedListParser` (typed_list_parser.py:37-43). `_types_to_items`
is never read and left out. -/
structure TIndex where
  itemToTypes : List (Item × List Str)
  sequence : List (Item × List Str)

/-- `self._item_to_types.get(item)` (pddl/parser/typed_list_parser.py:182, 199, 208). -/
def TIndex.get (x : TIndex) (i : Item) : Option (List Str) :=
  match x.itemToTypes.find? (fun p => i.pyEq p.1) with
  | some p => some p.2
  | none => none

/-- `_add_item` (typed_list_parser.py:216-221). `setdefault(item, set()).update(tags)`:
the stored set is extended in place, or the item is appended. -/
def TIndex.add (x : TIndex) (i : Item) (tags : List Str) : TIndex :=
  { itemToTypes :=
      if x.itemToTypes.any (fun p => i.pyEq p.1) then
        x.itemToTypes.map (fun p => if i.pyEq p.1
          then (p.1, p.2 ++ tags.filter (fun t => decide (t ∉ p.2))) else p)
      else x.itemToTypes ++ [(i, tags)]
    sequence := x.sequence ++ [(i, tags)] }

/-- `add_item` (typed_list_parser.py:45-58, 176-212). -/
def TIndex.addItem (allowDup : Bool) (x : TIndex) (i : Item) (tags : List Str) :
    Except Exc TIndex := do
  if !allowDup then
    -- `_check_item_name_already_present`
    check (x.get i).isNone .value
    -- `_check_tags_already_present`
    check (tags.all (fun t => decide (t ∉ (x.get i).getD []))) .value
  -- `_check_item_types`
  match x.get i with
  | some old => check (setEq old tags) .value
  | none => pure ()
  pure (x.add i tags)

/-- The item of a token: the assertion and `parse_name` of lines 163-170. -/
def TTok.item : TTok → Except Exc Item
  | .str s => do
    let n ← parseName s
    pure (.name n)
  | .fn f => pure (.fn f)
  | .list _ => .error .assertion

/-- The loop of `_add_typed_lists` (typed_list_parser.py:149-174): `type_tags` is a set
of unparsed type names. -/
def addTypedLists (allowDup : Bool) (tags : List Str) :
    TIndex → List TTok → Except Exc TIndex
  | x, [] => pure x
  | x, t :: ts => do
    let i ← t.item
    let tags' ← tags.mapM parseType
    let x' ← x.addItem allowDup i (dedupBy (fun a b => decide (a = b)) tags')
    addTypedLists allowDup tags x' ts

/-- `token == "-"` (pddl/parser/typed_list_parser.py:108, 138-140). -/
def TTok.isSep : TTok → Bool
  | .str s => decide (s = s%"-")
  | _ => false

/-- `safe_index(tokens, "-", start, len(tokens))` (pddl/helpers/base.py:103-108). -/
def sepIndex (tokens : List TTok) (start : Nat) : Option Nat :=
  ((tokens.drop start).findIdx? TTok.isSep).map (fun i => i + start)

/-- `itertools.islice(tokens, start, end)` (pddl/parser/typed_list_parser.py:164). -/
def slice (tokens : List TTok) (start stop : Nat) : List TTok := (tokens.take stop).drop start

/-- The parent types written after a separator (typed_list_parser.py:125-129): a list, or
a single name. (`set(parent_names)` keeps one of equal names.) A function there is
not allowed by the grammar; `parse_type` of it is an error. -/
def TTok.parents : TTok → Except Exc (List Str)
  | .list l => pure (dedupBy (fun a b => decide (a = b)) l)
  | .str s => pure [s]
  | .fn _ => .error .type_

/-- The `while` loop and what follows it (typed_list_parser.py:115-147). `fuel` bounds
the number of rounds; each round advances `start`, and `parseTypedList` gives enough. -/
def typedLoop (allowDup : Bool) (tokens : List TTok) :
    Nat → Nat → TIndex → Except Exc TIndex
  | 0, _, _ => .error .runtime
  | fuel + 1, start, x =>
    match sepIndex tokens start with
    | none =>
      if start ≠ tokens.length then addTypedLists allowDup [] x (slice tokens start tokens.length)
      else pure x
    | some sep =>
      match tokens[sep + 1]? with
      | none => .error .index
      | some t => do
        let tags ← t.parents
        let x' ← addTypedLists allowDup tags x (slice tokens start sep)
        typedLoop allowDup tokens fuel (sep + 2) x'

/-- `TypedListParser.parse_typed_list` (typed_list_parser.py:74-147). Without a separator
the loop body is skipped and the whole list added (lines 106-113). -/
def parseTypedList (allowDup : Bool) (tokens : List TTok) : Except Exc TIndex :=
  typedLoop allowDup tokens (tokens.length + 1) 0 ⟨[], []⟩

/-- The loop of `get_typed_list_of_names` (typed_list_parser.py:60-68). -/
def namesOf : List (Item × List Str) → Except Exc (List (Item × Option Str))
  | [] => pure []
  | (i, tags) :: rest => do
    check (decide (tags.length ≤ 1)) .value
    let r ← namesOf rest
    pure ((i, tags.head?) :: r)

/-- `get_typed_list_of_names` (pddl/parser/typed_list_parser.py:60-68). -/
def TIndex.names (x : TIndex) : Except Exc (List (Item × Option Str)) := namesOf x.itemToTypes

/-- `get_typed_list_of_variables` (typed_list_parser.py:70-72). -/
def TIndex.variables (x : TIndex) : List (Item × List Str) := x.sequence

end Pddl
