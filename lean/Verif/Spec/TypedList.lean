/- Typed lists as written: groups of items followed by `-` and types. -/
import Verif.Model.TypedList
import Verif.Spec.Names

namespace Pddl.Spec
open Pddl

/-- A typed list `x1 .. xn - t  y1 .. ym - (either u v) ... z1 .. zk`: groups of items with
what stands after the `-`, and untyped items at the end. This is the form of
`typed_list_name`, `typed_list_variable` and
`f_typed_list_atomic_function_skeleton` (pddl/parser/grammar.lark:15-16, 94-99). -/
structure TypedList where
  groups : List (List TTok × TTok)
  rest : List TTok

/-- The token sequence. -/
def TypedList.tokens (l : TypedList) : List TTok :=
  l.groups.flatMap (fun g => g.1 ++ [.str (s%"-"), g.2]) ++ l.rest

/-- What may stand as an item: a name that is not a keyword, or a function. -/
def IsItem : TTok → Prop
  | .str s => ValidName s
  | .fn _ => True
  | .list _ => False

/-- What may stand after a `-`: a type name or several. -/
def IsTypes : TTok → Prop
  | .str s => ValidType s
  | .list l => ∀ t ∈ l, ValidType t
  | .fn _ => False

/-- The types written. -/
def typesOf : TTok → List Str
  | .str s => [s]
  | .list l => l
  | .fn _ => []

/-- Lists allowed by the grammar, with names that are not keywords. -/
structure TypedList.Ok (l : TypedList) : Prop where
  items : ∀ g ∈ l.groups, ∀ t ∈ g.1, IsItem t
  rest : ∀ t ∈ l.rest, IsItem t
  types : ∀ g ∈ l.groups, IsTypes g.2

/-- Each item in order of occurrence, with the types written after the next `-`. -/
def TypedList.assigned (l : TypedList) : List (TTok × List Str) :=
  l.groups.flatMap (fun g => g.1.map (fun t => (t, typesOf g.2))) ++ l.rest.map (fun t => (t, []))

/-- Two tokens are the same item. -/
def SameItem : TTok → TTok → Prop
  | .str a, .str b => a = b
  | .fn f, .fn g => f.pyEq g = true
  | _, _ => False

/-- The same set of types. -/
def SameTypes (a b : List Str) : Prop := ∀ x, x ∈ a ↔ x ∈ b

/-- The item of the index that corresponds to a token. -/
def Denotes : TTok → Item → Prop
  | .str s, .name n => n = s
  | .fn f, .fn g => g = f
  | _, _ => False

end Pddl.Spec
