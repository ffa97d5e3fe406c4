/-
pddl/logic/terms.py and `check_no_duplicates` of pddl/helpers/base.py.
-/
import Verif.Model.Names

namespace Pddl

/-- A `Variable` (pddl/logic/terms.py:113-149): name and set of type tags. -/
structure Var where
  name : Str
  tags : List Str
  deriving DecidableEq, Repr

/-- A `Term`: `Variable` or `Constant` (pddl/logic/terms.py:77-149). A constant
has zero or one type tag (line 87). -/
inductive Term
  | var (v : Var)
  | const (name : Str) (tag : Option Str)
  deriving DecidableEq, Repr

/-- `Term.name` (pddl/logic/terms.py:49-52). -/
def Term.name : Term → Str
  | .var v => v.name
  | .const n _ => n

/-- `Term.type_tags` (pddl/logic/terms.py:54-57). -/
def Term.tags : Term → List Str
  | .var v => v.tags
  | .const _ none => []
  | .const _ (some t) => [t]

/-- A collection argument of type tags: `None`, a set, or a list/tuple (which
may contain duplicates) (pddl/logic/terms.py:36-47, 116-125). -/
inductive TagArg
  | none
  | set (l : List Str)
  | seq (l : List Str)

/-- The loop of `check_no_duplicates` (pddl/helpers/base.py:75-88). -/
def noDupLoop : List Str → List Str → Except Exc Unit
  | _, [] => .ok ()
  | seen, x :: l => if x ∈ seen then .error .value else noDupLoop (seen ++ [x]) l

/-- `ensure_set(check_no_duplicates(arg))` (pddl/helpers/base.py:63-88). -/
def checkedTags : TagArg → Except Exc (List Str)
  | .none => .ok []
  | .set l => .ok l
  | .seq l => do
    noDupLoop [] l
    pure (dedupBy (fun a b => decide (a = b)) l)

/-- `Variable(name, type_tags)` (pddl/logic/terms.py:36-47, 116-125). -/
def mkVar (n : Str) (tags : TagArg) : Except Exc Var := do
  let n' ← parseName n
  let ts ← checkedTags tags
  let ts' ← toType ts
  pure ⟨n', dedupBy (fun a b => decide (a = b)) ts'⟩

/-- `Constant(name, type_tag)` (pddl/logic/terms.py:80-87). -/
def mkConst (n : Str) (tag : Option Str) : Except Exc Term := do
  let n' ← parseName n
  match tag with
  | none => pure (.const n' none)
  | some t => do
    let t' ← parseType t
    pure (.const n' (some t'))

/-- `Variable.__eq__` (pddl/logic/terms.py:135-141): name and set of tags. -/
def Var.pyEq (a b : Var) : Bool := decide (a.name = b.name) && setEq a.tags b.tags

/-- `Constant.__eq__` (pddl/logic/terms.py:104-106) looks at the name only;
a variable and a constant are never equal. -/
def Term.pyEq : Term → Term → Bool
  | .var a, .var b => a.pyEq b
  | .const a _, .const b _ => decide (a = b)
  | _, _ => false

/-- `str(term)` (pddl/logic/terms.py:96-98, 127-129). -/
def Term.str : Term → Str
  | .var v => '?' :: v.name
  | .const n _ => n

/-- `type(term).__name__` (pddl/logic/terms.py:67-74). -/
def Term.cls : Term → Str
  | .var _ => s%"Variable"
  | .const _ _ => s%"Constant"

/-- Python comparison `<` of two lists: the first position where the elements
differ (`==`) decides with `<`; otherwise the shorter list is smaller (pddl/logic/terms.py:67-74). -/
def lexLt {α} (eq lt : α → α → Bool) : List α → List α → Bool
  | [], [] => false
  | [], _ :: _ => true
  | _ :: _, [] => false
  | a :: as, b :: bs => if eq a b then lexLt eq lt as bs else lt a b

/-- `<` on lists of strings (pddl/logic/terms.py:67-74). -/
def strsLt (a b : List Str) : Bool := lexLt (fun x y => decide (x = y)) strLt a b

/-- `Term.__lt__` (pddl/logic/terms.py:67-73): tuples of class name, name and
sorted tags. -/
def Term.lt (a b : Term) : Bool :=
  if a.cls = b.cls then
    if a.name = b.name then strsLt (sortedStr a.tags) (sortedStr b.tags)
    else strLt a.name b.name
  else strLt a.cls b.cls

end Pddl
