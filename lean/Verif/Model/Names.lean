/-
pddl/parser/symbols.py, pddl/custom_types.py and the name regular expression.
-/
import Verif.Model.Py

namespace Pddl

/-- `ALL_SYMBOLS` (pddl/parser/symbols.py:22-74): the values of the enum
`Symbols`, in order (the set has no order; `-` appears twice in the enum). -/
def allSymbols : List Str :=
  [ s%"(", s%")", s%"-", s%"=", s%":action", s%"and", s%":constants", s%"define",
    s%":derived", s%"domain", s%":domain", s%":effect", s%"either", s%"exists",
    s%"forall", s%":goal", s%"imply", s%":init", s%"not", s%"object", s%":objects",
    s%"oneof", s%"or", s%":parameters", s%":precondition", s%":predicates",
    s%"problem", s%":requirements", s%":types", s%":metric", s%"when", s%">=",
    s%">", s%"<=", s%"<", s%"-", s%"+", s%"*", s%"/", s%"assign", s%"scale-up",
    s%"scale-down", s%"increase", s%"decrease", s%"maximize", s%"minimize",
    s%"total-cost" ]

/-- Character class `[A-Za-z]` (pddl/custom_types.py:30). -/
def isAlphaC (c : Char) : Bool :=
  (65 ≤ c.toNat && c.toNat ≤ 90) || (97 ≤ c.toNat && c.toNat ≤ 122)

/-- Character class `[0-9]` (pddl/custom_types.py:30). -/
def isDigitC (c : Char) : Bool := 48 ≤ c.toNat && c.toNat ≤ 57

/-- Character class `[-_A-Za-z0-9]` (pddl/custom_types.py:30). -/
def isNameC (c : Char) : Bool := c == '-' || c == '_' || isAlphaC c || isDigitC c

/-- `re.compile("[A-Za-z][-_A-Za-z0-9]*").fullmatch`
(pddl/custom_types.py:30, pddl/helpers/base.py:162). -/
def nameRegex : Str → Bool
  | [] => false
  | c :: cs => isAlphaC c && cs.all isNameC

/-- `_is_a_keyword` (pddl/custom_types.py:117-121). -/
def isKeyword (w : Str) (ignore : List Str) : Bool :=
  !(decide (w ∈ ignore)) && decide (w ∈ allSymbols)

/-- The constructor `name(s)` (pddl/custom_types.py:23-30,
pddl/helpers/base.py:151-170): `ValueError` when the regex does not match. -/
def mkName (s : Str) : Except Exc Str := if nameRegex s then .ok s else .error .value

/-- Common shape of `parse_name`, `parse_type`, `parse_function`:
`_check_not_a_keyword` (pddl/custom_types.py:124-133), then `name(s)`. -/
def parseWith (ignore : List Str) (s : Str) : Except Exc Str :=
  if isKeyword s ignore then .error .validation else mkName s

/-- `parse_name` (pddl/custom_types.py:48-62). -/
def parseName (s : Str) : Except Exc Str := parseWith [] s

/-- `parse_type` (pddl/custom_types.py:65-79). -/
def parseType (s : Str) : Except Exc Str := parseWith [s%"object"] s

/-- `parse_function` (pddl/custom_types.py:82-96). -/
def parseFunction (s : Str) : Except Exc Str := parseWith [s%"total-cost"] s

/-- `to_type` (pddl/custom_types.py:104-106). -/
def toType (l : List Str) : Except Exc (List Str) := l.mapM parseType

/-- `to_types` (pddl/custom_types.py:109-114): the ancestor is parsed if it is
truthy, i.e. neither `None` nor the empty string. The result is a dictionary. -/
def toTypes (d : List (Str × Option Str)) : Except Exc (List (Str × Option Str)) := do
  let items ← d.mapM (fun (p : Str × Option Str) => do
    let k ← parseType p.1
    match p.2 with
    | none => pure (k, none)
    | some [] => pure (k, none)
    | some a => do
      let a' ← parseType a
      pure (k, some a'))
  pure (dictOf items)

end Pddl
