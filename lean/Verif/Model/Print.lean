/-
The `__str__` methods and pddl/formatter.py.
-/
import Verif.Model.Core
import Verif.Model.Order
import Verif.Model.Lex

namespace Pddl

/-- The digit character of a number below ten (`str` of pddl/logic/functions.py:146-148). -/
def digitC (n : Nat) : Char := Char.ofNat (48 + n)

/-- Decimal digits, with fuel (`natDigits` gives enough) (`str` of pddl/logic/functions.py:146-148). -/
def natDigitsF : Nat → Nat → Str
  | 0, _ => []
  | f + 1, n => if n < 10 then [digitC n] else natDigitsF f (n / 10) ++ [digitC (n % 10)]

/-- `str(n)` of a non-negative integer (called at pddl/logic/functions.py:146-148). -/
def natDigits (n : Nat) : Str := natDigitsF (n + 1) n

/-- `NumericValue.__str__` (pddl/logic/functions.py:146-148): `str` of an `int`, a `float`
(its `repr`) or a string. -/
def Num.text : Num → Str
  | .int i => if i < 0 then '-' :: natDigits i.natAbs else natDigits i.natAbs
  | .flt _ r => r
  | .str s => s

/-- `SYMBOL` of the binary functions (pddl/logic/functions.py:255-397). -/
def FOp.symbol : FOp → Str
  | .eq => s%"="
  | .lt => s%"<"
  | .le => s%"<="
  | .gt => s%">"
  | .ge => s%">="
  | .assign => s%"assign"
  | .scaleUp => s%"scale-up"
  | .scaleDown => s%"scale-down"
  | .increase => s%"increase"
  | .decrease => s%"decrease"
  | .minus => s%"-"
  | .plus => s%"+"
  | .times => s%"*"
  | .divide => s%"/"

/-- `SYMBOL` of the binary operators (pddl/logic/base.py:160-180). -/
def BOp.symbol : BOp → Str
  | .and => s%"and"
  | .or => s%"or"
  | .oneof => s%"oneof"
  | .imply => s%"imply"

/-- `SYMBOL` of the quantified conditions (pddl/logic/base.py:254, 260). -/
def QOp.symbol : QOp → Str
  | .all => s%"forall"
  | .ex => s%"exists"

/-- `str` of a predicate or a function (predicates.py:88-93, functions.py:84-89). -/
def atomStr (n : Str) (ts : List Term) : Str :=
  if ts.length = 0 then s%"(" ++ n ++ s%")"
  else s%"(" ++ n ++ s%" " ++ joinStr s%" " (ts.map Term.str) ++ s%")"

/-- `Predicate.__str__` (pddl/logic/predicates.py:88-93). -/
def Pred.str (p : Pred) : Str := atomStr p.name p.terms
/-- `NumericFunction.__str__` (pddl/logic/functions.py:84-89). -/
def NFun.str (f : NFun) : Str := atomStr f.name f.terms

/-- `str.strip()` on the left (called at pddl/formatter.py:105, 203, pddl/helpers/base.py:137). -/
def lstrip (s : Str) : Str := s.dropWhile isSpaceC
/-- `str.strip()` on the right (called at pddl/formatter.py:105, 203, pddl/helpers/base.py:137). -/
def rstrip (s : Str) : Str := (s.reverse.dropWhile isSpaceC).reverse
/-- `str.strip()` (called at pddl/formatter.py:105, 203, pddl/helpers/base.py:137). -/
def strip (s : Str) : Str := rstrip (lstrip s)

/-- One parameter in `_typed_parameters` (pddl/helpers/base.py:133-136). -/
def paramStr (v : Term) : Str :=
  if v.tags = [] then v.str
  else s%"?" ++ v.name ++ s%" - " ++ joinStr s%" " v.tags

/-- `_typed_parameters` (pddl/helpers/base.py:127-137). -/
def typedParameters (vs : List Term) : Str := strip (joinStr s%" " (vs.map paramStr))

/-- One variable in `QuantifiedCondition.__str__` (pddl/logic/base.py:219-225). -/
def quantVarStr (v : Var) : Str :=
  (Term.var v).str ++ (if v.tags.length = 0 then [] else s%" - " ++ joinStr s%" " v.tags)

mutual
/-- `__str__` of the formula classes: `BinaryOp`, `UnaryOp`, `QuantifiedCondition`
(pddl/logic/base.py:73-75, 112-114, 217-226), `EqualTo` (predicates.py:164-166), `BinaryFunction`
(functions.py:175-177), `When`, `Forall` (effects.py:50-52, 99-101). -/
def Expr.str : Expr → Str
  | .pred p => p.str
  | .eq l r => s%"(= " ++ l.str ++ s%" " ++ r.str ++ s%")"
  | .nfun f => f.str
  | .num n => n.text
  | .bfun o as => s%"(" ++ o.symbol ++ s%" " ++ joinStr s%" " (Expr.strs as) ++ s%")"
  | .bin o as => s%"(" ++ o.symbol ++ s%" " ++ joinStr s%" " (Expr.strs as) ++ s%")"
  | .not a => s%"(not " ++ a.str ++ s%")"
  | .quant q vs c =>
    s%"(" ++ q.symbol ++ s%" (" ++ joinStr s%" " (vs.map quantVarStr) ++ s%") " ++ c.str ++ s%")"
  | .when c e => s%"(when " ++ c.str ++ s%" " ++ e.str ++ s%")"
  | .fall vs e => s%"(forall (" ++ typedParameters (vs.map Term.var) ++ s%") " ++ e.str ++ s%")"
/-- `map(str, self.operands)` (pddl/logic/base.py:75, pddl/logic/functions.py:177). -/
def Expr.strs : List Expr → List Str
  | [] => []
  | a :: as => a.str :: Expr.strs as
end

/-- `Metric.__str__` (functions.py:231-233). -/
def Metric.str (m : Metric) : Str := m.optimization ++ s%" " ++ m.expr.str

/-- A line `    :key formula` of an action, absent for `None` (pddl/action.py:97-106). -/
def optLine (key : Str) : Option Expr → Str
  | none => []
  | some e => s%"    " ++ key ++ s%" " ++ e.str ++ s%"\n"

/-- `Action.__str__` (pddl/action.py:97-106). -/
def Action.str (a : Action) : Str :=
  s%"(:action " ++ a.name ++ s%"\n" ++
  s%"    :parameters (" ++ typedParameters a.params ++ s%")\n" ++
  optLine s%":precondition" a.pre ++ optLine s%":effect" a.eff ++ s%")"

/-! ### pddl/formatter.py -/

/-- Line boundaries of `str.splitlines` (called at pddl/formatter.py:26). -/
def isLineC (c : Char) : Bool :=
  let n := c.toNat
  (10 ≤ n && n ≤ 13) || (28 ≤ n && n ≤ 30) || n == 133 || n == 8232 || n == 8233

/-- `str.splitlines(keepends=True)`, after the characters `cur` of the current line.
`\r\n` is one boundary: the `\n` ends the line (used by `indent`, pddl/core.py:189). -/
def splitLinesK : Str → Str → List Str
  | cur, [] => if cur = [] then [] else [cur]
  | cur, c :: cs =>
    if c = '\r' ∧ cs.head? = some '\n' then splitLinesK (cur ++ [c]) cs
    else if isLineC c then (cur ++ [c]) :: splitLinesK [] cs
    else splitLinesK (cur ++ [c]) cs

/-- `str.splitlines()` (called at pddl/formatter.py:26). -/
def splitLines (s : Str) : List Str :=
  (splitLinesK [] s).map (fun l => l.filter (fun c => !isLineC c))

/-- `remove_empty_lines` (pddl/formatter.py:24-26). -/
def removeEmptyLines (s : Str) : Str :=
  joinStr s%"\n" ((splitLines s).filter (fun l => decide (strip l ≠ [])))

/-- `textwrap.indent(text, prefix)`: the prefix is put before lines that are not blank
(called at pddl/core.py:189, 390). -/
def indent (s prefix_ : Str) : Str :=
  ((splitLinesK [] s).map (fun l => if l.all isSpaceC then l else prefix_ ++ l)).flatten

/-- `sort_and_print_collection` (pddl/formatter.py:29-56); `items` are the strings of the
elements. -/
def sortAndPrint (prefix_ : Str) (items : List Str) (postfix_ : Str) (mandatory : Bool) : Str :=
  if 0 < items.length then prefix_ ++ joinStr s%" " (sortedStr items) ++ postfix_
  else if mandatory then prefix_ ++ postfix_
  else []

/-- A dictionary from an optional type to the list of strings of the objects with that
type, as `print_types_or_functions_with_parents` (formatter.py:66-68) and
`print_constants` (formatter.py:78-80) build it; `to_string` is applied already. -/
abbrev NamesBy := List (Option Str × List Str)

/-- `d.setdefault(k, []).append(x)` (pddl/formatter.py:68, 80). -/
def NamesBy.add (d : NamesBy) (k : Option Str) (x : Str) : NamesBy :=
  if d.any (fun p => decide (p.1 = k)) then
    d.map (fun p => if p.1 = k then (p.1, p.2 ++ [x]) else p)
  else d ++ [(k, [x])]

/-- The loops that fill the dictionary (pddl/formatter.py:67-68, 79-80). -/
def NamesBy.of (items : List (Option Str × Str)) : NamesBy :=
  items.foldl (fun d p => d.add p.1 p.2) []

/-- `super_to_subs.get(k, [])` (pddl/formatter.py:146-147). -/
def NamesBy.get (d : NamesBy) (k : Option Str) : List Str :=
  match d.find? (fun p => decide (p.1 = k)) with
  | some p => p.2
  | none => []

/-- Set operations on lists of names (pddl/formatter.py:141-149). -/
def strSet (l : List Str) : List Str := dedupBy (fun a b => decide (a = b)) l

/-- The types printed on the first line of `:types` (formatter.py:140-149). -/
def noParents (d : NamesBy) : List Str :=
  let subs := (d.map Prod.snd).flatten
  let roots := (d.filterMap Prod.fst).filter (fun k => decide (k ∉ subs))
  (strSet (roots ++ d.get none ++ d.get (some s%"object"))).filter
    (fun t => decide (t ≠ s%"object"))

/-- A line of the `:types` section: the subtypes, sorted, and their parent (pddl/formatter.py:176-181). -/
abbrev TypeLine := List Str × Str

/-- The `while` loop (formatter.py:157-189). Each round either advances `ind` or removes a
parent from `remaining`; with `fuel` at least the square of the length plus the length it is not
cut off. `ValueError` when `ind` runs past the end. -/
def typesLoop (d : NamesBy) : Nat → List Str → Nat → Except Exc (List TypeLine)
  | 0, _, _ => .error .runtime
  | fuel + 1, remaining, ind =>
    if remaining = [] then pure []
    else
      match remaining[ind]? with
      | none => .error .value
      | some parent =>
        let all := (remaining.map (fun k => d.get (some k))).flatten
        if parent ∈ all then typesLoop d fuel remaining (ind + 1)
        else do
          let rest ← typesLoop d fuel (remaining.erase parent) 0
          pure ((sortedStr (d.get (some parent)), parent) :: rest)

/-- `remaining` (formatter.py:157-159). -/
def parentKeys (d : NamesBy) : List Str :=
  sortedStr ((d.filterMap Prod.fst).filter (fun k => decide (k ≠ s%"object")))

/-- The lines of the `:types` section after the first (pddl/formatter.py:157-185). -/
def typesLines (d : NamesBy) : Except Exc (List TypeLine) :=
  let ks := parentKeys d
  typesLoop d ((ks.length + 1) * (ks.length + 1)) ks 0

/-- The text of a line (pddl/formatter.py:176-181). -/
def TypeLine.str (l : TypeLine) : Str := s%"    " ++ joinStr s%" " l.1 ++ s%" - " ++ l.2 ++ s%"\n"

/-- `print_typed_lists` with `:types` in the prefix (formatter.py:125-189, 211-213). -/
def printTypes (prefix_ : Str) (d : NamesBy) (postfix_ : Str) : Except Exc Str := do
  let ls ← typesLines d
  pure (prefix_ ++ s%"\n    " ++ joinStr s%" " (sortedStr (noParents d)) ++ s%" - object\n" ++
    (ls.map TypeLine.str).flatten ++ postfix_)

/-- The typed groups, sorted by type (formatter.py:196-202). -/
def typedGroups (d : NamesBy) : List (Str × List Str) :=
  sortedBy (fun a b => strLt a.1 b.1)
    (d.filterMap (fun p => match p.1 with | some t => some (t, p.2) | none => none))

/-- `print_typed_lists` for constants, objects and functions (formatter.py:191-213). -/
def printTyped (prefix_ : Str) (d : NamesBy) (postfix_ : Str) : Str :=
  let result := prefix_ ++ s%" " ++
    ((typedGroups d).map (fun g => joinStr s%" " (sortedStr g.2) ++ s%" - " ++ g.1 ++ s%" ")).flatten
  let untyped := d.get none
  if untyped.length = 0 then strip result ++ postfix_
  else
    let result := result ++ joinStr s%" " (sortedStr untyped)
    (if result = prefix_ ++ s%" " then result.dropLast else result) ++ postfix_

/-- `print_types_or_functions_with_parents` for types (formatter.py:59-71). -/
def typesSection (d : TypeDict) : Except Exc Str :=
  if d = [] then pure []
  else printTypes s%"(:types" (NamesBy.of (d.map (fun p => (p.2, p.1)))) s%")\n"

/-- `print_constants` (formatter.py:74-83): `Constant.type_tag` is the tag or `None`. -/
def constantsSection (prefix_ : Str) (cs : List Term) : Str :=
  if cs = [] then []
  else printTyped prefix_ (NamesBy.of (cs.map (fun c => (c.tags.head?, c.name)))) s%")\n"

/-- A variable with its types in a declaration (formatter.py:94-102). -/
def declVarStr (t : Term) : Str :=
  if 1 < t.tags.length then
    s%" ?" ++ t.name ++ s%" - (either " ++ joinStr s%" " (sortedStr t.tags) ++ s%")"
  else match sortedStr t.tags with
    | [] => s%" ?" ++ t.name
    | x :: _ => s%" ?" ++ t.name ++ s%" - " ++ x

/-- `print_predicates_with_types` (formatter.py:86-105). -/
def printPredicates (ps : List Pred) : Str :=
  strip (((sortedBy Pred.lt ps).map (fun p =>
    (if p.terms.length = 0 then s%"(" ++ p.name ++ s%")"
     else s%"(" ++ p.name ++ (p.terms.map declVarStr).flatten ++ s%") ") ++ s%" ")).flatten)

/-- A variable in `print_function_skeleton` (formatter.py:115-120): only the first tag. -/
def funVarStr (t : Term) : Str :=
  match sortedStr t.tags with
  | [] => s%" ?" ++ t.name
  | x :: _ => s%" ?" ++ t.name ++ s%" - " ++ x

/-- `print_function_skeleton` (formatter.py:108-122). -/
def funSkeletonStr (f : NFun) : Str :=
  if f.terms.length = 0 then s%"(" ++ f.name ++ s%")"
  else s%"(" ++ f.name ++ (f.terms.map funVarStr).flatten ++ s%")"

/-- The `:functions` section (core.py:172-175). -/
def functionsSection (d : FunDict) : Str :=
  if d = [] then []
  else printTyped s%"(:functions" (NamesBy.of (d.map (fun p => (p.2, funSkeletonStr p.1)))) s%")\n"

/-- A derived predicate (core.py:179-182). -/
def derivedStr (dp : Derived) : Str :=
  s%"(:derived " ++ printPredicates [dp.pred] ++ s%" " ++ dp.cond.str ++ s%")\n"

/-- The body of a domain (core.py:164-188). -/
def Domain.bodyStr (d : Domain) : Except Exc Str := do
  let types ← typesSection d.types
  pure (sortAndPrint s%"(:requirements " (d.reqs.map Req.str) s%")\n" false ++
    types ++
    constantsSection s%"(:constants" d.constants ++
    (if d.predicates = [] then [] else s%"(:predicates " ++ printPredicates d.predicates ++ s%")\n") ++
    functionsSection d.functions ++
    sortAndPrint [] (d.derived.map derivedStr) [] false ++
    sortAndPrint [] (d.actions.map (fun a => a.str ++ s%"\n")) [] false)

/-- The final layout (core.py:189-191, 389-391). -/
def layout (head body : Str) : Str :=
  removeEmptyLines (head ++ s%"\n" ++ indent body s%"    " ++ s%"\n)")

/-- `Domain.__str__` (pddl/core.py:161-191). `ValueError` is the "Cycle in types". -/
def Domain.str (d : Domain) : Except Exc Str := do
  let body ← d.bodyStr
  pure (layout (s%"(define (domain " ++ d.name ++ s%")") body)

/-- The body of a problem (core.py:379-388). -/
def Problem.bodyStr (p : Problem) : Str :=
  s%"(:domain " ++ p.domainName ++ s%")\n" ++
  sortAndPrint s%"(:requirements " (p.reqs.map Req.str) s%")\n" false ++
  constantsSection s%"(:objects" p.objects ++
  sortAndPrint s%"(:init " (p.init.map Expr.str) s%")\n" true ++
  s%"(:goal " ++ p.goal.str ++ s%")\n" ++
  (match p.metric with | none => [] | some m => s%"(:metric " ++ m.str ++ s%")\n")

/-- `Problem.__str__` (pddl/core.py:377-392). -/
def Problem.str (p : Problem) : Str :=
  layout (s%"(define (problem " ++ p.name ++ s%")") p.bodyStr

/-- `Plan._action_to_string` (pddl/core.py:443-448). -/
def stepStr (s : Str × List Term) : Str :=
  s%"(" ++ s.1 ++ s%" " ++ joinStr s%" " (s.2.map Term.str) ++ s%")"

/-- `Plan.__str__` (pddl/core.py:454-459). -/
def Plan.str (p : Plan) : Str := joinStr s%"\n" (p.steps.map stepStr)

end Pddl
