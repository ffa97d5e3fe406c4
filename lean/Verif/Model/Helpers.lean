/-
pddl/logic/helpers.py.
-/
import Verif.Model.Term
import Verif.Model.Lex

namespace Pddl

/-- `str.split()` without arguments, after the characters `cur` of the current word (called at pddl/logic/helpers.py:34, 48). -/
def splitWords : Str → Str → List Str
  | cur, [] => if cur = [] then [] else [cur]
  | cur, c :: s =>
    if isSpaceC c then
      if cur = [] then splitWords [] s else cur :: splitWords [] s
    else splitWords (cur ++ [c]) s

/-- `ensure_set` (pddl/helpers/base.py:63-72): `None` gives the empty set. -/
def ensureSet : Option (List Str) → List Str
  | none => []
  | some l => dedupBy (fun a b => decide (a = b)) l

/-- `variables(s, types)` (pddl/logic/helpers.py:22-35). -/
def variablesOf (s : Str) (types : Option (List Str)) : Except Exc (List Var) :=
  (splitWords [] s).mapM (fun x => mkVar x (.set (ensureSet types)))

/-- `constants(s, type_)` (pddl/logic/helpers.py:38-49). -/
def constantsOf (s : Str) (type_ : Option Str) : Except Exc (List Term) :=
  (splitWords [] s).mapM (fun x => mkConst x type_)

end Pddl
