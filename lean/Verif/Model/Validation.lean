/-
pddl/_validation.py
-/
import Verif.Model.Instantiate
import Verif.Model.Requirements
import Verif.Model.Cycle

namespace Pddl

/-- A types dictionary: type name to optional ancestor (pddl/_validation.py:91-96). -/
abbrev TypeDict := List (Str × Option Str)

/-- `Types._get_all_types` (pddl/_validation.py:113-119): keys and values of the
dictionary, without `None`. -/
def typesAll (d : TypeDict) : List Str :=
  dedupBy (fun a b => decide (a = b)) (d.map Prod.fst ++ d.filterMap Prod.snd)

/-- The graph passed to `find_cycle` (pddl/_validation.py:178-183). -/
def typeGraph (d : TypeDict) : Graph :=
  d.map (fun p => (p.1, some (match p.2 with | some v => [v] | none => [])))

/-- `Types._check_types_dictionary` (pddl/_validation.py:121-187). `rs` is the
declared requirement set, not the extended one. -/
def checkTypeDict (d : TypeDict) (rs : List Req) : Except Exc Unit :=
  if d.length = 0 then .ok ()
  else if 0 < (d.filterMap Prod.snd).length ∧ Req.typing ∉ rs then .error .validation
  else if (match dictGet d (s%"object") with | some (some _) => true | _ => false)
    then .error .validation
  else if (findCycle (typeGraph d)).isSome then .error .validation
  else .ok ()

/-- `Types(types, requirements)` (pddl/_validation.py:89-101); returns the raw
dictionary. -/
def mkTypes (d : TypeDict) (rs : List Req) : Except Exc TypeDict := do
  let d' ← toTypes d
  checkTypeDict d' rs
  pure d'

/-- What a `TypeChecker` consults: `all_types`, and the declared requirements (pddl/_validation.py:193-204). -/
structure TCtx where
  all : List Str
  reqs : List Req

/-- `TypeChecker.has_typing` (pddl/_validation.py:200-204): extended set. -/
def TCtx.hasTyping (c : TCtx) : Bool := decide (Req.typing ∈ extendReqs c.reqs)

/-- `_check_typing_requirement` (pddl/_validation.py:206-211). -/
def TCtx.checkReq (c : TCtx) (tags : List Str) : Except Exc Unit :=
  if !c.hasTyping && decide (0 < tags.length) then .error .validation else .ok ()

/-- `_check_types_are_available` (pddl/_validation.py:213-220). -/
def TCtx.checkAvail (c : TCtx) (tags : List Str) : Except Exc Unit :=
  if tags.all (fun t => decide (t ∈ c.all)) then .ok () else .error .validation

/-- `check_type` of a term (pddl/_validation.py:233-237). -/
def TCtx.checkTerm (c : TCtx) (t : Term) : Except Exc Unit := do
  c.checkReq t.tags
  c.checkAvail t.tags

/-- `check_type` of a collection (pddl/_validation.py:227-231). -/
def checkEach {α} (f : α → Except Exc Unit) : List α → Except Exc Unit
  | [] => .ok ()
  | a :: as => do
    f a
    checkEach f as

mutual
/-- `check_type` of formulas and effects (pddl/_validation.py:239-302). -/
def TCtx.checkExpr (c : TCtx) : Expr → Except Exc Unit
  | .pred p => checkEach c.checkTerm p.terms
  | .nfun f => checkEach c.checkTerm f.terms
  | .num _ => .ok ()
  | .bfun _ as => TCtx.checkExprs c as
  | .eq l r => do
    c.checkTerm l
    c.checkTerm r
  | .not a => TCtx.checkExpr c a
  | .bin _ as => TCtx.checkExprs c as
  | .quant _ vs a => do
    checkEach c.checkTerm (vs.map Term.var)
    TCtx.checkExpr c a
  | .when a e => do
    TCtx.checkExpr c a
    TCtx.checkExpr c e
  | .fall vs e => do
    checkEach c.checkTerm (vs.map Term.var)
    TCtx.checkExpr c e
/-- `check_type(obj.operands)`, in turn (pddl/_validation.py:227-231). -/
def TCtx.checkExprs (c : TCtx) : List Expr → Except Exc Unit
  | [] => .ok ()
  | a :: as => do
    TCtx.checkExpr c a
    TCtx.checkExprs c as
end

/-- `check_type` of a derived predicate (pddl/_validation.py:265-269). `Domain` does
not call it. -/
def TCtx.checkDerived (c : TCtx) (d : Derived) : Except Exc Unit := do
  checkEach c.checkTerm d.pred.terms
  c.checkExpr d.cond

/-- `check_type` of an optional formula: `check_type(None)` falls to the base
case of the single dispatch (pddl/_validation.py:222-225), `NotImplementedError`. -/
def TCtx.checkOpt (c : TCtx) : Option Expr → Except Exc Unit
  | none => .error .notImplemented
  | some e => c.checkExpr e

/-- `check_type` of an action (pddl/_validation.py:304-309). -/
def TCtx.checkAction (c : TCtx) (a : Action) : Except Exc Unit := do
  checkEach c.checkTerm a.params
  c.checkOpt a.pre
  c.checkOpt a.eff

/-- `_check_types_in_has_terms_objects` on the term lists of a collection
(pddl/_validation.py:49-83). -/
def checkHasTerms (all : List Str) (objs : List (List Term)) : Except Exc Unit :=
  if objs.all (fun ts => ts.all (fun t => t.tags.all (fun x => decide (x ∈ all))))
  then .ok () else .error .validation

/-- A functions dictionary: function to optional type name (pddl/core.py:128). -/
abbrev FunDict := List (NFun × Option Str)

/-- `Functions._check_total_cost` (pddl/_validation.py:346-375). -/
def checkTotalCost (d : FunDict) (rs : List Req) : Except Exc Unit :=
  if d.isEmpty then .ok ()
  else if d.any (fun p => decide (p.1.name = s%"total-cost")) then do
    check (decide (Req.actionCosts ∈ rs)) .validation
    if d.any (fun p => !decide (p.1.name = s%"total-cost")) then
      check (decide (Req.numericFluents ∈ extendReqs rs)) .validation
    else pure ()
  else check (decide (Req.numericFluents ∈ extendReqs rs)) .validation

end Pddl
