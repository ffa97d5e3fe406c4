/-
pddl/parser/_update_type_tags.py, and `_check_subtypes` of pddl/parser/domain.py.
-/
import Verif.Model.Validation

namespace Pddl

/-- A mapping of variable names to sets of type names (pddl/parser/_update_type_tags.py:29). -/
abbrev VarTypes := List (Str × List Str)

/-- `_replace_term_with_type_tags_if_var` (_update_type_tags.py:122-127); `with_type_tags`
(pddl/logic/terms.py:147-149) calls `Variable(name, tags)`. -/
def Term.retag (env : VarTypes) : Term → Except Exc Term
  | .var v =>
    match dictGet env v.name with
    | some tags => do
      let v' ← mkVar v.name (.set tags)
      pure (.var v')
    | none => pure (.var v)
  | .const n t => pure (.const n t)

/-- `new_var_to_types` (_update_type_tags.py:67-69): the variables of the quantifier, in
iteration order, override the mapping. -/
def bindTypes (env : VarTypes) (vs : List Var) : VarTypes :=
  vs.foldl (fun e v => dictSet e v.name v.tags) env

mutual
/-- `_update_type_tags` (_update_type_tags.py:35-119). It is not registered for `When`
and `Forall`: `NotImplementedError`. -/
def Expr.updateTags (env : VarTypes) : Expr → Except Exc Expr
  | .bin o as => do
    let as' ← Expr.updateTagss env as
    pure (construct (.bop o) as')
  | .not a => do
    let a' ← a.updateTags env
    pure (.not a')
  | .quant q vs c => do
    let c' ← c.updateTags (bindTypes env vs)
    pure (mkQuant q c' vs)
  | .eq l r => do
    let l' ← l.retag env
    let r' ← r.retag env
    mkEq l' r'
  | .pred p => do
    let ts ← p.terms.mapM (Term.retag env)
    let p' ← mkPred p.name ts
    pure (.pred p')
  | .nfun f => do
    let ts ← f.terms.mapM (Term.retag env)
    let f' ← mkNFun f.name ts
    pure (.nfun f')
  | .num n => pure (.num n)
  | .bfun o as => do
    let as' ← Expr.updateTagss env as
    pure (construct (.fop o) as')
  | .when _ _ => .error .notImplemented
  | .fall _ _ => .error .notImplemented
/-- The operands in turn (pddl/parser/_update_type_tags.py:47-50, 115-118). -/
def Expr.updateTagss (env : VarTypes) : List Expr → Except Exc (List Expr)
  | [] => pure []
  | a :: as => do
    let a' ← a.updateTags env
    let as' ← Expr.updateTagss env as
    pure (a' :: as')
end

/-- The variables of the inner `while` loop of `_check_subtypes` (pddl/parser/domain.py:543-545). -/
structure SubLoop where
  current : Str
  parent : Option Str
  deriving DecidableEq

/-- One round of the loop: `none` when the condition is false. The body assigns
`parent_type` from `current_type`, which it never changes (pddl/parser/domain.py:532-550). -/
def SubLoop.step (types : TypeDict) (right : List Str) (s : SubLoop) : Option SubLoop :=
  match s.parent with
  | none => none
  | some p => if p ∈ right then none
    else some { s with parent := (dictGet types s.current).join }

/-- Run at most `n` rounds; `none` if the loop has not stopped by then (pddl/parser/domain.py:532-550). -/
def SubLoop.run (types : TypeDict) (right : List Str) : Nat → SubLoop → Option SubLoop
  | 0, _ => none
  | n + 1, s =>
    match s.step types right with
    | none => some s
    | some s' => SubLoop.run types right n s'

/-- `_check_subtypes` (pddl/parser/domain.py:532-550), with at most `n` rounds for each
left type: `none` if a loop has not stopped by then. `types` is `self._types`;
`types_hierarchy` raises `RuntimeError` when it is `None` (domain.py:78-83). -/
def checkSubtypesN (n : Nat) (types : Option TypeDict) (left right : List Str) :
    Option (Except Exc Unit) :=
  if right.length = 0 then some (.ok ())
  else match left with
    | [] => some (.ok ())
    | t :: ts =>
      if t ∈ right then checkSubtypesN n types ts right
      else match types with
        | none => some (.error .runtime)
        | some d =>
          match SubLoop.run d right n ⟨t, some t⟩ with
          | none => none
          | some s => match s.parent with
            | none => some (.error .parsing)
            | some _ => checkSubtypesN n types ts right

/-- `_check_subtypes` as a total function: what it returns, or `diverges` when one of
the loops does not stop. `subtypesN_iff` (Proofs/Subtypes.lean) shows that this is the
behaviour of the loop above (pddl/parser/domain.py:532-550). -/
def checkSubtypes (types : Option TypeDict) : List Str → List Str → Except Exc Unit
  | [], _ => .ok ()
  | t :: ts, right =>
    if right.length = 0 then .ok ()
    else if t ∈ right then checkSubtypes types ts right
    else match types with
      | none => .error .runtime
      | some d =>
        match (dictGet d t).join with
        | none => .error .parsing
        | some p => if p ∈ right then checkSubtypes types ts right else .error .diverges

/-- The loop of `derived_predicates` (pddl/parser/domain.py:186-216) that computes
`current_var_to_types`; the list pairs the terms of the head with those of the
declaration. -/
def derivedEnv (types : Option TypeDict) : List (Term × Term) → VarTypes → Except Exc VarTypes
  | [], env => pure env
  | (.const _ _, _) :: _, _ => .error .assertion
  | (.var v, d) :: l, env =>
    if v.tags.length = 0 then
      if d.tags.length ≠ 0 then derivedEnv types l (dictSet env v.name d.tags)
      else derivedEnv types l env
    else do
      checkSubtypes types v.tags d.tags
      derivedEnv types l (dictSet env v.name v.tags)

/-- `derived_predicates` (pddl/parser/domain.py:167-220). `preds` is
`self._predicates_by_name`. `update_type_tags` of the head is that of a predicate
formula (the result is a `Predicate`). -/
def derivedPredicate (types : Option TypeDict) (preds : List (Str × Pred)) (head : Pred) (c : Expr) :
    Except Exc Derived :=
  match dictGet preds head.name with
  | none => .error .undefined
  | some p =>
    if p.terms.length ≠ head.terms.length then .error .undefined
    else do
      let env ← derivedEnv types (head.terms.zip p.terms) []
      let ts ← head.terms.mapM (Term.retag env)
      let head' ← mkPred head.name ts
      let c' ← c.updateTags env
      pure ⟨head', c'⟩

end Pddl
