/-
The formula part of pddl/parser/grammar.lark and of the transformer in
pddl/parser/domain.py: typed lists, conditions, numeric expressions, effects.
A function here takes the bracket trees of the part of the text a grammar rule covers, and
returns what the transformer callback of the rule returns. `lark` is a syntax error.
-/
import Verif.Model.Lex
import Verif.Model.TypedList
import Verif.Model.Requirements

namespace Pddl

/-- Python's `float(text)`: the value and its `repr`; `none` for `ValueError`
(called at pddl/parser/domain.py:329-332). -/
abbrev FloatOf := Str → Option (FVal × Str)

/-- `int(text)` of a text of digits (called at pddl/parser/domain.py:329-332). -/
def digitsVal (s : Str) : Nat := s.foldl (fun a c => a * 10 + (c.toNat - 48)) 0

/-- `num_literal` (grammar.lark:77, pddl/parser/domain.py:329-332). -/
def numLiteral (F : FloatOf) (s : Str) : Except Exc Num :=
  if '.' ∈ s then
    match F s with
    | some (v, r) => pure (.flt v r)
    | none => .error .value
  else pure (.int (digitsVal s))

/-- Removing a keyword from the front, where the parser accepts only that keyword: the
lexer then matches it also at the beginning of a longer word, and what is left is read as
the next token (a `NAME` if it starts with a letter) (pddl/parser/grammar.lark:176-214). -/
def dropKeyword (k : Str) : List Tree → Option (List Tree)
  | .atom (.name w) :: rest =>
    if k.isPrefixOf w then
      match w.drop k.length with
      | [] => some rest
      | c :: cs => if isAlphaC c then some (.atom (.name (c :: cs)) :: rest) else none
    else none
  | _ => none

/-- `NAME*` (pddl/parser/grammar.lark:124, 148) -/
def namesOnly : List Tree → Option (List Str)
  | [] => some []
  | .atom (.name n) :: ts => (namesOnly ts).map (n :: ·)
  | _ => none

/-- `typed_list_name` (grammar.lark:98-99), the tokens of it. The flag says whether a
group has been started: a separator needs at least one name before it. -/
def typedNameToks : Bool → List Tree → Option (List TTok)
  | _, [] => some []
  | _, .atom (.name n) :: ts => (typedNameToks true ts).map (.str n :: ·)
  | true, .atom .minus :: .atom (.name t) :: ts =>
    (typedNameToks false ts).map (fun r => .str s%"-" :: .str t :: r)
  | _, _ => none

/-- `type_def` (grammar.lark:100-103, domain.py:514-526): a name or `(either …)`; the
callback returns a list. -/
def typeDef : Tree → Option (List Str)
  | .atom (.name t) => some [t]
  | .node body =>
    match dropKeyword s%"either" body with
    | some (t :: ts) => namesOnly (t :: ts)
    | _ => none
  | _ => none

/-- `typed_list_variable` (grammar.lark:94-96), the tokens of it. -/
def typedVarToks : Bool → List Tree → Option (List TTok)
  | _, [] => some []
  | _, .atom .qmark :: .atom (.name n) :: ts => (typedVarToks true ts).map (.str n :: ·)
  | true, .atom .minus :: t :: ts =>
    match typeDef t, typedVarToks false ts with
    | some l, some r => some (.str s%"-" :: .list l :: r)
    | _, _ => none
  | _, _ => none

/-- The handler `except ValueError as e: raise self._raise_typed_list_parsing_error(args, e)`
(domain.py:475-512). It builds a list of strings from the tokens, which fails with a
`TypeError` if one of them is a `NumericFunction` (not iterable). Only a `ValueError` is
handled. -/
def typedListError {α} (toks : List TTok) : Except Exc α → Except Exc α
  | .error .value =>
    .error (if toks.any (fun t => match t with | .fn _ => true | _ => false) then .type_ else .parsing)
  | r => r

/-- The callback `typed_list_name` (domain.py:475-481). Its items are names. -/
def typedListName (toks : List TTok) : Except Exc (List (Str × Option Str)) :=
  typedListError toks do
    let x ← parseTypedList false toks
    let l ← x.names
    pure (l.filterMap (fun p => match p.1 with | .name n => some (n, p.2) | .fn _ => none))

/-- The callback `typed_list_variable` (domain.py:483-496). -/
def typedListVariable (toks : List TTok) : Except Exc (List (Str × List Str)) :=
  typedListError toks do
    let x ← parseTypedList true toks
    pure (x.variables.filterMap (fun p => match p.1 with | .name n => some (n, p.2) | .fn _ => none))

/-- `[Variable(var_name, tags) for var_name, tags in …]` (domain.py:289, 354, 422-428). -/
def mkVars : List (Str × List Str) → Except Exc (List Var)
  | [] => pure []
  | (n, tags) :: rest => do
    let v ← mkVar n (.set tags)
    let vs ← mkVars rest
    pure (v :: vs)

/-- What the callbacks for formulas read from the transformer.
* `ext`: `_extended_requirements`;
* `constant`: the callback `constant` (domain.py:414-420, problem.py:212-215);
* `params`: `_current_parameters_by_name`;
* `typedVars`: the callback `typed_list_variable` (missing in `ProblemTransformer`). -/
structure GEnv where
  float : FloatOf
  ext : List Req
  constant : Str → Except Exc Term
  params : List (Str × Term)
  typedVars : List TTok → Except Exc (List (Str × List Str))

/-- A variable token through `_constant_or_variable` (domain.py:394-399). -/
def GEnv.variable (E : GEnv) (n : Str) : Except Exc Term :=
  match dictGet E.params n with
  | some t => pure t
  | none => do
    let v ← mkVar n (.set [])
    pure (.var v)

/-- `term*` (grammar.lark:59-62) with `_constant_or_variable` applied. lark resolves all
constants before the callback of the enclosing rule is called. -/
def GEnv.terms (E : GEnv) : List Tree → Except Exc (List Term)
  | [] => pure []
  | .atom (.name n) :: ts => do
    let t ← E.constant n
    let r ← E.terms ts
    pure (t :: r)
  | .atom .qmark :: .atom (.name n) :: ts => do
    let t ← E.variable n
    let r ← E.terms ts
    pure (t :: r)
  | _ => .error .lark

/-- `{r1, r2, …} & self._extended_requirements` is not empty (pddl/parser/domain.py:237-310). -/
def GEnv.hasAny (E : GEnv) (rs : List Req) : Bool := rs.any (fun r => decide (r ∈ E.ext))

/-- `f_head` (grammar.lark:85-86, domain.py:467-473). -/
def GEnv.fHead (E : GEnv) : Tree → Except Exc NFun
  | .atom (.name n) => mkNFun n []
  | .node (.atom (.name n) :: args) => do
    let ts ← E.terms args
    mkNFun n ts
  | _ => .error .lark

mutual
/-- `f_exp` (grammar.lark:79-83, domain.py:446-465). A binary `-` is not accepted: after
`( -` the parser shifts (see DESIGN.md). -/
def GEnv.fExp (E : GEnv) : Tree → Except Exc Expr
  | .atom (.num s) => do
    let n ← numLiteral E.float s
    pure (.num n)
  | .node (.atom .plus :: args) => do
    let es ← E.fExps args
    check (decide (2 ≤ args.length)) .lark
    pure (construct (.fop .plus) es)
  | .node (.atom .times :: args) => do
    let es ← E.fExps args
    check (decide (2 ≤ args.length)) .lark
    pure (construct (.fop .times) es)
  | .node (.atom .divide :: args) => do
    let es ← E.fExps args
    check (decide (args.length = 2)) .lark
    pure (construct (.fop .divide) es)
  | .node (.atom .minus :: args) => do
    let es ← E.fExps args
    check (decide (args.length = 1)) .lark
    pure (construct (.fop .minus) es)
  | .atom (.name n) => do
    let f ← E.fHead (.atom (.name n))
    pure (.nfun f)
  | .node (.atom (.name n) :: args) => do
    let f ← E.fHead (.node (.atom (.name n) :: args))
    pure (.nfun f)
  | _ => .error .lark
/-- `f_exp*`, in turn (pddl/parser/grammar.lark:79-83). -/
def GEnv.fExps (E : GEnv) : List Tree → Except Exc (List Expr)
  | [] => pure []
  | t :: ts => do
    let e ← E.fExp t
    let es ← E.fExps ts
    pure (e :: es)
end

/-- `atomic_formula_term` (grammar.lark:57-58, domain.py:401-412) from the part after the
opening bracket. The predicate of the first alternative is any word: in the callers the
keywords accepted at that place have been tried before. -/
def GEnv.atomic (E : GEnv) : List Tree → Except Exc Expr
  | .atom .eq :: args => do
    let ts ← E.terms args
    match ts with
    | [l, r] => do
      check (E.hasAny [.equality]) .missingReq
      mkEq l r
    | _ => .error .lark
  | .atom (.name n) :: args => do
    let ts ← E.terms args
    let p ← mkPred n ts
    pure (.pred p)
  | _ => .error .lark

/-- The comparison operators (grammar.lark:64-68). -/
def compOp : Tok → Option FOp
  | .eq => some .eq
  | .ge => some .ge
  | .gt => some .gt
  | .le => some .le
  | .lt => some .lt
  | _ => none

/-- After `( =`, a name or a variable is shifted as a term: the rest must be two terms
(pddl/parser/grammar.lark:38, 58). -/
def startsWithTerm : List Tree → Bool
  | .atom (.name _) :: _ => true
  | .atom .qmark :: _ => true
  | _ => false

/-- `LPAR binary_comp f_exp f_exp RPAR` (grammar.lark:38, domain.py:293-310). The requirement test there
is of a non-empty set display and never fails. -/
def GEnv.comparison (E : GEnv) (op : FOp) (args : List Tree) : Except Exc Expr := do
  let es ← E.fExps args
  check (decide (args.length = 2)) .lark
  pure (construct (.fop op) es)

/-- The quantifier rules (grammar.lark:36-37, domain.py:272-291); `c` is the outcome for
the condition, which lark processes before the callback is called. -/
def GEnv.quantifier (E : GEnv) (q : QOp) (r : Req) (vs : List Tree) (c : Except Exc Expr) :
    Except Exc Expr :=
  match typedVarToks false vs with
  | none => .error .lark
  | some toks => do
    let l ← E.typedVars toks
    let e ← c
    check (E.hasAny [r, .quantifiedPrecondition, .adl]) .missingReq
    let vars ← mkVars l
    pure (mkQuant q e vars)

mutual
/-- `gd` (grammar.lark:31-38, domain.py:237-327). -/
def GEnv.gd (E : GEnv) : Tree → Except Exc Expr
  | .node (.atom (.name w) :: args) =>
    if w = s%"and" then do
      let es ← E.gds args
      pure (mkAnd es)
    else if w = s%"or" then do
      let es ← E.gds args
      check (E.hasAny [.disPrecondition, .adl]) .missingReq
      pure (mkOr es)
    else if w = s%"not" then
      match args with
      | [a] => do
        let e ← E.gd a
        pure (.not e)
      | _ => .error .lark
    else if w = s%"imply" then
      match args with
      | [a, b] => do
        let e ← E.gd a
        let e' ← E.gd b
        check (E.hasAny [.disPrecondition, .adl]) .missingReq
        pure (construct (.bop .imply) [e, e'])
      | _ => .error .lark
    else if w = s%"forall" then
      match args with
      | [.node vs, c] => E.quantifier .all .universalPrecondition vs (E.gd c)
      | _ => .error .lark
    else if w = s%"exists" then
      match args with
      | [.node vs, c] => E.quantifier .ex .existentialPrecondition vs (E.gd c)
      | _ => .error .lark
    else E.atomic (.atom (.name w) :: args)
  | .node (.atom t :: args) =>
    match compOp t with
    | some op =>
      if t = .eq ∧ startsWithTerm args then E.atomic (.atom .eq :: args)
      else E.comparison op args
    | none => .error .lark
  | _ => .error .lark
/-- `gd*` (pddl/parser/grammar.lark:32-34) -/
def GEnv.gds (E : GEnv) : List Tree → Except Exc (List Expr)
  | [] => pure []
  | t :: ts => do
    let e ← E.gd t
    let es ← E.gds ts
    pure (e :: es)
end

/-- The assignment operators (grammar.lark:88-92, domain.py:379-392). -/
def assignOp (w : Str) : Option FOp :=
  if w = s%"assign" then some .assign
  else if w = s%"scale-up" then some .scaleUp
  else if w = s%"scale-down" then some .scaleDown
  else if w = s%"increase" then some .increase
  else if w = s%"decrease" then some .decrease
  else none

/-- `p_effect` and `num_effect` (grammar.lark:50-55, domain.py:364-392). -/
def GEnv.pEffect (E : GEnv) : Tree → Except Exc Expr
  | .node (.atom (.name w) :: args) =>
    if w = s%"not" then
      match args with
      | [.node a] => do
        let e ← E.atomic a
        pure (.not e)
      | _ => .error .lark
    else
      match assignOp w with
      | some op =>
        match args with
        | [h, x] => do
          let f ← E.fHead h
          let e ← E.fExp x
          pure (construct (.fop op) [.nfun f, e])
        | _ => .error .lark
      | none => E.atomic (.atom (.name w) :: args)
  | .node (.atom .eq :: args) => E.atomic (.atom .eq :: args)
  | _ => .error .lark

/-- `p_effect*` (pddl/parser/grammar.lark:53) -/
def GEnv.pEffects (E : GEnv) : List Tree → Except Exc (List Expr)
  | [] => pure []
  | t :: ts => do
    let e ← E.pEffect t
    let es ← E.pEffects ts
    pure (e :: es)

/-- `cond_effect` (grammar.lark:53-54, domain.py:371-377). -/
def GEnv.condEffect (E : GEnv) : Tree → Except Exc Expr
  | .node (.atom (.name w) :: args) =>
    if w = s%"and" then do
      let es ← E.pEffects args
      pure (mkAnd es)
    else E.pEffect (.node (.atom (.name w) :: args))
  | t => E.pEffect t

mutual
/-- `effect` (flag `true`) and `c_effect` (flag `false`, where `and` is not a keyword)
(grammar.lark:43-49, domain.py:341-362). -/
def GEnv.effect (E : GEnv) : Bool → Tree → Except Exc Expr
  | top, .node (.atom (.name w) :: args) =>
    if top ∧ w = s%"and" then do
      let es ← E.effects false args
      pure (mkAnd es)
    else if w = s%"forall" then
      match args with
      | [.node vs, e] =>
        match typedVarToks false vs with
        | none => .error .lark
        | some toks => do
          let l ← E.typedVars toks
          let e' ← E.effect true e
          let vars ← mkVars l
          pure (mkForall e' vars)
      | _ => .error .lark
    else if w = s%"when" then
      match args with
      | [c, e] => do
        let c' ← E.gd c
        let e' ← E.condEffect e
        pure (.when c' e')
      | _ => .error .lark
    else if w = s%"oneof" then do
      let es ← E.effects true args
      check (decide (1 ≤ args.length)) .lark
      check (E.hasAny [.nonDeterministic]) .missingReq
      pure (construct (.bop .oneof) es)
    else E.pEffect (.node (.atom (.name w) :: args))
  | _, t => E.pEffect t
/-- `c_effect*` (flag false) or `effect+` (flag true), in turn (pddl/parser/grammar.lark:43-48). -/
def GEnv.effects (E : GEnv) : Bool → List Tree → Except Exc (List Expr)
  | _, [] => pure []
  | top, t :: ts => do
    let e ← E.effect top t
    let es ← E.effects top ts
    pure (e :: es)
end

end Pddl
