/-
pddl/parser/domain.py: the sections of a domain, and the state of `DomainTransformer`.
-/
import Verif.Model.ParseFormula
import Verif.Model.UpdateTags
import Verif.Model.Core

namespace Pddl

/-- The attributes of `DomainTransformer` that callbacks read (domain.py:66-76).
`_requirements` and `_functions_by_name` are never read. -/
structure PState where
  ext : List Req
  consts : List (Str × Term)
  preds : List (Str × Pred)
  params : List (Str × Term)
  types : Option TypeDict

/-- The attributes of a new transformer (domain.py:66-76). -/
def PState.fresh : PState := ⟨[], [], [], [], none⟩

/-- The callback `constant` (domain.py:414-420). -/
def PState.constant (σ : PState) (n : Str) : Except Exc Term :=
  match dictGet σ.consts n with
  | some t => pure t
  | none => .error .undefined

/-- The environment of the formula callbacks (the attributes of pddl/parser/domain.py:66-76). -/
def PState.env (σ : PState) (F : FloatOf) : GEnv :=
  ⟨F, σ.ext, σ.constant, σ.params, typedListVariable⟩

/-- The trees of a section with the given keyword, if the next tree is one, and the rest
(an optional part `[section]` of grammar.lark:3 and 107). -/
def takeSection (k : Str) : List Tree → Option (List Tree) × List Tree
  | .node (.atom (.kw k') :: body) :: rest =>
    if k' = k then (some body, rest) else (none, .node (.atom (.kw k') :: body) :: rest)
  | ts => (none, ts)

/-- `require_key` (grammar.lark:158-172): `:object-fluents` is not among them. -/
def requireKey : Tree → Option Req
  | .atom (.kw k) =>
    (Req.all.filter (fun r => decide (r ≠ .objectFluents))).find? (fun r => decide (r.value = k))
  | _ => none

/-- `require_key+` (grammar.lark:6) and the set `{Requirements(r[1:]) for r in …}`
(domain.py:113, problem.py:74). -/
def parseRequirements (body : List Tree) : Except Exc (List Req) :=
  match body with
  | [] => .error .lark
  | _ => match body.mapM requireKey with
    | some rs => pure (reqSet rs)
    | none => .error .lark

/-- `typed_list_name` of a section body (grammar.lark:98-99). -/
def parseTypedNames (body : List Tree) : Except Exc (List (Str × Option Str)) :=
  match typedNameToks false body with
  | some toks => typedListName toks
  | none => .error .lark

/-- `typed_list_variable` (grammar.lark:94-95) followed by `Variable(...)` for each pair. -/
def parseTypedVars (body : List Tree) : Except Exc (List Var) :=
  match typedVarToks false body with
  | some toks => do
    let l ← typedListVariable toks
    mkVars l
  | none => .error .lark

/-- The callback `types` (domain.py:118-134). -/
def sectionTypes (σ : PState) (body : List Tree) : Except Exc (TypeDict × PState) := do
  let d ← parseTypedNames body
  check (!(d.any (fun p => p.2.isSome) && !decide (Req.typing ∈ σ.ext))) .missingReq
  let d' : TypeDict := d.map (fun p => if p.2 = some s%"object" then (p.1, none) else p)
  check σ.types.isNone .assertion
  pure (d', { σ with types := some d' })

/-- `{name: Constant(name, tag) for name, tag in …}` (domain.py:138-140, problem.py:79-81). -/
def mkConsts : List (Str × Option Str) → Except Exc (List (Str × Term))
  | [] => pure []
  | (n, tag) :: rest => do
    let t ← mkConst n tag
    let r ← mkConsts rest
    pure ((n, t) :: r)

/-- The callback `constants` (domain.py:136-141). -/
def sectionConstants (σ : PState) (body : List Tree) : Except Exc (List Term × PState) := do
  let d ← parseTypedNames body
  let cs ← mkConsts d
  let cs := dictOf cs
  pure (cs.map Prod.snd, { σ with consts := cs })

/-- `atomic_formula_skeleton` (grammar.lark:13, domain.py:422-434). -/
def formulaSkeleton : Tree → Except Exc Pred
  | .node (.atom (.name n) :: body) => do
    let vs ← parseTypedVars body
    mkPred n (vs.map Term.var)
  | _ => .error .lark

/-- The callback `predicates` (grammar.lark:10, domain.py:143-147). -/
def sectionPredicates (σ : PState) (body : List Tree) : Except Exc (List Pred × PState) := do
  let ps ← body.mapM formulaSkeleton
  check (decide (1 ≤ body.length)) .lark
  pure (ps, { σ with preds := dictOf (ps.map (fun p => (p.name, p))) })

/-- `atomic_function_skeleton` (grammar.lark:20, domain.py:436-444). The variables of
`total-cost` are dropped; the requirement test is of a non-empty set display. The list of
variables has been read by then, but `Variable(...)` is called only for other names. -/
def functionSkeleton : Tree → Except Exc NFun
  | .node (.atom (.name n) :: body) =>
    match typedVarToks false body with
    | none => .error .lark
    | some toks => do
      let l ← typedListVariable toks
      if n = s%"total-cost" then mkNFun s%"total-cost" []
      else do
        let vs ← mkVars l
        mkNFun n (vs.map Term.var)
  | _ => .error .lark

/-- `f_typed_list_atomic_function_skeleton` (grammar.lark:15-18), the tokens of it. -/
def functionToks : Bool → List Tree → Except Exc (List TTok)
  | _, [] => pure []
  | true, .atom .minus :: .atom (.name t) :: ts => do
    check (decide (t = s%"number")) .lark
    let r ← functionToks false ts
    pure (.str s%"-" :: .str t :: r)
  | _, .node b :: ts => do
    let f ← functionSkeleton (.node b)
    let r ← functionToks true ts
    pure (.fn f :: r)
  | _, _ => .error .lark

/-- The callbacks `f_typed_list_atomic_function_skeleton` (domain.py:498-504) and `functions`
(domain.py:149-153). -/
def sectionFunctions (body : List Tree) : Except Exc FunDict := do
  let toks ← functionToks false body
  check (decide (1 ≤ body.length)) .lark
  typedListError toks do
    let x ← parseTypedList false toks
    let l ← x.names
    pure (l.filterMap (fun p => match p.1 with | .fn f => some (f, p.2) | .name _ => none))

/-- The callback `action_parameters` (domain.py:222-227). -/
def actionParameters (body : List Tree) : Except Exc (List (Str × Term)) := do
  let vs ← parseTypedVars body
  pure (dictOf (vs.map (fun v => (v.name, Term.var v))))

/-- `emptyor_pregd` (grammar.lark:29-30, domain.py:229-235): `()` is `Or()`. -/
def GEnv.preGd (E : GEnv) : Tree → Except Exc Expr
  | .node [] => pure (mkOr [])
  | t => E.gd t

/-- `emptyor_effect` (grammar.lark:41-42, domain.py:334-339): `()` is `Or()`. -/
def GEnv.effOpt (E : GEnv) : Tree → Except Exc Expr
  | .node [] => pure (mkOr [])
  | t => E.effect true t

/-- The optional precondition of `action_def` and what follows it
(pddl/parser/grammar.lark:23-25, pddl/parser/domain.py:155-165). -/
def actionPre (E : GEnv) (body : List Tree) : Except Exc (Option Expr × List Tree) :=
  match body with
  | .atom (.kw k) :: t :: rest =>
    if k = s%"precondition" then do
      let e ← E.preGd t
      pure (some e, rest)
    else pure (none, body)
  | _ => pure (none, body)

/-- The optional effect of `action_def`, up to the end
(pddl/parser/grammar.lark:23-25, pddl/parser/domain.py:155-165). -/
def actionEff (E : GEnv) : List Tree → Except Exc (Option Expr)
  | [] => pure none
  | [.atom (.kw k), t] => do
    check (decide (k = s%"effect")) .lark
    let e ← E.effOpt t
    pure (some e)
  | _ => .error .lark

/-- `action_def` (grammar.lark:23-25, domain.py:155-165). If the precondition or the effect
is absent, lark puts `None` for the keyword and `None[1:]` is a `TypeError`. -/
def actionDef (F : FloatOf) (σ : PState) : List Tree → Except Exc (Action × PState)
  | .atom (.name n) :: .atom (.kw k) :: .node ps :: body => do
    check (decide (k = s%"parameters")) .lark
    let params ← actionParameters ps
    let σ' := { σ with params := params }
    let (pre, rest) ← actionPre (σ'.env F) body
    let eff ← actionEff (σ'.env F) rest
    match pre, eff with
    | some p, some e => do
      let a ← mkAction n (params.map Prod.snd) (some p) (some e)
      pure (a, σ')
    | _, _ => .error .type_
  | _ => .error .lark

/-- `derived_predicates` (grammar.lark:26, domain.py:167-220). -/
def derivedDef (F : FloatOf) (σ : PState) : List Tree → Except Exc Derived
  | [h, c] => do
    let head ← formulaSkeleton h
    let cond ← (σ.env F).gd c
    derivedPredicate σ.types σ.preds head cond
  | _ => .error .lark

/-- `structure_def*` (grammar.lark:3, 22), with the loop of the callback `domain` that
separates actions and derived predicates (domain.py:95-102). -/
def structures (F : FloatOf) : PState → List Tree → Except Exc (List Action × List Derived × PState)
  | σ, [] => pure ([], [], σ)
  | σ, .node (.atom (.kw k) :: body) :: ts =>
    if k = s%"action" then do
      let (a, σ') ← actionDef F σ body
      let (as, ds, σ'') ← structures F σ' ts
      pure (a :: as, ds, σ'')
    else if k = s%"derived" then do
      let d ← derivedDef F σ body
      let (as, ds, σ'') ← structures F σ ts
      pure (as, d :: ds, σ'')
    else .error .lark
  | _, _ => .error .lark

/-- `define` followed by `(domain name)` or `(problem name)` (grammar.lark:3-4, 107-108):
the name and what follows. -/
def header (k : Str) (ts : List Tree) : Except Exc (Str × List Tree) :=
  match dropKeyword s%"define" ts with
  | some (.node h :: rest) =>
    match dropKeyword k h with
    | some [.atom (.name n)] => pure (n, rest)
    | _ => .error .lark
  | _ => .error .lark

/-- An optional section: its result, or the default if the section is absent
(the brackets of pddl/parser/grammar.lark:3, 107). -/
def optSection {α : Type} (sec : Option (List Tree)) (dflt : α) (f : List Tree → Except Exc α) :
    Except Exc α :=
  match sec with
  | none => pure dflt
  | some body => f body

/-- `requirements` (grammar.lark:6, domain.py:111-116): the requirements, and the extended ones as
state. -/
def sectionRequirements (σ : PState) (body : List Tree) : Except Exc (List Req × PState) := do
  let rs ← parseRequirements body
  pure (rs, { σ with ext := extendReqs rs })

/-- `domain` (grammar.lark:3, domain.py:89-105): the sections in order, then
`Domain(**kwargs)`. `self._types` is reset before the domain is built. -/
def domainDef (F : FloatOf) (σ : PState) (ts : List Tree) : Except Exc (Domain × PState) := do
  let (n, ts) ← header s%"domain" ts
  let s1 := takeSection s%"requirements" ts
  let (rs, σ) ← optSection s1.1 ([], σ) (sectionRequirements σ)
  let s2 := takeSection s%"types" s1.2
  let (types, σ) ← optSection s2.1 ([], σ) (sectionTypes σ)
  let s3 := takeSection s%"constants" s2.2
  let (consts, σ) ← optSection s3.1 ([], σ) (sectionConstants σ)
  let s4 := takeSection s%"predicates" s3.2
  let (preds, σ) ← optSection s4.1 ([], σ) (sectionPredicates σ)
  let s5 := takeSection s%"functions" s4.2
  let funs ← optSection s5.1 [] sectionFunctions
  let (as, ds, σ) ← structures F σ s5.2
  let d ← mkDomain { name := n, reqs := rs, types := types, constants := consts,
                     predicates := preds, functions := funs, derived := ds, actions := as }
  pure (d, { σ with types := none })

/-- The bracket trees of a text (pddl/parser/grammar.lark:152-239). -/
def readText (t : Str) : Except Exc (List Tree) :=
  match readTrees (lex t) with
  | some ts => pure ts
  | none => .error .lark

/-- `DomainParser.__call__` (pddl/parser/base.py:44-46) on a parser in state `σ`: the domain
and the next state. What a failing call leaves behind is in `Model/History.lean`. -/
def parseDomain (F : FloatOf) (σ : PState) (t : Str) : Except Exc (Domain × PState) := do
  let trees ← readText t
  match trees with
  | [.node ts] => domainDef F σ ts
  | _ => .error .lark

end Pddl
