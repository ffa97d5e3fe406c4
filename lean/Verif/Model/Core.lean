/-
pddl/core.py: Domain, Problem, Plan (construction and checks).
-/
import Verif.Model.Validation

namespace Pddl

/-- A `Domain` (pddl/core.py:48-159). -/
structure Domain where
  name : Str
  reqs : List Req
  types : TypeDict
  constants : List Term
  predicates : List Pred
  functions : FunDict
  derived : List Derived
  actions : List Action

/-- Arguments of `Domain(...)`; `None` for a collection means empty (pddl/core.py:51-63). -/
structure DomainArgs where
  name : Str
  reqs : List Req := []
  types : TypeDict := []
  constants : List Term := []
  predicates : List Pred := []
  functions : FunDict := []
  derived : List Derived := []
  actions : List Action := []

/-- `Domain._check_consistency` (pddl/core.py:89-105). -/
def Domain.checkConsistency (d : Domain) : Except Exc Unit := do
  let c : TCtx := ⟨typesAll d.types, d.reqs⟩
  checkEach c.checkTerm d.constants
  checkEach c.checkExpr (d.predicates.map Expr.pred)
  checkEach c.checkAction d.actions
  checkHasTerms c.all (d.actions.map Action.params)
  checkHasTerms c.all (d.derived.map (fun dp => dp.pred.terms))

/-- `Domain(...)` (pddl/core.py:51-87). -/
def mkDomain (a : DomainArgs) : Except Exc Domain := do
  let n ← parseName a.name
  let rs := reqSet a.reqs
  let ts ← mkTypes a.types rs
  checkTotalCost a.functions rs
  let d : Domain :=
    { name := n, reqs := rs, types := ts,
      constants := dedupBy Term.pyEq a.constants
      predicates := dedupBy Pred.pyEq a.predicates
      functions := a.functions
      derived := dedupBy Derived.pyEq a.derived
      actions := dedupBy Action.pyEq a.actions }
  d.checkConsistency
  pure d

/-- Equality of dictionaries with string keys (pddl/core.py:153). -/
def typeDictEq (a b : TypeDict) : Bool :=
  a.all (fun p => decide (dictGet b p.1 = some p.2)) &&
  b.all (fun p => decide (dictGet a p.1 = some p.2))

/-- `d.get(f)` on a functions dictionary (pddl/core.py:156). -/
def funDictGet (d : FunDict) (f : NFun) : Option (Option Str) :=
  match d.find? (fun p => f.pyEq p.1) with
  | some p => some p.2
  | none => none

/-- Equality of functions dictionaries (pddl/core.py:156). -/
def funDictEq (a b : FunDict) : Bool :=
  a.all (fun p => decide (funDictGet b p.1 = some p.2)) &&
  b.all (fun p => decide (funDictGet a p.1 = some p.2))

/-- Equality of requirement sets (pddl/core.py:152, 281, 370). -/
def reqsEq (a b : List Req) : Bool := setEqBy (fun x y => decide (x = y)) a b

/-- `Domain.__eq__` (pddl/core.py:147-159). -/
def Domain.pyEq (a b : Domain) : Bool :=
  decide (a.name = b.name) && reqsEq a.reqs b.reqs && typeDictEq a.types b.types &&
  setEqBy Term.pyEq a.constants b.constants && setEqBy Pred.pyEq a.predicates b.predicates &&
  funDictEq a.functions b.functions && setEqBy Derived.pyEq a.derived b.derived &&
  setEqBy Action.pyEq a.actions b.actions

/-- A `Problem` (pddl/core.py:194-375). -/
structure Problem where
  name : Str
  domain : Option Domain
  domainName_ : Str
  reqs_ : Option (List Req)
  objects : List Term
  init : List Expr
  goal : Expr
  metric : Option Metric

/-- Arguments of `Problem(...)` (pddl/core.py:197-207). -/
structure ProblemArgs where
  name : Str
  domain : Option Domain := none
  domainName : Option Str := none
  reqs : Option (List Req) := none
  objects : List Term := []
  init : List Expr := []
  goal : Option Expr := none
  metric : Option Metric := none

/-- The property `domain_name` (pddl/core.py:326-333). -/
def Problem.domainName (p : Problem) : Str :=
  match p.domain with
  | some d => d.name
  | none => p.domainName_

/-- The property `requirements` (pddl/core.py:335-341). -/
def Problem.reqs (p : Problem) : List Req :=
  match p.domain with
  | some d => d.reqs
  | none => p.reqs_.getD []

/-- `str.lower` on ASCII text (names are ASCII) (pddl/core.py:295). -/
def lowerC (c : Char) : Char :=
  if 65 ≤ c.toNat ∧ c.toNat ≤ 90 then Char.ofNat (c.toNat + 32) else c

/-- `str.lower` (pddl/core.py:295). -/
def lower (s : Str) : Str := s.map lowerC

/-- `Problem.check` (pddl/core.py:292-306). -/
def Problem.check (p : Problem) (d : Domain) : Except Exc Unit := do
  Pddl.check (decide (lower p.domainName = lower d.name)) .validation
  Pddl.check (match p.reqs_ with
    | none => true
    | some rs => rs.all (fun r => decide (r ∈ d.reqs))) .validation
  let types ← toTypes d.types
  let c : TCtx := ⟨typesAll types, d.reqs⟩
  checkEach c.checkTerm p.objects
  checkEach c.checkExpr p.init
  c.checkExpr p.goal

/-- `_check_consistency` (pddl/core.py:287-290). -/
def Problem.checkConsistency (p : Problem) : Except Exc Unit :=
  match p.domain with
  | some d => p.check d
  | none => .ok ()

/-- `_parse_domain_and_domain_name` (pddl/core.py:240-261). -/
def parseDomainName (domain : Option Domain) (dn : Option Str) : Except Exc Str :=
  match domain, dn with
  | some d, some n => do
    check (decide (d.name = n)) .value
    parseName n
  | some d, none => pure d.name
  | none, some n => parseName n
  | none, none => .error .value

/-- `_parse_requirements` (pddl/core.py:263-285). -/
def parseReqs (domain : Option Domain) (rs : Option (List Req)) :
    Except Exc (Option (List Req)) :=
  match rs, domain with
  | none, none => pure none
  | none, some d => pure (some d.reqs)
  | some rs, none => pure (some (reqSet rs))
  | some rs, some d => do
    check (reqsEq rs d.reqs) .value
    pure (some d.reqs)

/-- `Problem(...)` (pddl/core.py:197-238). -/
def mkProblem (a : ProblemArgs) : Except Exc Problem := do
  let n ← parseName a.name
  let dn ← parseDomainName a.domain a.domainName
  let rs ← parseReqs a.domain a.reqs
  let p : Problem :=
    { name := n, domain := a.domain, domainName_ := dn, reqs_ := rs,
      objects := dedupBy Term.pyEq a.objects
      init := dedupBy Expr.pyEq a.init
      goal := a.goal.getD (mkAnd [])
      metric := a.metric }
  check (p.init.all isLiteral) .validation
  p.checkConsistency
  pure p

/-- The domain setter (pddl/core.py:319-324): the new state of the object, and
the outcome of the consistency check made after the assignment. -/
def Problem.setDomain (p : Problem) (d : Domain) : Problem × Except Exc Unit :=
  let p' := { p with domainName_ := d.name, domain := some d }
  (p', p'.checkConsistency)

/-- Equality of optional metrics (pddl/core.py:374). -/
def metricEq : Option Metric → Option Metric → Bool
  | none, none => true
  | some a, some b => a.pyEq b
  | _, _ => false

/-- Equality of optional domains (pddl/core.py:368). -/
def domOptEq : Option Domain → Option Domain → Bool
  | none, none => true
  | some a, some b => a.pyEq b
  | _, _ => false

/-- `Problem.__eq__` (pddl/core.py:363-375). -/
def Problem.pyEq (a b : Problem) : Bool :=
  decide (a.name = b.name) && domOptEq a.domain b.domain &&
  decide (a.domainName = b.domainName) && reqsEq a.reqs b.reqs &&
  setEqBy Term.pyEq a.objects b.objects && setEqBy Expr.pyEq a.init b.init &&
  a.goal.pyEq b.goal && metricEq a.metric b.metric

/-- A `Plan` (pddl/core.py:395-459): steps of an action name and constants. -/
structure Plan where
  steps : List (Str × List Term)

/-- `Plan.__eq__` (pddl/core.py:450-452). -/
def stepsEq : List (Str × List Term) → List (Str × List Term) → Bool
  | [], [] => true
  | a :: as, b :: bs => decide (a.1 = b.1) && termsEq a.2 b.2 && stepsEq as bs
  | _, _ => false

/-- `Plan.__eq__` (pddl/core.py:450-452). -/
def Plan.pyEq (a b : Plan) : Bool := stepsEq a.steps b.steps

/-- `{action.name: action for action in domain.actions}` (pddl/core.py:413, 425). -/
def Domain.schemas (d : Domain) : List (Str × Action) :=
  dictOf (d.actions.map (fun a => (a.name, a)))

/-- The loop of `Plan.instantiate` (pddl/core.py:411-421). -/
def instSteps (schemas : List (Str × Action)) :
    List (Str × List Term) → Except Exc (List Action)
  | [] => pure []
  | (n, args) :: rest =>
    match dictGet schemas n with
    | none => .error .value
    | some a => do
      let g ← a.inst args
      let gs ← instSteps schemas rest
      pure (g :: gs)

/-- `Plan.instantiate` (pddl/core.py:411-421). -/
def Plan.inst (p : Plan) (d : Domain) : Except Exc (List Action) := instSteps d.schemas p.steps

/-- The loop of `Plan.check` (pddl/core.py:423-441). `name_to_schema[name]` is
evaluated after the test that the name is known; `KeyError` otherwise. -/
def checkSteps (schemas : List (Str × Action)) (names : List Str) (objs : List Term) :
    List (Str × List Term) → Except Exc Unit
  | [] => .ok ()
  | (n, args) :: rest => do
    check (decide (n ∈ names)) .validation
    match dictGet schemas n with
    | none => .error .key
    | some a => do
      check (decide (args.length = a.params.length)) .validation
      check (args.all (fun t => memBy Term.pyEq t objs)) .validation
      checkSteps schemas names objs rest

/-- `Plan.check` (pddl/core.py:423-441). -/
def Plan.check (p : Plan) (d : Domain) (pr : Problem) : Except Exc Unit :=
  checkSteps d.schemas (d.actions.map Action.name)
    (dedupBy Term.pyEq (pr.objects ++ d.constants)) p.steps

end Pddl
