/-
pddl/requirements.py and `RequirementSymbols` of pddl/parser/symbols.py.
-/
import Verif.Model.Py

namespace Pddl

/-- The enum `Requirements` (pddl/requirements.py:23-41). -/
inductive Req
  | strips | typing | negPrecondition | disPrecondition | universalPrecondition
  | existentialPrecondition | quantifiedPrecondition | equality | conditionalEffects
  | adl | derivedPredicates | nonDeterministic | fluents | objectFluents
  | numericFluents | actionCosts
  deriving DecidableEq, Repr

/-- The value of a requirement: its symbol without the colon
(pddl/parser/symbols.py:80-102). -/
def Req.value : Req → Str
  | .strips => s%"strips"
  | .typing => s%"typing"
  | .negPrecondition => s%"negative-preconditions"
  | .disPrecondition => s%"disjunctive-preconditions"
  | .universalPrecondition => s%"universal-preconditions"
  | .existentialPrecondition => s%"existential-preconditions"
  | .quantifiedPrecondition => s%"quantified-preconditions"
  | .equality => s%"equality"
  | .conditionalEffects => s%"conditional-effects"
  | .adl => s%"adl"
  | .derivedPredicates => s%"derived-predicates"
  | .nonDeterministic => s%"non-deterministic"
  | .fluents => s%"fluents"
  | .objectFluents => s%"object-fluents"
  | .numericFluents => s%"numeric-fluents"
  | .actionCosts => s%"action-costs"

/-- All members of the enum (pddl/requirements.py:26-41). -/
def Req.all : List Req :=
  [.strips, .typing, .negPrecondition, .disPrecondition, .universalPrecondition,
   .existentialPrecondition, .quantifiedPrecondition, .equality, .conditionalEffects,
   .adl, .derivedPredicates, .nonDeterministic, .fluents, .objectFluents,
   .numericFluents, .actionCosts]

/-- `str(requirement)` (pddl/requirements.py:71-73). -/
def Req.str (r : Req) : Str := ':' :: r.value

/-- `Requirements.__lt__` (pddl/requirements.py:79-84): note the `<=`. -/
def Req.lt (a b : Req) : Bool := strLe a.value b.value

/-- `Requirements(value)`: lookup by value, `ValueError` when there is none
(called at pddl/parser/domain.py:111-116, pddl/parser/problem.py:72-74). -/
def Req.ofValue (v : Str) : Except Exc Req :=
  match Req.all.find? (fun r => decide (r.value = v)) with
  | some r => .ok r
  | none => .error .value

/-- `quantified_precondition_requirements` (pddl/requirements.py:43-49). -/
def quantifiedReqs : List Req := [.universalPrecondition, .existentialPrecondition]

/-- `adl_requirements` (pddl/requirements.py:51-61). -/
def adlReqs : List Req :=
  [.strips, .typing, .negPrecondition, .disPrecondition, .equality, .conditionalEffects]
    ++ quantifiedReqs

/-- `fluents_requirements` (pddl/requirements.py:63-69). -/
def fluentsReqs : List Req := [.objectFluents, .numericFluents]

/-- Set of requirements from a collection (called at pddl/requirements.py:87-100). -/
def reqSet (l : List Req) : List Req := dedupBy (fun a b => decide (a = b)) l

/-- `_extend_domain_requirements` (pddl/requirements.py:87-100): `set.update`
three times. -/
def extendReqs (rs : List Req) : List Req :=
  let e0 := rs
  let e1 := if Req.quantifiedPrecondition ∈ rs then e0 ++ quantifiedReqs else e0
  let e2 := if Req.adl ∈ rs then e1 ++ adlReqs else e1
  let e3 := if Req.fluents ∈ rs then e2 ++ fluentsReqs else e2
  reqSet e3

end Pddl
