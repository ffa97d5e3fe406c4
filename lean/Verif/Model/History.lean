/-
The state a parser object is left in by a call that fails, and calls one after another.
`Lark` is given the transformer (pddl/parser/base.py:36-42): callbacks run while the text is read, from
left to right, so a failing call keeps what the callbacks before the failure have stored.
-/
import Verif.Model.ParseProblem

namespace Pddl

/-- The state after actions and derived predicates of which one fails: the parameters of a failing action
have been stored if their list is in order (pddl/parser/domain.py:155-165, 222-227). -/
def structuresLeft (F : FloatOf) : PState → List Tree → PState
  | σ, .node (.atom (.kw k) :: body) :: ts =>
    if k = s%"action" then
      match actionDef F σ body with
      | .ok (_, σ') => structuresLeft F σ' ts
      | .error _ =>
        match body with
        | .atom (.name _) :: .atom (.kw _) :: .node ps :: _ =>
          match actionParameters ps with
          | .ok params => { σ with params := params }
          | .error _ => σ
        | _ => σ
    else if k = s%"derived" then
      match derivedDef F σ body with
      | .ok _ => structuresLeft F σ ts
      | .error _ => σ
    else σ
  | σ, _ => σ

/-- The state after the sections of a domain that fails: that of the sections before the failing one.
Exact for texts that follow the grammar; simplified for syntax errors (a section is reduced only when the
token after it is acceptable). `self._types` is reset before `Domain(**kwargs)` is called
(domain.py:104-105). -/
def domainLeft (F : FloatOf) (σ : PState) (ts : List Tree) : PState :=
  match header s%"domain" ts with
  | .error _ => σ
  | .ok (_, ts) =>
    let s1 := takeSection s%"requirements" ts
    match optSection s1.1 ([], σ) (sectionRequirements σ) with
    | .error _ => σ
    | .ok (_, σ) =>
      let s2 := takeSection s%"types" s1.2
      match optSection s2.1 ([], σ) (sectionTypes σ) with
      | .error _ => σ
      | .ok (_, σ) =>
        let s3 := takeSection s%"constants" s2.2
        match optSection s3.1 ([], σ) (sectionConstants σ) with
        | .error _ => σ
        | .ok (_, σ) =>
          let s4 := takeSection s%"predicates" s3.2
          match optSection s4.1 ([], σ) (sectionPredicates σ) with
          | .error _ => σ
          | .ok (_, σ) =>
            let s5 := takeSection s%"functions" s4.2
            match optSection s5.1 [] sectionFunctions with
            | .error _ => σ
            | .ok _ =>
              match structures F σ s5.2 with
              | .error _ => structuresLeft F σ s5.2
              | .ok (_, _, σ) => { σ with types := none }

/-- Everything that is read before `Domain(**kwargs)` is called (domain.py:89-105): its arguments, and the
state at that point. -/
def domainKwargs (F : FloatOf) (σ : PState) (ts : List Tree) : Except Exc (DomainArgs × PState) := do
  let (n, ts) ← header s%"domain" ts
  let s1 := takeSection s%"requirements" ts
  let (rs, σ) ← optSection s1.1 ([], σ) (sectionRequirements σ)
  let s2 := takeSection s%"types" s1.2
  let (types, σ) ← optSection s2.1 ([], σ) (sectionTypes σ)
  let s3 := takeSection s%"constants" s2.2
  let (consts, σ) ← optSection s3.1 ([], σ) (sectionConstants σ)
  let s4 := takeSection s%"predicates" s3.2
  let (preds, σ) ← optSection s4.1 ([], σ) (sectionPredicates σ)
  let s5 := takeSection s%"functions" s4.2
  let funs ← optSection s5.1 [] sectionFunctions
  let (as, ds, σ) ← structures F σ s5.2
  pure ({ name := n, reqs := rs, types := types, constants := consts,
          predicates := preds, functions := funs, derived := ds, actions := as }, σ)

/-- A call of a domain parser in state `σ`: the outcome and the next state (pddl/parser/base.py:44-46). -/
def callDomain (F : FloatOf) (σ : PState) (t : Str) : Except Exc Domain × PState :=
  match parseDomain F σ t with
  | .ok (d, σ') => (.ok d, σ')
  | .error e =>
    (.error e, match readText t with
      | .ok [.node ts] => domainLeft F σ ts
      | _ => σ)

/-- The state of a domain parser after calls on the texts (pddl/parser/base.py:44-46). -/
def afterCalls (F : FloatOf) (texts : List Str) : PState :=
  texts.foldl (fun σ t => (callDomain F σ t).2) .fresh

end Pddl
