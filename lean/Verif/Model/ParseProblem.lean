/-
pddl/parser/problem.py and pddl/parser/plan.py.
-/
import Verif.Model.ParseDomain

namespace Pddl

/-- The environment of the formula callbacks of `ProblemTransformer`: they are those of a
`DomainTransformer` that never sees a requirement or a parameter (problem.py:48, 143-146,
166-176, 208-215). `typed_list_variable` has no callback there: its result is a lark tree,
which nothing reads, since the requirement test of `gd_quantifiers` fails first. -/
def goalEnv (F : FloatOf) : GEnv :=
  ⟨F, [], fun n => mkConst n none, [], fun _ => pure []⟩

/-- One name of `atomic_formula_name` (problem.py:156-163): `_objects_by_name` or a new
constant without type. -/
def initTerm (objs : List (Str × Term)) (n : Str) : Except Exc Term :=
  match dictGet objs n with
  | some t => pure t
  | none => mkConst n none

/-- `atomic_formula_name` (grammar.lark:124, problem.py:148-164). The test for `=` never
succeeds: the predicate is a `NAME`. -/
def atomicName (objs : List (Str × Term)) : List Tree → Except Exc Expr
  | .atom (.name p) :: args =>
    match namesOnly args with
    | none => .error .lark
    | some ns => do
      let ts ← ns.mapM (initTerm objs)
      let q ← mkPred p ts
      pure (.pred q)
  | _ => .error .lark

/-- `basic_function_term` (grammar.lark:121-122, problem.py:131-137). -/
def basicFunction : Tree → Except Exc NFun
  | .atom (.name n) => mkNFun n []
  | .node (.atom (.name n) :: args) =>
    match namesOnly args with
    | none => .error .lark
    | some ns => do
      let ts ← ns.mapM (fun n => mkConst n none)
      mkNFun n ts
  | _ => .error .lark

/-- `init_el` and `literal_name` (grammar.lark:115-119, problem.py:109-129). -/
def initEl (F : FloatOf) (objs : List (Str × Term)) : Tree → Except Exc Expr
  | .node (.atom .eq :: args) =>
    match args with
    | [f, .atom (.num s)] => do
      let f' ← basicFunction f
      let n ← numLiteral F s
      pure (construct (.fop .eq) [.nfun f', .num n])
    | _ => .error .lark
  | .node (.atom (.name w) :: args) =>
    if w = s%"not" then
      match args with
      | [.node a] => do
        let e ← atomicName objs a
        pure (.not e)
      | _ => .error .lark
    else atomicName objs (.atom (.name w) :: args)
  | _ => .error .lark

mutual
/-- `metric_f_exp` (grammar.lark:133-137, problem.py:187-206). The number stays a string. -/
def metricExp : Tree → Except Exc Expr
  | .atom (.num s) => pure (.num (.str s))
  | .node (.atom .plus :: args) => do
    let es ← metricExps args
    check (decide (2 ≤ args.length)) .lark
    pure (construct (.fop .plus) es)
  | .node (.atom .times :: args) => do
    let es ← metricExps args
    check (decide (2 ≤ args.length)) .lark
    pure (construct (.fop .times) es)
  | .node (.atom .divide :: args) => do
    let es ← metricExps args
    check (decide (args.length = 2)) .lark
    pure (construct (.fop .divide) es)
  | .node (.atom .minus :: args) => do
    let es ← metricExps args
    check (decide (args.length = 1)) .lark
    pure (construct (.fop .minus) es)
  | .atom (.name n) => do
    let f ← basicFunction (.atom (.name n))
    pure (.nfun f)
  | .node (.atom (.name n) :: args) => do
    let f ← basicFunction (.node (.atom (.name n) :: args))
    pure (.nfun f)
  | _ => .error .lark
/-- `metric_f_exp*`, in turn (pddl/parser/grammar.lark:133-137). -/
def metricExps : List Tree → Except Exc (List Expr)
  | [] => pure []
  | t :: ts => do
    let e ← metricExp t
    let es ← metricExps ts
    pure (e :: es)
end

/-- `metric_spec` (grammar.lark:128-131, problem.py:178-185): after `:metric` only the two
keywords are accepted. -/
def metricSpec (body : List Tree) : Except Exc Metric :=
  match dropKeyword s%"maximize" body with
  | some [t] => do
    let e ← metricExp t
    pure ⟨e, true⟩
  | some _ => .error .lark
  | none =>
    match dropKeyword s%"minimize" body with
    | some [t] => do
      let e ← metricExp t
      pure ⟨e, false⟩
    | _ => .error .lark

/-- `problem_domain` (grammar.lark:109, problem.py:68-70). -/
def problemDomain (ts : List Tree) : Except Exc (Str × List Tree) :=
  match takeSection s%"domain" ts with
  | (some [.atom (.name dn)], ts) => pure (dn, ts)
  | _ => .error .lark

/-- `problem_requirements` (grammar.lark:6, problem.py:72-74). -/
def problemRequirements (body : List Tree) : Except Exc (Option (List Req)) := do
  let rs ← parseRequirements body
  pure (some rs)

/-- `objects` (grammar.lark:112, problem.py:76-82): the constants, and `_objects_by_name`. -/
def problemObjects (body : List Tree) : Except Exc (List Term × List (Str × Term)) := do
  let d ← parseTypedNames body
  let cs ← mkConsts d
  let cs := dictOf cs
  pure (cs.map Prod.snd, cs)

/-- `init` (grammar.lark:114, problem.py:100-107). -/
def problemInit (F : FloatOf) (σ : List (Str × Term)) (ts : List Tree) :
    Except Exc (List Expr × List Tree) :=
  match takeSection s%"init" ts with
  | (some body, ts) => do
    let es ← body.mapM (initEl F σ)
    pure (es, ts)
  | _ => .error .lark

/-- `goal` (grammar.lark:126, problem.py:139-141). -/
def problemGoal (F : FloatOf) (ts : List Tree) : Except Exc (Expr × List Tree) :=
  match takeSection s%"goal" ts with
  | (some [t], ts) => do
    let e ← (goalEnv F).gd t
    pure (e, ts)
  | _ => .error .lark

/-- The optional metric, up to the end of the text
(pddl/parser/grammar.lark:107, 128; pddl/parser/problem.py:178-185). -/
def problemMetric (ts : List Tree) : Except Exc (Option Metric) :=
  match ts with
  | [] => pure none
  | ts => match takeSection s%"metric" ts with
    | (some body, []) => do
      let m ← metricSpec body
      pure (some m)
    | _ => .error .lark

/-- `problem` (grammar.lark:107-128, problem.py:55-62). The state is `_objects_by_name`. -/
def problemDef (F : FloatOf) (σ : List (Str × Term)) (ts : List Tree) :
    Except Exc (Problem × List (Str × Term)) := do
  let (n, ts) ← header s%"problem" ts
  let (dn, ts) ← problemDomain ts
  let s1 := takeSection s%"requirements" ts
  let reqs ← optSection s1.1 none problemRequirements
  let s2 := takeSection s%"objects" s1.2
  let (objs, σ) ← optSection s2.1 ([], σ) problemObjects
  let (init, ts) ← problemInit F σ s2.2
  let (goal, ts) ← problemGoal F ts
  let metric ← problemMetric ts
  let p ← mkProblem { name := n, domain := none, domainName := some dn, reqs := reqs,
                      objects := objs, init := init, goal := some goal, metric := metric }
  pure (p, σ)

/-- `ProblemParser.__call__` (pddl/parser/base.py:44-46) on a parser in state `σ`. -/
def parseProblem (F : FloatOf) (σ : List (Str × Term)) (t : Str) :
    Except Exc (Problem × List (Str × Term)) := do
  let trees ← readText t
  match trees with
  | [.node ts] => problemDef F σ ts
  | _ => .error .lark

/-- `ground_action` (grammar.lark:148, plan.py:31-39): the name is not checked. -/
def groundAction : Tree → Except Exc (Str × List Term)
  | .node (.atom (.name n) :: args) =>
    match namesOnly args with
    | none => .error .lark
    | some ns => do
      let ts ← ns.mapM (fun n => mkConst n none)
      pure (n, ts)
  | _ => .error .lark

/-- `PlanParser.__call__` (grammar.lark:147, plan.py:41-44); the transformer has no state. -/
def parsePlan (t : Str) : Except Exc Plan := do
  let trees ← readText t
  let steps ← trees.mapM groundAction
  pure ⟨steps⟩

end Pddl
