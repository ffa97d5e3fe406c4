/-
pddl/parser/base.py (`_call_parser`: the traceback limit) and pddl/__main__.py.
-/
import Verif.Model.ParseProblem
import Verif.Model.Print

namespace Pddl

/-- `sys.tracebacklimit`: not set, `None`, or a number (pddl/parser/base.py:61-68). -/
inductive TbLimit
  | absent
  | pyNone
  | int (i : Int)
  deriving DecidableEq, Repr

/-- `getattr(sys, "tracebacklimit", None)` (pddl/parser/base.py:61). -/
def TbLimit.get : TbLimit → TbLimit
  | .absent => .pyNone
  | t => t

/-- `BaseParser._call_parser` (pddl/parser/base.py:48-69): `parse` is the call
`parser.parse(text)` as a function of the limit in force; the result and the limit afterwards.
The value `None` is assigned after a successful parse (line 63); the `finally` clause
(65-67) restores the old value only if it was not `None`. -/
def callParser {α} (parse : TbLimit → Except Exc α) (limit : TbLimit) : Except Exc α × TbLimit :=
  let old := limit.get
  let limit := TbLimit.int 0
  match parse limit with
  | .ok r =>
    let limit := TbLimit.pyNone
    (.ok r, if old ≠ .pyNone then old else limit)
  | .error e => (.error e, if old ≠ .pyNone then old else limit)

/-- A history of parser calls in one interpreter: the limit after them (pddl/parser/base.py:48-69). -/
def callHistory {α} : List (TbLimit → Except Exc α) → TbLimit → TbLimit
  | [], l => l
  | p :: ps, l => callHistory ps (callParser p l).2

/-- The command line tool (pddl/__main__.py:38-52), on the texts of the files; a file that
is not given is `none`. Returns what is printed to the terminal and the outcome. With
`--quiet` the output goes to the null device (line 41). `parse_domain`, `parse_problem` and
`parse_plan` (pddl/__init__.py) use a new parser each. A plan file can only be given with a
problem file. -/
def cli (F : FloatOf) (domainText : Str) (problemText planText : Option Str) (quiet : Bool) :
    List Str × Except Exc Unit :=
  let out (l : List Str) : List Str := if quiet then [] else l
  match parseDomain F .fresh domainText with
  | .error e => (out [], .error e)
  | .ok (d, _) =>
    match d.str with
    | .error e => (out [], .error e)
    | .ok ds =>
      match problemText with
      | none => (out [ds], .ok ())
      | some pt =>
        match parseProblem F [] pt with
        | .error e => (out [ds], .error e)
        | .ok (p, _) =>
          match p.check d with
          | .error e => (out [ds], .error e)
          | .ok () =>
            match planText with
            | none => (out [ds, p.str], .ok ())
            | some t =>
              match parsePlan t with
              | .error e => (out [ds, p.str], .error e)
              | .ok pl =>
                match pl.check d p with
                | .error e => (out [ds, p.str], .error e)
                | .ok () => (out [ds, p.str, pl.str], .ok ())

end Pddl
