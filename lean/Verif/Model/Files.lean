/-
pddl/__init__.py: parsing files; and pddl/__main__.py on files.
-/
import Verif.Model.Cli

namespace Pddl

/-- Why reading a file fails: `OSError` of `open`, `UnicodeDecodeError` of `read`, or an exception of the parser
(pddl/__init__.py:31-52). -/
inductive FileExc
  | os
  | decode
  | exc (e : Exc)
  deriving DecidableEq, Repr

/-- What the interpreter sees of the outside: the contents of the files that can be opened, and the decoding of the
locale's encoding (pddl/__init__.py:31-52). -/
structure Files where
  bytes : Str → Option (List UInt8)
  decode : List UInt8 → Option Str

/-- Universal newlines: in text mode `\r\n` and `\r` are read as `\n` (the `open` of pddl/__init__.py:31-52). -/
def newlines : Str → Str
  | [] => []
  | c :: cs =>
    if c = '\r' then
      match cs with
      | '\n' :: r => '\n' :: newlines r
      | r => '\n' :: newlines r
    else c :: newlines cs

/-- `with open(fn, "r") as f: f.read()` (pddl/__init__.py:34-35). -/
def Files.read (fs : Files) (fn : Str) : Except FileExc Str :=
  match fs.bytes fn with
  | none => .error .os
  | some b =>
    match fs.decode b with
    | none => .error .decode
    | some s => .ok (newlines s)

/-- The outcome of a parser inside such a function (pddl/__init__.py:31-52). -/
def toFile {α} : Except Exc α → Except FileExc α
  | .ok a => .ok a
  | .error e => .error (.exc e)

/-- `parse_domain` (pddl/__init__.py:31-36), with a new parser. -/
def parseDomainFile (F : FloatOf) (fs : Files) (fn : Str) : Except FileExc Domain :=
  match fs.read fn with
  | .error e => .error e
  | .ok t =>
    match parseDomain F .fresh t with
    | .ok (d, _) => .ok d
    | .error e => .error (.exc e)

/-- `parse_problem` (pddl/__init__.py:39-44). -/
def parseProblemFile (F : FloatOf) (fs : Files) (fn : Str) : Except FileExc Problem :=
  match fs.read fn with
  | .error e => .error e
  | .ok t =>
    match parseProblem F [] t with
    | .ok (p, _) => .ok p
    | .error e => .error (.exc e)

/-- `parse_plan` (pddl/__init__.py:47-52). -/
def parsePlanFile (fs : Files) (fn : Str) : Except FileExc Plan :=
  match fs.read fn with
  | .error e => .error e
  | .ok t => toFile (parsePlan t)

/-- The command line tool on files (pddl/__main__.py:38-52). That the files exist is checked by `click` before; they are
opened one after the other, each after the output for the one before. -/
def cliFiles (F : FloatOf) (fs : Files) (domainFile : Str) (problemFile planFile : Option Str) (quiet : Bool) :
    List Str × Except FileExc Unit :=
  let out (l : List Str) : List Str := if quiet then [] else l
  match parseDomainFile F fs domainFile with
  | .error e => (out [], .error e)
  | .ok d =>
    match d.str with
    | .error e => (out [], .error (.exc e))
    | .ok ds =>
      match problemFile with
      | none => (out [ds], .ok ())
      | some pf =>
        match parseProblemFile F fs pf with
        | .error e => (out [ds], .error e)
        | .ok p =>
          match p.check d with
          | .error e => (out [ds], .error (.exc e))
          | .ok () =>
            match planFile with
            | none => (out [ds, p.str], .ok ())
            | some f =>
              match parsePlanFile fs f with
              | .error e => (out [ds, p.str], .error e)
              | .ok pl =>
                match pl.check d p with
                | .error e => (out [ds, p.str], .error (.exc e))
                | .ok () => (out [ds, p.str, pl.str], .ok ())

end Pddl
