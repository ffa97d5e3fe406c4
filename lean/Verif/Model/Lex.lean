/-
The terminals of pddl/parser/grammar.lark as a lexer, and a bracket reader.
lark itself is not part of the repository; see DESIGN.md for the assumptions.
-/
import Verif.Model.Names

namespace Pddl

/-- Characters matched by `\s` in a `str` pattern (grammar.lark:152), which are also the
characters removed by `str.strip`. -/
def isSpaceC (c : Char) : Bool :=
  let n := c.toNat
  (9 ≤ n && n ≤ 13) || (28 ≤ n && n ≤ 32) || n == 133 || n == 160 || n == 5760 ||
  (8192 ≤ n && n ≤ 8202) || n == 8232 || n == 8233 || n == 8239 || n == 8287 || n == 12288

/-- Tokens. A keyword without colon (`and`, `define`, …) is a `name`: lark decides between
the keyword and `NAME` from the parser state, the model when it reads the tree.
`kw` is a literal starting with a colon. `bad` is a lexical error
(the terminals of pddl/parser/grammar.lark:139-239). -/
inductive Tok
  | lpar | rpar | qmark | minus | eq | ge | gt | le | lt | plus | times | divide
  | kw (s : Str)
  | name (s : Str)
  | num (s : Str)
  | bad
  deriving DecidableEq, Repr

/-- The literals starting with a colon, without it (grammar.lark:139-237). -/
def colonLits : List Str :=
  [ s%"domain", s%"objects", s%"init", s%"goal", s%"requirements", s%"types", s%"constants",
    s%"predicates", s%"functions", s%"action", s%"parameters", s%"precondition", s%"effect",
    s%"derived", s%"metric", s%"strips", s%"typing", s%"equality", s%"adl",
    s%"non-deterministic", s%"negative-preconditions", s%"disjunctive-preconditions",
    s%"derived-predicates", s%"conditional-effects", s%"existential-preconditions",
    s%"universal-preconditions", s%"quantified-preconditions", s%"numeric-fluents",
    s%"fluents", s%"action-costs" ]

/-- The longest literal that is a prefix of `a` (pddl/parser/grammar.lark:139-143, 176-233). -/
def bestLit (a : Str) : Option Str :=
  colonLits.foldl (fun best k =>
    if k.isPrefixOf a then
      match best with
      | none => some k
      | some b => if b.length < k.length then some k else some b
    else best) none

/-- The tokens of a colon followed by the name characters `a`: the longest literal, then
what is left, which is a `NAME` if it starts with a letter. (What is left can be nothing
else that the grammar accepts after such a literal.) (pddl/parser/grammar.lark:139-143, 156, 176-233) -/
def colonToks (a : Str) : List Tok :=
  match bestLit a with
  | none => [.bad]
  | some k =>
    match a.drop k.length with
    | [] => [.kw k]
    | c :: cs => if isAlphaC c then [.kw k, .name (c :: cs)] else [.kw k, .bad]

/-- States of the lexer; the argument is the text read so far (pddl/parser/grammar.lark:152-239). -/
inductive LSt
  | start
  | comment
  | word (a : Str)
  | num (a : Str)
  | numDot (a : Str)
  | colon (a : Str)
  | gt
  | lt
  deriving DecidableEq, Repr

/-- The tokens pending in a state when the token read ends (pddl/parser/grammar.lark:152-239). -/
def LSt.flush : LSt → List Tok
  | .start => []
  | .comment => []
  | .word a => [.name a]
  | .num a => [.num a]
  | .numDot a => [.num a, .bad]
  | .colon a => colonToks a
  | .gt => [.gt]
  | .lt => [.lt]

/-- Reading a character that starts something new (grammar.lark:152-239). -/
def lexBegin (c : Char) : List Tok × LSt :=
  if isSpaceC c then ([], .start)
  else if c = ';' then ([], .comment)
  else if c = '(' then ([.lpar], .start)
  else if c = ')' then ([.rpar], .start)
  else if c = '?' then ([.qmark], .start)
  else if c = '-' then ([.minus], .start)
  else if c = '=' then ([.eq], .start)
  else if c = '+' then ([.plus], .start)
  else if c = '*' then ([.times], .start)
  else if c = '/' then ([.divide], .start)
  else if c = '>' then ([], .gt)
  else if c = '<' then ([], .lt)
  else if c = ':' then ([], .colon [])
  else if isAlphaC c then ([], .word [c])
  else if isDigitC c then ([], .num [c])
  else ([.bad], .start)

/-- Continuing the current token: `NAME` (grammar.lark:156), `COMMENT` (174), `NUMBER`
(216), `>=` and `<=`. `none` when the character does not belong to it. -/
def LSt.ext : LSt → Char → Option (List Tok × LSt)
  | .start, _ => none
  | .comment, c => if c = '\n' then none else some ([], .comment)
  | .word a, c => if isNameC c then some ([], .word (a ++ [c])) else none
  | .num a, c => if isDigitC c then some ([], .num (a ++ [c]))
                 else if c = '.' then some ([], .numDot a) else none
  | .numDot a, c => if isDigitC c then some ([], .num (a ++ ['.', c])) else none
  | .colon a, c => if isNameC c then some ([], .colon (a ++ [c])) else none
  | .gt, c => if c = '=' then some ([.ge], .start) else none
  | .lt, c => if c = '=' then some ([.le], .start) else none

/-- One character (pddl/parser/grammar.lark:152-239). -/
def LSt.step (s : LSt) (c : Char) : List Tok × LSt :=
  match s.ext c with
  | some r => r
  | none => (s.flush ++ (lexBegin c).1, (lexBegin c).2)

/-- The tokens of a text, starting in state `s` (pddl/parser/grammar.lark:152-239). -/
def LSt.run : LSt → Str → List Tok
  | s, [] => s.flush
  | s, c :: cs => (s.step c).1 ++ LSt.run (s.step c).2 cs

/-- The tokens of a text (pddl/parser/grammar.lark:152-239). -/
def lex (t : Str) : List Tok := LSt.run .start t

/-- Bracket trees (`LPAR`, `RPAR`, pddl/parser/grammar.lark:236-237). -/
inductive Tree
  | atom (t : Tok)
  | node (l : List Tree)

/-- Reading tokens into trees: `cur` holds the trees of the open bracket, last first,
`stack` those of the enclosing ones. `none` when brackets do not match (pddl/parser/grammar.lark:236-237). -/
def readAux : List Tok → List Tree → List (List Tree) → Option (List Tree)
  | [], cur, [] => some cur.reverse
  | [], _, _ :: _ => none
  | .lpar :: ts, cur, st => readAux ts [] (cur :: st)
  | .rpar :: _, _, [] => none
  | .rpar :: ts, cur, s :: st => readAux ts (.node cur.reverse :: s) st
  | t :: ts, cur, st => readAux ts (.atom t :: cur) st

/-- The bracket trees of a token sequence (pddl/parser/grammar.lark:236-237). -/
def readTrees (ts : List Tok) : Option (List Tree) := readAux ts [] []

end Pddl
