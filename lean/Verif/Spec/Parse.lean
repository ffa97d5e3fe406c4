/-
Parts of a bracketed text.
-/
import Verif.Model.Lex
import Verif.Spec.TypedList

namespace Pddl.Spec
open Pddl

/-- The bracketed part `s` occurs in `t`, at any depth (or is `t`). -/
inductive Inside (s : Tree) : Tree → Prop
  | refl : Inside s s
  | node {l t} : t ∈ l → Inside s t → Inside s (.node l)

/-- A bracket that starts with the word `w`: `(w …)`. -/
def StartsWith (w : Str) (t : Tree) : Prop := ∃ args, t = .node (.atom (.name w) :: args)

/-- `(= …)` whose first operand is a constant or a variable. -/
def TermEquality (t : Tree) : Prop :=
  (∃ n args, t = .node (.atom .eq :: .atom (.name n) :: args)) ∨
  (∃ args, t = .node (.atom .eq :: .atom .qmark :: args))

/-- `c` is written in the domain `(define … )` with parts `ts` where a condition is meant: as the
precondition of an action, as the condition of a `when` anywhere in an effect, or as the condition
of a derived predicate. -/
inductive ConditionOf (ts : List Tree) : Tree → Prop
  | pre {n ps c e} : .node [.atom (.kw s%"action"), n, .atom (.kw s%"parameters"), ps,
      .atom (.kw s%"precondition"), c, .atom (.kw s%"effect"), e] ∈ ts → ConditionOf ts c
  | cond {n ps p c x e} : .node [.atom (.kw s%"action"), n, .atom (.kw s%"parameters"), ps,
      .atom (.kw s%"precondition"), p, .atom (.kw s%"effect"), e] ∈ ts →
      Inside (.node [.atom (.name s%"when"), c, x]) e → ConditionOf ts c
  | derived {h c} : .node [.atom (.kw s%"derived"), h, c] ∈ ts → ConditionOf ts c

/-- The text of the types after a `-`: a name, or `(either n …)`. (The parser also accepts `(eithern …)`
without a space.) -/
inductive TypeText : Tree → List Str → Prop
  | one (n : Str) : TypeText (.atom (.name n)) [n]
  | either (n : Str) (ns : List Str) : TypeText (.node (.atom (.name s%"either") :: (n :: ns).map (fun x => .atom (.name x)))) (n :: ns)
  | fused (c : Char) (cs : Str) (ns : List Str) : isAlphaC c = true →
      TypeText (.node (.atom (.name (s%"either" ++ c :: cs)) :: ns.map (fun x => .atom (.name x)))) ((c :: cs) :: ns)

/-- `?n` -/
def varTrees (n : Str) : List Tree := [.atom .qmark, .atom (.name n)]

/-- The text of a typed list of variables: `?x ?y - t ?z - (either a b) … ?u ?v`. -/
inductive VarsText : List Tree → TypedList → Prop
  | rest (ns : List Str) : VarsText (ns.flatMap varTrees) ⟨[], ns.map .str⟩
  | group {n : Str} {ns : List Str} {t types ts l} : TypeText t types → VarsText ts l →
      VarsText ((n :: ns).flatMap varTrees ++ .atom .minus :: t :: ts)
        ⟨((n :: ns).map .str, .list types) :: l.groups, l.rest⟩

/-- The variables of a typed list in order, each with the types written after the next `-`. -/
def TypedList.vars (l : TypedList) : List (Str × List Str) :=
  l.assigned.filterMap (fun p => match p.1 with | .str n => some (n, p.2) | _ => none)

/-- The text `(:action n :parameters (ps) :precondition pre :effect eff)`. -/
def actionText (n : Str) (ps : List Tree) (pre eff : Tree) : Tree :=
  .node [.atom (.kw s%"action"), .atom (.name n), .atom (.kw s%"parameters"), .node ps,
    .atom (.kw s%"precondition"), pre, .atom (.kw s%"effect"), eff]

/-- A word as part of a text. -/
def word (n : Str) : Tree := .atom (.name n)

/-- A typed list of names: groups `a b … - t`, then names without type. -/
structure NameList where
  groups : List (List Str × Str)
  rest : List Str

/-- The text of it. -/
def NameList.text (l : NameList) : List Tree :=
  l.groups.flatMap (fun g => g.1.map word ++ [.atom .minus, word g.2]) ++ l.rest.map word

/-- The names in order, with the type written after the next `-`. -/
def NameList.pairs (l : NameList) : List (Str × Option Str) :=
  l.groups.flatMap (fun g => g.1.map (fun n => (n, some g.2))) ++ l.rest.map (fun n => (n, none))

/-- No `-` without names before it; names and types are valid, and no name is repeated. -/
structure NameList.Ok (l : NameList) : Prop where
  nonempty : ∀ g ∈ l.groups, g.1 ≠ []
  names : ∀ p ∈ l.pairs, ValidName p.1
  types : ∀ g ∈ l.groups, ValidType g.2
  nodup : (l.pairs.map Prod.fst).Nodup

end Pddl.Spec
