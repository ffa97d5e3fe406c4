/-
Writing names in place of variables in a text.
-/
import Verif.Model.ParseDomain

namespace Pddl.Spec
open Pddl

mutual
/-- The text with the name `r x` in place of the variable `?x`, where `r` has one. -/
def writeIn (r : Str → Option Str) : Tree → Tree
  | .atom t => .atom t
  | .node l => .node (writeIns r l)
def writeIns (r : Str → Option Str) : List Tree → List Tree
  | [] => []
  | .atom .qmark :: .atom (.name n) :: ts =>
    match r n with
    | some a => .atom (.name a) :: writeIns r ts
    | none => .atom .qmark :: .atom (.name n) :: writeIns r ts
  | t :: ts => writeIn r t :: writeIns r ts
end

/-- The names of the arguments by the names of the parameters. -/
def argumentOf (params args : List Term) (x : Str) : Option Str :=
  ((params.zip args).find? (fun p => decide (p.1.name = x))).map (fun p => p.2.name)

/-- The name written for the variable `?x` where the names `ns` are the arguments for the parameters `xs`. -/
def nameFor (xs ns : List Str) (x : Str) : Option Str := ((xs.zip ns).find? (fun p => decide (p.1 = x))).map Prod.snd

/-- Reading with every name a constant and every variable without types. -/
def textEnv (F : FloatOf) : GEnv := ⟨F, [], fun n => .ok (.const n none), [], typedListVariable⟩

end Pddl.Spec
