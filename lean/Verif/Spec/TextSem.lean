/-
What the text of a condition or of a numeric expression says, directly on the bracketed text.
-/
import Verif.Spec.Parse
import Verif.Spec.Sem
import Verif.Model.ParseDomain

namespace Pddl.Spec
open Pddl

/-- The objects denoted by a list of written terms: names and variables `?x`. -/
def treeTerms {D} (I : Interp D) (ρ : Str → D) : List Tree → Option (List D)
  | [] => some []
  | .atom (.name n) :: r => (treeTerms I ρ r).map (I.const n :: ·)
  | .atom .qmark :: .atom (.name n) :: r => (treeTerms I ρ r).map (ρ n :: ·)
  | _ => none

/-- The text is a list of names and variables `?x`. -/
def termsOnly : List Tree → Bool
  | [] => true
  | .atom (.name _) :: r => termsOnly r
  | .atom .qmark :: .atom (.name _) :: r => termsOnly r
  | _ => false

mutual
/-- The value of a written numeric expression. `lit` gives the values of the literals. -/
def treeValue {D} (I : Interp D) (lit : Str → Option Rat) (ρ : Str → D) : Tree → Option Rat
  | .atom (.num s) => lit s
  | .atom (.name n) => I.fn n []
  | .node (.atom .plus :: args) => (treeValues I lit ρ args).bind (arith .plus)
  | .node (.atom .times :: args) => (treeValues I lit ρ args).bind (arith .times)
  | .node (.atom .minus :: args) => (treeValues I lit ρ args).bind (arith .minus)
  | .node (.atom .divide :: args) => (treeValues I lit ρ args).bind (arith .divide)
  | .node (.atom (.name n) :: args) => (treeTerms I ρ args).bind (I.fn n)
  | _ => none
/-- The values of several numeric expressions. -/
def treeValues {D} (I : Interp D) (lit : Str → Option Rat) (ρ : Str → D) : List Tree → Option (List Rat)
  | [] => some []
  | t :: ts => (treeValue I lit ρ t).bind (fun x => (treeValues I lit ρ ts).map (x :: ·))
end

/-- The variables of a written list as variables with types. -/
def TypedList.varList (l : TypedList) : List Var := l.vars.map (fun p => ⟨p.1, p.2⟩)

/-- The written comparison sign. -/
def compareSign : Tok → Option FOp
  | .eq => some .eq
  | .lt => some .lt
  | .le => some .le
  | .gt => some .gt
  | .ge => some .ge
  | _ => none

/-- A written comparison of numeric expressions. -/
def treeCompare {D} (I : Interp D) (lit : Str → Option Rat) (t : Tok) (args : List Tree) (ρ : Str → D) : Prop :=
  ∃ op vs, compareSign t = some op ∧ treeValues I lit ρ args = some vs ∧ compareVals op vs

/-- The written terms denote the same object. -/
def sameTerms {D} (I : Interp D) (args : List Tree) (ρ : Str → D) : Prop :=
  ∃ d, treeTerms I ρ args = some [d, d]

mutual
/-- What a written condition says about a state. `(= a b)` between names or variables is about the objects,
other comparisons are about numbers. -/
def treeHolds {D} (I : Interp D) (lit : Str → Option Rat) : Tree → (Str → D) → Prop
  | .atom _, _ => False
  | .node [], _ => False
  | .node (.node _ :: _), _ => False
  | .node (.atom (.name w) :: args), ρ =>
    if w = s%"and" then treeHoldsAll I lit args ρ
    else if w = s%"or" then treeHoldsSome I lit args ρ
    else if w = s%"not" then
      match args with
      | [a] => ¬ treeHolds I lit a ρ
      | _ => False
    else if w = s%"imply" then
      match args with
      | [a, b] => treeHolds I lit a ρ → treeHolds I lit b ρ
      | _ => False
    else if w = s%"forall" then
      match args with
      | [.node vs, c] => ∃ l, VarsText vs l ∧ ∀ ρ', Rebind I l.varList ρ ρ' → treeHolds I lit c ρ'
      | _ => False
    else if w = s%"exists" then
      match args with
      | [.node vs, c] => ∃ l, VarsText vs l ∧ ∃ ρ', Rebind I l.varList ρ ρ' ∧ treeHolds I lit c ρ'
      | _ => False
    else ∃ ds, treeTerms I ρ args = some ds ∧ I.pred w ds
  | .node (.atom t :: args), ρ =>
    (t = .eq ∧ sameTerms I args ρ) ∨ (¬ (t = .eq ∧ termsOnly args = true) ∧ treeCompare I lit t args ρ)
def treeHoldsAll {D} (I : Interp D) (lit : Str → Option Rat) : List Tree → (Str → D) → Prop
  | [], _ => True
  | t :: ts, ρ => treeHolds I lit t ρ ∧ treeHoldsAll I lit ts ρ
def treeHoldsSome {D} (I : Interp D) (lit : Str → Option Rat) : List Tree → (Str → D) → Prop
  | [], _ => False
  | t :: ts, ρ => treeHolds I lit t ρ ∨ treeHoldsSome I lit ts ρ
end

/-- The parser keeps all operands of the arithmetic in the text `t`: the operands of `+` and `*` (also those of
nested sums and products), of `/` and of `=` are pairwise different as Python objects, and no operand of `/` is
a quotient. -/
structure KeepsOperands (E : GEnv) (t : Tree) : Prop where
  plus : ∀ args es, Inside (.node (.atom .plus :: args)) t → E.fExps args = .ok es →
    Distinct (leavesAll (.fop .plus) es)
  times : ∀ args es, Inside (.node (.atom .times :: args)) t → E.fExps args = .ok es →
    Distinct (leavesAll (.fop .times) es)
  divide : ∀ args es, Inside (.node (.atom .divide :: args)) t → E.fExps args = .ok es →
    Distinct es ∧ ∀ e ∈ es, ∀ as, e ≠ .bfun .divide as
  eq : ∀ args es, Inside (.node (.atom .eq :: args)) t → termsOnly args = false → E.fExps args = .ok es →
    Distinct es

/-- What the callbacks for names and variables return. -/
structure ParserEnv (E : GEnv) : Prop where
  constant : ∀ n t, E.constant n = .ok t → ∃ tag, t = .const n tag
  params : ∀ n t, dictGet E.params n = some t → ∃ v : Var, t = .var v ∧ v.name = n
  typedVars : E.ext ≠ [] → ∀ toks r, E.typedVars toks = .ok r → typedListVariable toks = .ok r

/-- Integer literals have the written value; decimal literals have the value that `float` gives. -/
def LitOk (lit : Str → Option Rat) (F : FloatOf) : Prop := ∀ s n, numLiteral F s = .ok n → lit s = numVal n

/-- No `oneof` anywhere in the text. -/
def NoOneof (t : Tree) : Prop := ∀ args, ¬ Inside (.node (.atom (.name s%"oneof") :: args)) t

/-- No sums, products, quotients and no equations between numbers anywhere in the text. -/
structure NoArithmetic (t : Tree) : Prop where
  plus : ∀ args, ¬ Inside (.node (.atom .plus :: args)) t
  times : ∀ args, ¬ Inside (.node (.atom .times :: args)) t
  divide : ∀ args, ¬ Inside (.node (.atom .divide :: args)) t
  eq : ∀ args, Inside (.node (.atom .eq :: args)) t → termsOnly args = true

end Pddl.Spec
