/-
Texts as they are read: what is left of sums, products, quotients and equations in which an operand is repeated.
-/
import Verif.Spec.TextSem
import Verif.Spec.Effect

namespace Pddl.Spec
open Pddl

/-- The two literals are the same number, as `1` and `1.0` are. -/
def sameNumber (F : FloatOf) (s s' : Str) : Bool :=
  match numLiteral F s, numLiteral F s' with
  | .ok a, .ok b => decide (a.key = b.key)
  | _, _ => false

mutual
/-- The texts are the same up to how numbers are written. -/
def alike (F : FloatOf) : Tree → Tree → Bool
  | .atom (.num s), .atom (.num s') => sameNumber F s s'
  | .atom a, .atom b => decide (a = b)
  | .node as, .node bs => alikes F as bs
  | _, _ => false
def alikes (F : FloatOf) : List Tree → List Tree → Bool
  | [], [] => true
  | a :: as, b :: bs => alike F a b && alikes F as bs
  | _, _ => false
end

/-- The texts that are not like an earlier one. -/
def firsts (F : FloatOf) : List Tree → List Tree
  | [] => []
  | t :: ts => t :: (firsts F ts).filter (fun u => !alike F t u)

mutual
/-- The operands of a text `(k …)`, those of operands `(k …)` in their place; other texts are their own only operand. -/
def spread (k : Tok) : Tree → List Tree
  | .node (.atom k' :: args) => if k' = k then spreadAll k args else [.node (.atom k' :: args)]
  | t => [t]
def spreadAll (k : Tok) : List Tree → List Tree
  | [] => []
  | t :: ts => spread k t ++ spreadAll k ts
end

mutual
/-- A numeric expression as it is read. Of the operands of a sum, a product or a quotient, with nested sums, products and
quotients spread out, only the first of several alike is left. A function without arguments is written in brackets. -/
def readNum (F : FloatOf) : Tree → Tree
  | .atom (.name n) => .node [.atom (.name n)]
  | .node (.atom .plus :: args) => .node (.atom .plus :: firsts F (spreadAll .plus (readNums F args)))
  | .node (.atom .times :: args) => .node (.atom .times :: firsts F (spreadAll .times (readNums F args)))
  | .node (.atom .divide :: args) => .node (.atom .divide :: firsts F (spreadAll .divide (readNums F args)))
  | .node (.atom .minus :: args) => .node (.atom .minus :: readNums F args)
  | t => t
def readNums (F : FloatOf) : List Tree → List Tree
  | [] => []
  | t :: ts => readNum F t :: readNums F ts
end

/-- The words that join conditions. -/
def joining : List Str := [s%"and", s%"or", s%"not", s%"imply"]

mutual
/-- A condition as it is read: the numeric expressions in it as they are read, and an equation between numbers with one side
only if both sides are alike. -/
def readCond (F : FloatOf) : Tree → Tree
  | .node (.atom (.name w) :: args) =>
    if w ∈ joining then .node (.atom (.name w) :: readConds F args)
    else if w = s%"forall" ∨ w = s%"exists" then
      match args with
      | [.node vs, c] => .node [.atom (.name w), .node vs, readCond F c]
      | args => .node (.atom (.name w) :: args)
    else .node (.atom (.name w) :: args)
  | .node (.atom .eq :: args) =>
    if termsOnly args then .node (.atom .eq :: args) else .node (.atom .eq :: firsts F (readNums F args))
  | .node (.atom k :: args) => .node (.atom k :: readNums F args)
  | t => t
def readConds (F : FloatOf) : List Tree → List Tree
  | [] => []
  | t :: ts => readCond F t :: readConds F ts
end

/-- A precondition as it is read: `()` is read as a disjunction of no conditions. -/
def readPre (F : FloatOf) : Tree → Tree
  | .node [] => .node [.atom (.name s%"or")]
  | t => readCond F t

mutual
/-- An effect as it is read: the conditions and numeric expressions in it as they are read. -/
def readEff (F : FloatOf) : Tree → Tree
  | .node (.atom (.name w) :: args) =>
    if w = s%"and" ∨ w = s%"oneof" then .node (.atom (.name w) :: readEffs F args)
    else if w = s%"forall" then
      match args with
      | [.node vs, e] => .node [.atom (.name w), .node vs, readEff F e]
      | args => .node (.atom (.name w) :: args)
    else if w = s%"when" then
      match args with
      | [c, e] => .node [.atom (.name w), readCond F c, readEff F e]
      | args => .node (.atom (.name w) :: args)
    else match updateWord w, args with
      | some _, [h, x] => .node [.atom (.name w), h, readNum F x]
      | _, args => .node (.atom (.name w) :: args)
  | t => t
def readEffs (F : FloatOf) : List Tree → List Tree
  | [] => []
  | t :: ts => readEff F t :: readEffs F ts
end

end Pddl.Spec
