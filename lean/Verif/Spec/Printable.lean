/-
Which conditions and effects have a text that the grammar can read back in a given scope.
-/
import Verif.Model.ParseFormula
import Verif.Spec.TypedList
import Verif.Spec.Names

namespace Pddl.Spec
open Pddl

/-- The scope gives the term: constants are declared with their type, a variable has the types of
the parameter with its name, and no types if there is none. -/
def Known (E : GEnv) : Term → Prop
  | .const n x => ValidName n ∧ E.constant n = .ok (.const n x)
  | .var v => ValidName v.name ∧
      ((∃ w : Var, dictGet E.params v.name = some (.var w) ∧ w.name = v.name ∧ SameTypes w.tags v.tags) ∨
       (dictGet E.params v.name = none ∧ v.tags = []))

/-- A nonempty text of ASCII digits. -/
def DigitText (w : Str) : Prop := w ≠ [] ∧ ∀ c ∈ w, Digit c

/-- The scope allows at least one of the requirements. -/
def Allows (E : GEnv) (rs : List Req) : Prop := ∃ r ∈ rs, r ∈ E.ext

/-- A number the grammar can write: a natural number, or a float whose `repr` is digits, a dot and
digits, and which `float` reads back. -/
inductive NumberText (F : FloatOf) : Num → Prop
  | int (n : Nat) : NumberText F (.int n)
  | flt {v : FVal} (a b : Str) : DigitText a → DigitText b →
      F (a ++ '.' :: b) = some (v, a ++ '.' :: b) → NumberText F (.flt v (a ++ '.' :: b))

/-- Numeric expressions that the grammar can write. -/
inductive PrintNum (E : GEnv) : Expr → Prop
  | num {n} : NumberText E.float n → PrintNum E (.num n)
  | fn {f : NFun} : (∀ t ∈ f.terms, Known E t) → PrintNum E (.nfun f)
  | plus {as} : 2 ≤ as.length → (∀ a ∈ as, PrintNum E a) → PrintNum E (.bfun .plus as)
  | times {as} : 2 ≤ as.length → (∀ a ∈ as, PrintNum E a) → PrintNum E (.bfun .times as)
  | divide {a b} : PrintNum E a → PrintNum E b → PrintNum E (.bfun .divide [a, b])
  | minus {a} : PrintNum E a → PrintNum E (.bfun .minus [a])

/-- Variables whose text the parser reads with the same types: distinct names, at most one type
each, and no variable without type before one with a type. -/
structure PrintVars (vs : List Var) : Prop where
  names : ∀ v ∈ vs, ValidName v.name
  distinct : (vs.map Var.name).Nodup
  types : ∀ v ∈ vs, v.tags = [] ∨ ∃ t, v.tags = [t] ∧ ValidType t
  order : vs.Pairwise (fun a b => a.tags = [] → b.tags = [])

/-- The comparison operators. -/
def IsComparison : FOp → Prop
  | .eq => True | .lt => True | .le => True | .gt => True | .ge => True
  | _ => False

/-- The requirement for a quantifier. -/
def quantReq : QOp → Req
  | .all => .universalPrecondition
  | .ex => .existentialPrecondition

/-- Conditions that the grammar can write in this scope. -/
inductive PrintCond (E : GEnv) : Expr → Prop
  | pred {p : Pred} : (∀ t ∈ p.terms, Known E t) → PrintCond E (.pred p)
  | eq {l r} : Known E l → Known E r → Allows E [.equality] → PrintCond E (.eq l r)
  | and {as} : (∀ a ∈ as, PrintCond E a) → PrintCond E (.bin .and as)
  | or {as} : (∀ a ∈ as, PrintCond E a) → Allows E [.disPrecondition, .adl] → PrintCond E (.bin .or as)
  | imply {a b} : PrintCond E a → PrintCond E b → Allows E [.disPrecondition, .adl] →
      PrintCond E (.bin .imply [a, b])
  | not {a} : PrintCond E a → PrintCond E (.not a)
  | quant {q vs c} : E.typedVars = typedListVariable → PrintVars vs → PrintCond E c →
      Allows E [quantReq q, .quantifiedPrecondition, .adl] → PrintCond E (.quant q vs c)
  | comp {o a b} : IsComparison o → PrintNum E a → PrintNum E b → PrintCond E (.bfun o [a, b])

/-- Atoms. -/
inductive PrintAtom (E : GEnv) : Expr → Prop
  | pred {p : Pred} : (∀ t ∈ p.terms, Known E t) → PrintAtom E (.pred p)
  | eq {l r} : Known E l → Known E r → Allows E [.equality] → PrintAtom E (.eq l r)

/-- The assignment operators. -/
def IsAssignment : FOp → Prop
  | .assign => True | .scaleUp => True | .scaleDown => True | .increase => True | .decrease => True
  | _ => False

/-- Simple effects that the grammar can write. -/
inductive PrintLit (E : GEnv) : Expr → Prop
  | atom {e} : PrintAtom E e → PrintLit E e
  | not {e} : PrintAtom E e → PrintLit E (.not e)
  | assign {o} {f : NFun} {x} : IsAssignment o → (∀ t ∈ f.terms, Known E t) → PrintNum E x →
      PrintLit E (.bfun o [.nfun f, x])

/-- Effects of `when`. -/
inductive PrintWhen (E : GEnv) : Expr → Prop
  | lit {e} : PrintLit E e → PrintWhen E e
  | and {as} : (∀ a ∈ as, PrintLit E a) → PrintWhen E (.bin .and as)

/-- Effects that the grammar can write; the flag is false for operands of `and`, which are no
conjunctions. -/
inductive PrintEff (E : GEnv) : Bool → Expr → Prop
  | lit {top e} : PrintLit E e → PrintEff E top e
  | and {as} : (∀ a ∈ as, PrintEff E false a) → PrintEff E true (.bin .and as)
  | when {top c e} : PrintCond E c → PrintWhen E e → PrintEff E top (.when c e)
  | fall {top vs e} : E.typedVars = typedListVariable → PrintVars vs → PrintEff E true e →
      PrintEff E top (.fall vs e)
  | oneof {top as} : as ≠ [] → (∀ a ∈ as, PrintEff E true a) → Allows E [.nonDeterministic] →
      PrintEff E top (.bin .oneof as)

/-- The numbers of operands with which the grammar writes a numeric operator. -/
def WrittenArity : FOp → Nat → Prop
  | .plus, n => 2 ≤ n
  | .times, n => 2 ≤ n
  | .minus, n => n = 1
  | _, n => n = 2

mutual
/-- Three things keep a condition that has been read from being written: a number with another
spelling, an operator whose operands were merged, and quantified variables with several types or
untyped before typed. -/
def NoObstacle (F : FloatOf) : Expr → Prop
  | .num n => NumberText F n
  | .bfun o as => WrittenArity o as.length ∧ NoObstacles F as
  | .bin _ as => NoObstacles F as
  | .not a => NoObstacle F a
  | .quant _ vs c => PrintVars vs ∧ NoObstacle F c
  | .when c e => NoObstacle F c ∧ NoObstacle F e
  | .fall vs e => PrintVars vs ∧ NoObstacle F e
  | _ => True
def NoObstacles (F : FloatOf) : List Expr → Prop
  | [] => True
  | a :: as => NoObstacle F a ∧ NoObstacles F as
end

/-- Constants are stored under their own valid names, parameters are variables stored under their own
valid names. -/
structure TermScope (E : GEnv) : Prop where
  constants : ∀ n t, E.constant n = .ok t → ValidName n ∧ ∃ x, t = .const n x
  params : ∀ n t, dictGet E.params n = some t → ValidName n ∧ ∃ w : Var, t = .var w ∧ w.name = n

/-- The scope of a domain. -/
structure DomainScope (E : GEnv) : Prop extends TermScope E where
  typedLists : E.typedVars = typedListVariable

end Pddl.Spec
