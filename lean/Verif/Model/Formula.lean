/-
pddl/logic/base.py, predicates.py, functions.py, effects.py:
data, equality, hash, construction.
-/
import Verif.Model.Term

namespace Pddl

/-- A float value without NaN: finite, or an infinity (pddl/logic/functions.py:119-121). -/
inductive FVal
  | fin (q : Rat)
  | pinf
  | ninf
  deriving DecidableEq, Repr

/-- The value of a `NumericValue` (pddl/logic/functions.py:116-148): an `int`, a
`float` (its value and its `repr`), or, for literals of a metric, a `str`
(pddl/parser/problem.py:187-192 passes the token itself). -/
inductive Num
  | int (i : Int)
  | flt (v : FVal) (repr : Str)
  | str (s : Str)
  deriving DecidableEq, Repr

/-- What Python `==` and `hash` see of a number: an `int` and a `float` of equal
value are equal and hash alike (pddl/logic/functions.py:132-134, 142-144). -/
inductive NumKey
  | val (v : FVal)
  | str (s : Str)
  deriving DecidableEq, Repr

/-- The key of the value of a `NumericValue` (pddl/logic/functions.py:132-134, 142-144). -/
def Num.key : Num → NumKey
  | .int i => .val (.fin i)
  | .flt v _ => .val v
  | .str s => .str s

/-- A `Predicate` (pddl/logic/predicates.py:45-115). -/
structure Pred where
  name : Str
  terms : List Term
  deriving DecidableEq, Repr

/-- A `NumericFunction` (pddl/logic/functions.py:38-111). -/
structure NFun where
  name : Str
  terms : List Term
  deriving DecidableEq, Repr

/-- The `BinaryFunction` classes (pddl/logic/functions.py:252-405). -/
inductive FOp
  | eq | lt | le | gt | ge | assign | scaleUp | scaleDown | increase | decrease
  | minus | plus | times | divide
  deriving DecidableEq, Repr

/-- The `BinaryOp` classes (pddl/logic/base.py:155-180). -/
inductive BOp
  | and | or | oneof | imply
  deriving DecidableEq, Repr

/-- `ForallCondition` and `ExistsCondition` (pddl/logic/base.py:251-260). -/
inductive QOp
  | all | ex
  deriving DecidableEq, Repr

/-- Formulas, numeric expressions and effects
(pddl/logic/base.py:26-260, pddl/logic/functions.py:29-405, pddl/logic/predicates.py:47-170, pddl/logic/effects.py:27-129). -/
inductive Expr
  /-- `Predicate` -/
  | pred (p : Pred)
  /-- `predicates.EqualTo` -/
  | eq (l r : Term)
  /-- `NumericFunction` -/
  | nfun (f : NFun)
  /-- `NumericValue` -/
  | num (n : Num)
  /-- a `BinaryFunction` -/
  | bfun (op : FOp) (args : List Expr)
  /-- a `BinaryOp` -/
  | bin (op : BOp) (args : List Expr)
  /-- `Not` -/
  | not (e : Expr)
  /-- a `QuantifiedCondition` -/
  | quant (q : QOp) (vars : List Var) (c : Expr)
  /-- `effects.When` -/
  | when (c : Expr) (e : Expr)
  /-- `effects.Forall` -/
  | fall (vars : List Var) (e : Expr)

/-! ### Equality -/

/-- Equality of tuples of terms (pddl/logic/predicates.py:99-105, pddl/logic/functions.py:95-101). -/
def termsEq : List Term → List Term → Bool
  | [], [] => true
  | a :: as, b :: bs => a.pyEq b && termsEq as bs
  | _, _ => false

/-- `Predicate.__eq__` (pddl/logic/predicates.py:99-105). -/
def Pred.pyEq (a b : Pred) : Bool := decide (a.name = b.name) && termsEq a.terms b.terms

/-- `NumericFunction.__eq__` (pddl/logic/functions.py:95-101). -/
def NFun.pyEq (a b : NFun) : Bool := decide (a.name = b.name) && termsEq a.terms b.terms

/-- Equality of frozensets of variables (pddl/logic/base.py:232-238, pddl/logic/effects.py:107-113). -/
def varsEq (a b : List Var) : Bool := setEqBy Var.pyEq a b

mutual
/-- `__eq__` of the formula classes: `EqualTo` (predicates.py:152-158),
`NumericValue` (functions.py:132-134), `BinaryFunction` (functions.py:183-185),
`BinaryOp`, `UnaryOp` (pddl/logic/base.py:81-83, 120-122), `QuantifiedCondition`
(pddl/logic/base.py:232-238), `When`, `Forall` (effects.py:58-64, 107-113). Objects of
different classes are unequal (`isinstance` tests). -/
def Expr.pyEq : Expr → Expr → Bool
  | .pred p, .pred q => p.pyEq q
  | .eq l r, .eq l' r' => l.pyEq l' && r.pyEq r'
  | .nfun f, .nfun g => f.pyEq g
  | .num m, .num n => decide (m.key = n.key)
  | .bfun o as, .bfun o' bs => decide (o = o') && Expr.pyEqs as bs
  | .bin o as, .bin o' bs => decide (o = o') && Expr.pyEqs as bs
  | .not a, .not b => a.pyEq b
  | .quant q vs c, .quant q' vs' c' => decide (q = q') && varsEq vs vs' && c.pyEq c'
  | .when c e, .when c' e' => c.pyEq c' && e.pyEq e'
  | .fall vs e, .fall vs' e' => varsEq vs vs' && e.pyEq e'
  | _, _ => false
/-- Equality of tuples of operands (pddl/logic/base.py:81-83). -/
def Expr.pyEqs : List Expr → List Expr → Bool
  | [], [] => true
  | a :: as, b :: bs => a.pyEq b && Expr.pyEqs as bs
  | _, _ => false
end

/-! ### Hash -/

/-- Classes whose identity enters a hash
(pddl/logic/base.py:85-87, 124-126, 240-242; pddl/logic/functions.py:187-189). -/
inductive ClsTag
  | constant | variable | equalTo | fop (o : FOp) | bop (o : BOp) | not | quant (q : QOp)
  | when | forall | derived
  deriving DecidableEq

/-- An interpreter: the built-in hash functions. `fset` is the hash of a
frozenset with the given element hashes in the given iteration order; it does
not depend on that order (called at pddl/logic/base.py:85-87 and in the other `__hash__` methods). -/
structure Seed where
  str : Str → Int
  int : Nat → Int
  num : NumKey → Int
  cls : ClsTag → Int
  none : Int
  tuple : List Int → Int
  fset : List Int → Int
  fset_perm : ∀ a b, a.Perm b → fset a = fset b

/-- `Variable.__hash__` (pddl/logic/terms.py:143-145). -/
def Var.hash (σ : Seed) (v : Var) : Int := σ.tuple [σ.cls .variable, σ.str v.name]

/-- `Constant.__hash__` (pddl/logic/terms.py:108-110). -/
def Term.hash (σ : Seed) : Term → Int
  | .var v => v.hash σ
  | .const n _ => σ.tuple [σ.cls .constant, σ.str n]

/-- Hash of a tuple of terms (pddl/logic/predicates.py:107-109, pddl/logic/functions.py:103-105). -/
def termsHash (σ : Seed) (ts : List Term) : Int := σ.tuple (ts.map (Term.hash σ))

/-- `Predicate.__hash__` (pddl/logic/predicates.py:107-109). -/
def Pred.hash (σ : Seed) (p : Pred) : Int :=
  σ.tuple [σ.str p.name, σ.int p.terms.length, termsHash σ p.terms]

/-- `NumericFunction.__hash__` (pddl/logic/functions.py:103-105). -/
def NFun.hash (σ : Seed) (f : NFun) : Int := σ.tuple [σ.str f.name, termsHash σ f.terms]

/-- Hash of a frozenset of variables (pddl/logic/base.py:240-242, pddl/logic/effects.py:115-117). -/
def varsHash (σ : Seed) (vs : List Var) : Int := σ.fset (vs.map (Var.hash σ))

mutual
/-- `__hash__` of the formula classes (pddl/logic/base.py:85-87, 124-126, 240-242;
predicates.py:160-162; functions.py:142-144, 187-189; effects.py:66-68, 115-117). -/
def Expr.hash (σ : Seed) : Expr → Int
  | .pred p => p.hash σ
  | .eq l r => σ.tuple [σ.cls .equalTo, l.hash σ, r.hash σ]
  | .nfun f => f.hash σ
  | .num n => σ.num n.key
  | .bfun o as => σ.tuple [σ.cls (.fop o), σ.tuple (Expr.hashes σ as)]
  | .bin o as => σ.tuple [σ.cls (.bop o), σ.tuple (Expr.hashes σ as)]
  | .not a => σ.tuple [σ.cls .not, a.hash σ]
  | .quant q vs c => σ.tuple [σ.cls (.quant q), varsHash σ vs, c.hash σ]
  | .when c e => σ.tuple [σ.cls .when, c.hash σ, e.hash σ]
  | .fall vs e => σ.tuple [σ.cls .forall, varsHash σ vs, e.hash σ]
/-- The hashes of the operands (pddl/logic/base.py:87). -/
def Expr.hashes (σ : Seed) : List Expr → List Int
  | [] => []
  | a :: as => a.hash σ :: Expr.hashes σ as
end

/-! ### Construction -/

/-- `_check_terms_consistency` (pddl/logic/predicates.py:26-42): `seen` maps a
name to the tags of its first occurrence. -/
def termsConsistent : List (Str × List Str) → List Term → Bool
  | _, [] => true
  | seen, t :: ts =>
    match dictGet seen t.name with
    | none => termsConsistent (seen ++ [(t.name, t.tags)]) ts
    | some tags => setEq tags t.tags && termsConsistent seen ts

/-- `Predicate(name, *terms)` (pddl/logic/predicates.py:50-54). -/
def mkPred (n : Str) (ts : List Term) : Except Exc Pred := do
  let n' ← parseName n
  check (termsConsistent [] ts) .value
  pure ⟨n', ts⟩

/-- `EqualTo(left, right)` (pddl/logic/predicates.py:121-130). -/
def mkEq (l r : Term) : Except Exc Expr := do
  check (termsConsistent [] [l, r]) .value
  pure (.eq l r)

/-- `NumericFunction(name, *terms)` (pddl/logic/functions.py:43-46): no
consistency check. -/
def mkNFun (n : Str) (ts : List Term) : Except Exc NFun := do
  let n' ← parseFunction n
  pure ⟨n', ts⟩

/-- A class with operands: a `BinaryOp` or a `BinaryFunction` class
(pddl/logic/base.py:155-180, pddl/logic/functions.py:252-405). -/
inductive Cls
  | bop (o : BOp)
  | fop (o : FOp)
  deriving DecidableEq

/-- `isinstance(element, cls)` and `element.operands` (pddl/logic/base.py:308, 313). -/
def Expr.operandsIf : Cls → Expr → Option (List Expr)
  | .bop o, .bin o' as => if o = o' then some as else none
  | .fop o, .bfun o' as => if o = o' then some as else none
  | _, _ => none

/-- The object of class `c` with the given operands (`super().__call__`) (pddl/logic/base.py:144-152). -/
def Expr.ofCls : Cls → List Expr → Expr
  | .bop o, as => .bin o as
  | .fop o, as => .bfun o as

/-- Classes created through `BinaryOpMetaclass` (pddl/logic/base.py:155, 163;
functions.py:252, 352, 366, 380, 394). -/
def Cls.isMeta : Cls → Bool
  | .bop .and => true
  | .bop .or => true
  | .fop .eq => true
  | .fop .minus => true
  | .fop .plus => true
  | .fop .times => true
  | .fop .divide => true
  | _ => false

/-- `cls.idempotency` (pddl/logic/base.py:142, 159, 167): set only for `And` and `Or`. -/
def Cls.idempotent : Cls → Bool
  | .bop .and => true
  | .bop .or => true
  | _ => false

mutual
/-- Number of nodes, for termination of the loop below (not in pddl/logic/base.py). -/
def Expr.size : Expr → Nat
  | .bfun _ as => 1 + Expr.sizes as
  | .bin _ as => 1 + Expr.sizes as
  | .not a => 1 + a.size
  | .quant _ _ c => 1 + c.size
  | .when c e => 1 + c.size + e.size
  | .fall _ e => 1 + e.size
  | _ => 1
/-- Number of nodes of the operands; not in pddl/logic/base.py. -/
def Expr.sizes : List Expr → Nat
  | [] => 0
  | a :: as => a.size + Expr.sizes as
end

theorem Expr.sizes_append (a b : List Expr) : Expr.sizes (a ++ b) = Expr.sizes a + Expr.sizes b := by
  induction a with
  | nil => simp [Expr.sizes]
  | cons x xs ih => simp [Expr.sizes, ih]; omega

theorem Expr.size_operands {c : Cls} {e : Expr} {as : List Expr}
    (h : e.operandsIf c = some as) : e.size = 1 + Expr.sizes as := by
  cases c <;> cases e <;> simp [Expr.operandsIf] at h <;> simp [Expr.size, h.2]

/-- The `while` loop of `_simplify_monotone_op_operands` (pddl/logic/base.py:301-314).
The head of `stack` is the top of the Python stack; `out` is both `seen` and
`new_operands` (they always hold the same elements). -/
def simplLoop (c : Cls) (stack out : List Expr) : List Expr :=
  match stack with
  | [] => out
  | e :: rest =>
    match _h : e.operandsIf c with
    | none =>
      if memBy Expr.pyEq e out then simplLoop c rest out
      else simplLoop c rest (out ++ [e])
    | some as => simplLoop c (as ++ rest) out
termination_by Expr.sizes stack
decreasing_by
  · simp only [Expr.sizes]
    have : 0 < e.size := by cases e <;> simp [Expr.size] <;> omega
    omega
  · simp only [Expr.sizes]
    have : 0 < e.size := by cases e <;> simp [Expr.size] <;> omega
    omega
  · simp only [Expr.sizes, Expr.sizes_append, Expr.size_operands _h]
    omega

/-- `_simplify_monotone_op_operands` (pddl/logic/base.py:292-314). -/
def simplOperands (c : Cls) (args : List Expr) : List Expr :=
  let old := if c.idempotent then dedupBy Expr.pyEq args else args
  match old with
  | [] => []
  | [x] => [x]
  | old => simplLoop c old []

/-- Calling a class with operands: `BinaryOpMetaclass.__call__`
(pddl/logic/base.py:144-152) for the classes that use it, plain construction for
the others. -/
def construct (c : Cls) (args : List Expr) : Expr :=
  if c.isMeta then
    let ops := simplOperands c args
    match ops with
    | [x] => if c.idempotent then x else Expr.ofCls c [x]
    | ops => Expr.ofCls c ops
  else Expr.ofCls c args

/-- `And(*args)` (pddl/logic/base.py:155-160). -/
def mkAnd (args : List Expr) : Expr := construct (.bop .and) args
/-- `Or(*args)` (pddl/logic/base.py:163-168). -/
def mkOr (args : List Expr) : Expr := construct (.bop .or) args

/-- `ForallCondition(cond, variables)` / `ExistsCondition` (pddl/logic/base.py:196-201):
`ensure_set` of the variables. -/
def mkQuant (q : QOp) (c : Expr) (vars : List Var) : Expr :=
  .quant q (dedupBy Var.pyEq vars) c

/-- `Forall(effect, variables)` (pddl/logic/effects.py:82-87). -/
def mkForall (e : Expr) (vars : List Var) : Expr := .fall (dedupBy Var.pyEq vars) e

/-- `~a` (pddl/logic/base.py:34-36). -/
def pyInvert (a : Expr) : Expr := .not a
/-- `a & b` (pddl/logic/base.py:38-40). -/
def pyAnd (a b : Expr) : Expr := mkAnd [a, b]
/-- `a | b` (pddl/logic/base.py:42-44). -/
def pyOr (a b : Expr) : Expr := mkOr [a, b]
/-- `a >> b` (pddl/logic/base.py:46-48). -/
def pyRshift (a b : Expr) : Expr := mkOr [.not a, b]

/-- `isinstance(formula, Atomic)`: predicates, term equalities and all function
expressions (functions.py:29). -/
def Expr.isAtomic : Expr → Bool
  | .pred _ => true
  | .eq _ _ => true
  | .nfun _ => true
  | .num _ => true
  | .bfun _ _ => true
  | _ => false

/-- `is_literal` (pddl/logic/base.py:274-289). -/
def isLiteral : Expr → Bool
  | .not a => a.isAtomic
  | e => e.isAtomic

end Pddl
