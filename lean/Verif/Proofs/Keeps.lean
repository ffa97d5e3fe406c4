/-
Checks of concrete texts: the parts of a text, equality of texts, and the conditions of Spec/TextSem.
-/
import Verif.Proofs.ActionText
import Verif.Proofs.DecEq

namespace Pddl
open Spec

mutual
def Tree.beq : Tree → Tree → Bool
  | .atom a, .atom b => decide (a = b)
  | .node as, .node bs => Tree.beqs as bs
  | _, _ => false
def Tree.beqs : List Tree → List Tree → Bool
  | [], [] => true
  | a :: as, b :: bs => Tree.beq a b && Tree.beqs as bs
  | _, _ => false
end

theorem Tree.beqs_iff_of {as bs : List Tree} (ih : ∀ a ∈ as, ∀ b, a.beq b = true ↔ a = b) :
    Tree.beqs as bs = true ↔ as = bs := by
  induction as generalizing bs with
  | nil => cases bs <;> simp [Tree.beqs]
  | cons a as ihl =>
    cases bs with
    | nil => simp [Tree.beqs]
    | cons b bs => simp [Tree.beqs, ih a (by simp), ihl (fun x hx => ih x (List.mem_cons_of_mem _ hx))]

theorem Tree.beq_iff (a b : Tree) : a.beq b = true ↔ a = b := by
  induction a using Tree.ind generalizing b with
  | hatom t => cases b <;> simp [Tree.beq]
  | hnode l ih => cases b <;> simp [Tree.beq, Tree.beqs_iff_of ih]

instance : DecidableEq Tree := fun a b => decidable_of_iff _ (Tree.beq_iff a b)

mutual
/-- All parts of a text. -/
def Tree.parts : Tree → List Tree
  | .atom t => [.atom t]
  | .node l => .node l :: Tree.partss l
def Tree.partss : List Tree → List Tree
  | [] => []
  | t :: ts => t.parts ++ Tree.partss ts
end

theorem Tree.mem_partss {s : Tree} {l : List Tree} : s ∈ Tree.partss l ↔ ∃ t ∈ l, s ∈ t.parts := by
  induction l with
  | nil => simp [Tree.partss]
  | cons a l ih => simp [Tree.partss, ih]

theorem Tree.mem_parts {s t : Tree} : s ∈ t.parts ↔ Inside s t := by
  induction t using Tree.ind with
  | hatom t =>
    simp only [Tree.parts, List.mem_singleton]
    constructor
    · rintro rfl; exact .refl
    · intro h; cases h; rfl
  | hnode l ih =>
    simp only [Tree.parts, List.mem_cons, Tree.mem_partss]
    constructor
    · rintro (rfl | ⟨t, ht, h⟩)
      · exact .refl
      · exact .node ht ((ih t ht).1 h)
    · intro h
      cases h with
      | refl => exact .inl rfl
      | node ht h => exact .inr ⟨_, ht, (ih _ ht).2 h⟩

/-- Check for `Distinct`. -/
def distinctB : List Expr → Bool
  | [] => true
  | a :: as => as.all (fun b => !a.pyEq b) && distinctB as

theorem distinctB_iff {l : List Expr} : distinctB l = true ↔ Distinct l := by
  unfold Distinct
  induction l with
  | nil => simp [distinctB]
  | cons a l ih => simp [distinctB, ih]

def notQuotient : Expr → Bool
  | .bfun .divide _ => false
  | _ => true

theorem notQuotient_ne {e : Expr} (h : notQuotient e = true) (as : List Expr) : e ≠ .bfun .divide as := by
  rintro rfl; simp [notQuotient] at h

/-- Check for `KeepsOperands` at one part. -/
def keepsAt (E : GEnv) : Tree → Bool
  | .node (.atom .plus :: args) =>
    match E.fExps args with
    | .ok es => distinctB (leavesAll (.fop .plus) es)
    | .error _ => true
  | .node (.atom .times :: args) =>
    match E.fExps args with
    | .ok es => distinctB (leavesAll (.fop .times) es)
    | .error _ => true
  | .node (.atom .divide :: args) =>
    match E.fExps args with
    | .ok es => distinctB es && es.all notQuotient
    | .error _ => true
  | .node (.atom .eq :: args) =>
    termsOnly args || match E.fExps args with
      | .ok es => distinctB es
      | .error _ => true
  | _ => true

theorem keeps_of_check {E : GEnv} {t : Tree} (h : t.parts.all (keepsAt E) = true) : KeepsOperands E t where
  plus args es hi he := by
    have := List.all_eq_true.1 h _ (Tree.mem_parts.2 hi)
    simp only [keepsAt, he] at this
    exact distinctB_iff.1 this
  times args es hi he := by
    have := List.all_eq_true.1 h _ (Tree.mem_parts.2 hi)
    simp only [keepsAt, he] at this
    exact distinctB_iff.1 this
  divide args es hi he := by
    have := List.all_eq_true.1 h _ (Tree.mem_parts.2 hi)
    simp only [keepsAt, he, Bool.and_eq_true, List.all_eq_true] at this
    exact ⟨distinctB_iff.1 this.1, fun e he => notQuotient_ne (this.2 e he)⟩
  eq args es hi ht he := by
    have := List.all_eq_true.1 h _ (Tree.mem_parts.2 hi)
    simp only [keepsAt, he, ht, Bool.false_or] at this
    exact distinctB_iff.1 this

/-- Check for `NoArithmetic` at one part. -/
def noArithAt : Tree → Bool
  | .node (.atom .plus :: _) => false
  | .node (.atom .times :: _) => false
  | .node (.atom .divide :: _) => false
  | .node (.atom .eq :: args) => termsOnly args
  | _ => true

theorem noArith_of_check {t : Tree} (h : t.parts.all noArithAt = true) : NoArithmetic t where
  plus args hi := by have := List.all_eq_true.1 h _ (Tree.mem_parts.2 hi); simp [noArithAt] at this
  times args hi := by have := List.all_eq_true.1 h _ (Tree.mem_parts.2 hi); simp [noArithAt] at this
  divide args hi := by have := List.all_eq_true.1 h _ (Tree.mem_parts.2 hi); simp [noArithAt] at this
  eq args hi := by have := List.all_eq_true.1 h _ (Tree.mem_parts.2 hi); simpa [noArithAt] using this

/-- Check for `NoOneof` at one part. -/
def noOneofAt : Tree → Bool
  | .node (.atom (.name w) :: _) => !decide (w = s%"oneof")
  | _ => true

theorem noOneof_of_check {t : Tree} (h : t.parts.all noOneofAt = true) : NoOneof t := by
  intro args hi
  have := List.all_eq_true.1 h _ (Tree.mem_parts.2 hi)
  simp [noOneofAt] at this

end Pddl
