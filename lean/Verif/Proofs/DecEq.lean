/- Decidable (syntactic) equality of expressions, used to check concrete cases. -/
import Verif.Proofs.Eq

namespace Pddl

mutual
def Expr.beq : Expr → Expr → Bool
  | .pred p, .pred q => decide (p = q)
  | .eq l r, .eq l' r' => decide (l = l') && decide (r = r')
  | .nfun f, .nfun g => decide (f = g)
  | .num m, .num n => decide (m = n)
  | .bfun o as, .bfun o' bs => decide (o = o') && Expr.beqs as bs
  | .bin o as, .bin o' bs => decide (o = o') && Expr.beqs as bs
  | .not a, .not b => Expr.beq a b
  | .quant q vs c, .quant q' ws d => decide (q = q') && decide (vs = ws) && Expr.beq c d
  | .when c e, .when c' e' => Expr.beq c c' && Expr.beq e e'
  | .fall vs e, .fall ws e' => decide (vs = ws) && Expr.beq e e'
  | _, _ => false
def Expr.beqs : List Expr → List Expr → Bool
  | [], [] => true
  | a :: as, b :: bs => Expr.beq a b && Expr.beqs as bs
  | _, _ => false
end

theorem Expr.beqs_iff_of {as bs : List Expr} (ih : ∀ a ∈ as, ∀ b, a.beq b = true ↔ a = b) :
    Expr.beqs as bs = true ↔ as = bs := by
  induction as generalizing bs with
  | nil => cases bs <;> simp [Expr.beqs]
  | cons a as ihl =>
    cases bs with
    | nil => simp [Expr.beqs]
    | cons b bs => simp [Expr.beqs, ih a (by simp), ihl (fun x hx => ih x (List.mem_cons_of_mem _ hx))]

theorem Expr.beq_iff (a b : Expr) : a.beq b = true ↔ a = b := by
  induction a using Expr.ind generalizing b with
  | hbfun o as ih => cases b <;> simp [Expr.beq, Expr.beqs_iff_of ih]
  | hbin o as ih => cases b <;> simp [Expr.beq, Expr.beqs_iff_of ih]
  | hnot a ih => cases b <;> simp [Expr.beq, ih]
  | hquant q vs c ih => cases b <;> simp [Expr.beq, ih, and_assoc]
  | hwhen c e h1 h2 => cases b <;> simp [Expr.beq, h1, h2]
  | hfall vs e ih => cases b <;> simp [Expr.beq, ih]
  | _ => cases b <;> simp [Expr.beq]

instance : DecidableEq Expr := fun a b => decidable_of_iff _ (Expr.beq_iff a b)

instance {ε α} [DecidableEq ε] [DecidableEq α] : DecidableEq (Except ε α)
  | .ok a, .ok b => decidable_of_iff (a = b) (by simp)
  | .error a, .error b => decidable_of_iff (a = b) (by simp)
  | .ok _, .error _ => isFalse (by simp)
  | .error _, .ok _ => isFalse (by simp)

deriving instance DecidableEq for Action, Derived

end Pddl
