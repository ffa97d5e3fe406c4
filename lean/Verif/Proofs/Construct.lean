/- The simplification done by the operator constructors. -/
import Verif.Proofs.Eq
import Verif.Spec.Built

namespace Pddl
open Spec

theorem Expr.pyEq_symm {a b : Expr} (h : a.pyEq b = true) : b.pyEq a = true := by
  rw [Expr.pyEq_iff] at *; exact h.symm
theorem Expr.pyEq_trans {a b c : Expr} (h : a.pyEq b = true) (h' : b.pyEq c = true) :
    a.pyEq c = true := by
  rw [Expr.pyEq_iff] at *; exact h.trans h'

theorem ofCls_operandsIf {c : Cls} {e : Expr} {as} : e.operandsIf c = some as ↔ e = Expr.ofCls c as := by
  cases c <;> cases e <;> simp [Expr.operandsIf, Expr.ofCls, eq_comm]

theorem operandsIf_ofCls (c : Cls) (as) : (Expr.ofCls c as).operandsIf c = some as :=
  ofCls_operandsIf.mpr rfl

/-- The loop on a list with no operand of the class is plain deduplication. -/
theorem simplLoop_flat (c : Cls) (stack out : List Expr) (h : ∀ e ∈ stack, e.operandsIf c = none) :
    simplLoop c stack out = out ++ dedupAux Expr.pyEq out stack := by
  induction stack generalizing out with
  | nil => rw [simplLoop]; simp [dedupAux]
  | cons e rest ih =>
    rw [simplLoop]
    have he := h e (by simp)
    have hr := fun x hx => h x (List.mem_cons_of_mem _ hx)
    split
    · rw [ih _ hr, ih _ hr, dedupAux]
      split <;> simp
    · simp_all

mutual
/-- Nested operands of the class, flattened depth first. -/
def flattenE (c : Cls) : Expr → List Expr
  | .pred p => [.pred p]
  | .eq l r => [.eq l r]
  | .nfun f => [.nfun f]
  | .num n => [.num n]
  | .bfun o as => if c = .fop o then flattenEs c as else [.bfun o as]
  | .bin o as => if c = .bop o then flattenEs c as else [.bin o as]
  | .not a => [.not a]
  | .quant q vs b => [.quant q vs b]
  | .when a b => [.when a b]
  | .fall vs a => [.fall vs a]
def flattenEs (c : Cls) : List Expr → List Expr
  | [] => []
  | a :: as => flattenE c a ++ flattenEs c as
end

theorem flattenEs_append (c : Cls) (a b) : flattenEs c (a ++ b) = flattenEs c a ++ flattenEs c b := by
  induction a with
  | nil => simp [flattenEs]
  | cons x xs ih => simp [flattenEs, ih]

theorem flattenE_some {c : Cls} {e : Expr} {as} (h : e.operandsIf c = some as) :
    flattenE c e = flattenEs c as := by
  rw [ofCls_operandsIf] at h; subst h
  cases c <;> simp [Expr.ofCls, flattenE]

theorem flattenE_none {c : Cls} {e : Expr} (h : e.operandsIf c = none) : flattenE c e = [e] := by
  cases c <;> cases e <;> simp_all [Expr.operandsIf, flattenE]

theorem flattenE_mem {c : Cls} {e x : Expr} : x ∈ flattenE c e → x.operandsIf c = none := by
  induction e using Expr.ind generalizing x with
  | hbfun o as ih =>
    have : ∀ as : List Expr, (∀ a ∈ as, ∀ {x}, x ∈ flattenE c a → x.operandsIf c = none) →
        ∀ x ∈ flattenEs c as, x.operandsIf c = none := by
      intro as ih
      induction as with
      | nil => simp [flattenEs]
      | cons a as ih' =>
        intro x hx
        rw [flattenEs, List.mem_append] at hx
        rcases hx with hx | hx
        · exact ih a (by simp) hx
        · exact ih' (fun y hy => ih y (List.mem_cons_of_mem _ hy)) x hx
    rw [flattenE]; split
    · exact this as ih x
    · intro hx; simp at hx; subst hx; cases c <;> simp_all [Expr.operandsIf]
  | hbin o as ih =>
    have : ∀ as : List Expr, (∀ a ∈ as, ∀ {x}, x ∈ flattenE c a → x.operandsIf c = none) →
        ∀ x ∈ flattenEs c as, x.operandsIf c = none := by
      intro as ih
      induction as with
      | nil => simp [flattenEs]
      | cons a as ih' =>
        intro x hx
        rw [flattenEs, List.mem_append] at hx
        rcases hx with hx | hx
        · exact ih a (by simp) hx
        · exact ih' (fun y hy => ih y (List.mem_cons_of_mem _ hy)) x hx
    rw [flattenE]; split
    · exact this as ih x
    · intro hx; simp at hx; subst hx; cases c <;> simp_all [Expr.operandsIf]
  | _ => intro hx; simp [flattenE] at hx; subst hx; cases c <;> simp [Expr.operandsIf]

theorem flattenEs_mem {c : Cls} {as : List Expr} {x : Expr} (h : x ∈ flattenEs c as) :
    x.operandsIf c = none := by
  induction as with
  | nil => simp [flattenEs] at h
  | cons a as ih =>
    rw [flattenEs, List.mem_append] at h
    rcases h with h | h
    · exact flattenE_mem h
    · exact ih h

theorem flattenEs_flat {c : Cls} {as : List Expr} (h : ∀ e ∈ as, e.operandsIf c = none) :
    flattenEs c as = as := by
  induction as with
  | nil => rfl
  | cons a as ih =>
    rw [flattenEs, flattenE_none (h a (by simp)), ih (fun x hx => h x (List.mem_cons_of_mem _ hx))]
    rfl

/-- The loop computes the deduplicated flattening. -/
theorem simplLoop_eq (c : Cls) (stack out : List Expr) :
    simplLoop c stack out = out ++ dedupAux Expr.pyEq out (flattenEs c stack) := by
  fun_induction simplLoop c stack out with
  | case1 out => simp [flattenEs, dedupAux]
  | case2 out e rest h hm ih =>
    rw [ih, flattenEs, flattenE_none h]; simp [dedupAux, hm]
  | case3 out e rest h hm ih =>
    rw [ih, flattenEs, flattenE_none h]; simp [dedupAux, hm]
  | case4 out e rest as h ih =>
    rw [ih, flattenEs, flattenE_some h, flattenEs_append]

theorem simplOperands_loop {c : Cls} {args : List Expr}
    (h : 2 ≤ (if c.idempotent then dedupBy Expr.pyEq args else args).length) :
    simplOperands c args =
      dedupBy Expr.pyEq (flattenEs c (if c.idempotent then dedupBy Expr.pyEq args else args)) := by
  unfold simplOperands
  generalize (if c.idempotent then dedupBy Expr.pyEq args else args) = old at *
  match old with
  | [] => simp at h
  | [x] => simp at h
  | x :: y :: l => simp [simplLoop_eq, dedupBy]

theorem dedupBy_length_one {α} (eq : α → α → Bool) (x : α) : dedupBy eq [x] = [x] := by
  simp [dedupBy, dedupAux, memBy]

/-- Operands as the constructors leave them. -/
structure Canonical (c : Cls) (as : List Expr) : Prop where
  flat : ∀ e ∈ as, e.operandsIf c = none
  distinct : as.Pairwise (fun a b => b.pyEq a = false)

/-- An operand list that constructing again does not change. -/
def Stable (c : Cls) (as : List Expr) : Prop := construct c as = Expr.ofCls c as

theorem simplOperands_canonical {c : Cls} {as : List Expr} (h : Canonical c as) :
    simplOperands c as = as := by
  have hd : dedupBy Expr.pyEq as = as := dedupBy_eq_self h.distinct
  by_cases hl : 2 ≤ as.length
  · rw [simplOperands_loop (by split <;> simp [hd, hl])]
    have : (if c.idempotent = true then dedupBy Expr.pyEq as else as) = as := by split <;> simp [hd]
    rw [this, flattenEs_flat h.flat, hd]
  · unfold simplOperands
    have : (if c.idempotent = true then dedupBy Expr.pyEq as else as) = as := by split <;> simp [hd]
    rw [this]
    match as, hl with
    | [], _ => rfl
    | [x], _ => rfl
    | _ :: _ :: _, hl => simp at hl

theorem Canonical.stable {c : Cls} {as : List Expr} (h : Canonical c as)
    (h1 : c.idempotent = true → as.length ≠ 1) : Stable c as := by
  unfold Stable construct
  split
  · simp only [simplOperands_canonical h]
    match as, h1 with
    | [], _ => rfl
    | [x], h1 =>
      simp [show c.idempotent = false by simpa using h1]
    | x :: y :: l, _ => rfl
  · rfl

theorem canonical_dedup (c : Cls) (as : List Expr) :
    Canonical c (dedupBy Expr.pyEq (flattenEs c as)) :=
  ⟨fun _ he => flattenEs_mem (dedupBy_subset he), dedupBy_pairwise _⟩

/-- What a constructor call returns: either one of the arguments, or a node of
the class whose operand list is stable. -/
theorem construct_cases (c : Cls) (args : List Expr) :
    (∃ e, construct c args = e ∧ e ∈ flattenEs c args ++ args ∧ c.idempotent = true) ∨
    (∃ as, construct c args = Expr.ofCls c as ∧ Stable c as ∧ ∀ e ∈ as, e ∈ flattenEs c args ++ args) := by
  have hsub : ∀ e ∈ flattenEs c (dedupBy Expr.pyEq args), e ∈ flattenEs c args := by
    intro e he
    have : ∀ l l' : List Expr, l.Sublist l' → ∀ e ∈ flattenEs c l, e ∈ flattenEs c l' := by
      intro l l' h
      induction h with
      | slnil => simp
      | cons a _ ih => intro e he; rw [flattenEs, List.mem_append]; exact Or.inr (ih e he)
      | cons_cons a _ ih =>
        intro e he; rw [flattenEs, List.mem_append] at *
        exact he.imp id (ih e)
    exact this _ _ (dedupBy_sublist _) e he
  by_cases hm : c.isMeta
  · by_cases hi : c.idempotent
    · by_cases hl : 2 ≤ (dedupBy Expr.pyEq args).length
      · have hs := simplOperands_loop (c := c) (args := args) (by simpa [hi] using hl)
        simp only [hi, if_true] at hs
        have hc := canonical_dedup c (dedupBy Expr.pyEq args)
        rw [← hs] at hc
        by_cases h1 : (simplOperands c args).length = 1
        · left
          obtain ⟨x, hx⟩ := List.length_eq_one_iff.mp h1
          refine ⟨x, ?_, ?_, hi⟩
          · simp [construct, hm, hx, hi]
          · have : x ∈ dedupBy Expr.pyEq (flattenEs c (dedupBy Expr.pyEq args)) := by
              rw [← hs, hx]; simp
            exact List.mem_append_left _ (hsub _ (dedupBy_subset this))
        · right
          refine ⟨simplOperands c args, ?_, hc.stable (fun _ => h1), ?_⟩
          · simp only [construct, hm, if_true]
            split
            · next x hx => simp [hx] at h1
            · rfl
          · intro e he
            rw [hs] at he
            exact List.mem_append_left _ (hsub _ (dedupBy_subset he))
      · match hd : dedupBy Expr.pyEq args, hl with
        | [], _ =>
          right
          refine ⟨[], ?_, ?_, by simp⟩
          · simp [construct, hm, simplOperands, hi, hd]
          · simp [Stable, construct, simplOperands, dedupBy, dedupAux]
        | [x], _ =>
          left
          refine ⟨x, ?_, ?_, hi⟩
          · simp [construct, hm, simplOperands, hi, hd]
          · exact List.mem_append_right _ (dedupBy_subset (eq := Expr.pyEq) (by rw [hd]; simp))
        | _ :: _ :: _, hl => simp at hl
    · right
      by_cases hl : 2 ≤ args.length
      · have hs := simplOperands_loop (c := c) (args := args) (by simpa [hi] using hl)
        simp only [hi] at hs
        have hs : simplOperands c args = dedupBy Expr.pyEq (flattenEs c args) := by simpa using hs
        have hc := canonical_dedup c args
        rw [← hs] at hc
        refine ⟨simplOperands c args, ?_, hc.stable (fun h => absurd h hi), ?_⟩
        · simp only [construct, hm, if_true]
          split
          · next x hx => simp [hi, hx]
          · rfl
        · intro e he
          rw [hs] at he
          exact List.mem_append_left _ (dedupBy_subset he)
      · refine ⟨args, ?_, ?_, by simp +contextual⟩
        · match args, hl with
          | [], _ => simp [construct, hm, simplOperands, hi]
          | [x], _ => simp [construct, hm, simplOperands, hi]
          | _ :: _ :: _, hl => simp at hl
        · unfold Stable
          match args, hl with
          | [], _ => simp [construct, hm, simplOperands, hi]
          | [x], _ => simp [construct, hm, simplOperands, hi]
          | _ :: _ :: _, hl => simp at hl
  · right
    exact ⟨args, by simp [construct, hm], by simp [Stable, construct, hm], by simp +contextual⟩

end Pddl
