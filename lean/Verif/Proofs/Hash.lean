/- Equal objects have equal hashes. -/
import Verif.Proofs.Good

namespace Pddl
open Spec

variable (σ : Seed)

theorem Var.hash_congr {a b : Var} (h : a.norm = b.norm) : a.hash σ = b.hash σ := by
  have : a.name = b.name := congrArg Prod.fst h
  simp [Var.hash, this]

theorem Term.hash_congr {a b : Term} (h : a.pyEq b = true) : a.hash σ = b.hash σ := by
  rw [Term.pyEq_iff] at h
  cases a <;> cases b <;> simp [Term.norm] at h
  · exact Var.hash_congr σ h
  · simp [Term.hash, h]

theorem termsHash_congr {a b : List Term} (h : termsEq a b = true) : termsHash σ a = termsHash σ b := by
  have : a.map (Term.hash σ) = b.map (Term.hash σ) := by
    induction a generalizing b with
    | nil => cases b <;> simp_all [termsEq]
    | cons x xs ih =>
      cases b with
      | nil => simp [termsEq] at h
      | cons y ys =>
        simp [termsEq] at h
        simp [Term.hash_congr σ h.1, ih h.2]
  simp [termsHash, this]

theorem termsEq_length {a b : List Term} (h : termsEq a b = true) : a.length = b.length := by
  rw [termsEq_iff] at h
  simpa using congrArg List.length h

theorem Pred.hash_congr {a b : Pred} (h : a.pyEq b = true) : a.hash σ = b.hash σ := by
  simp [Pred.pyEq] at h
  simp [Pred.hash, h.1, termsEq_length h.2, termsHash_congr σ h.2]

theorem NFun.hash_congr {a b : NFun} (h : a.pyEq b = true) : a.hash σ = b.hash σ := by
  simp [NFun.pyEq] at h
  simp [NFun.hash, h.1, termsHash_congr σ h.2]

theorem norm_nodup {vs : List Var} (h : DistinctVars vs) : (vs.map Var.norm).Nodup := by
  unfold List.Nodup DistinctVars at *
  rw [List.pairwise_map]
  refine h.imp ?_
  intro a b hab e
  rw [Var.pyEq_iff.mpr e.symm] at hab
  simp at hab

theorem norm_perm {a b : List Var} (ha : DistinctVars a) (hb : DistinctVars b)
    (h : varsEq a b = true) : (a.map Var.norm).Perm (b.map Var.norm) := by
  rw [varsEq_iff] at h
  rw [List.perm_ext_iff_of_nodup (norm_nodup ha) (norm_nodup hb)]
  intro x
  have := Finset.ext_iff.mp h x
  simpa [varsNorm] using this

theorem varsHash_congr {a b : List Var} (ha : DistinctVars a) (hb : DistinctVars b)
    (h : varsEq a b = true) : varsHash σ a = varsHash σ b := by
  have hp := norm_perm ha hb h
  have e : ∀ l : List Var, l.map (Var.hash σ) =
      (l.map Var.norm).map (fun p => σ.tuple [σ.cls .variable, σ.str p.1]) := by
    intro l; simp [Var.hash, Var.norm]
  unfold varsHash
  rw [e a, e b]
  exact σ.fset_perm _ _ (hp.map _)

theorem Expr.hashes_congr_of {as bs : List Expr}
    (ih : ∀ a ∈ as, ∀ b, a.Good → b.Good → a.pyEq b = true → a.hash σ = b.hash σ)
    (ga : ∀ a ∈ as, a.Good) (gb : ∀ b ∈ bs, b.Good) (h : Expr.pyEqs as bs = true) :
    Expr.hashes σ as = Expr.hashes σ bs := by
  induction as generalizing bs with
  | nil => cases bs <;> simp_all [Expr.pyEqs]
  | cons a as ihl =>
    cases bs with
    | nil => simp [Expr.pyEqs] at h
    | cons b bs =>
      simp [Expr.pyEqs] at h
      simp only [Expr.hashes]
      rw [ih a (by simp) b (ga a (by simp)) (gb b (by simp)) h.1,
        ihl (fun x hx => ih x (List.mem_cons_of_mem _ hx)) (fun x hx => ga x (List.mem_cons_of_mem _ hx))
          (fun x hx => gb x (List.mem_cons_of_mem _ hx)) h.2]

theorem Expr.hash_congr {a b : Expr} (ga : a.Good) (gb : b.Good) (h : a.pyEq b = true) :
    a.hash σ = b.hash σ := by
  induction a using Expr.ind generalizing b with
  | hpred p =>
    cases b <;> simp [Expr.pyEq] at h
    simp [Expr.hash, Pred.hash_congr σ h]
  | heq l r =>
    cases b <;> simp [Expr.pyEq] at h
    simp [Expr.hash, Term.hash_congr σ h.1, Term.hash_congr σ h.2]
  | hnfun f =>
    cases b <;> simp [Expr.pyEq] at h
    simp [Expr.hash, NFun.hash_congr σ h]
  | hnum n => cases b <;> simp_all [Expr.pyEq, Expr.hash]
  | hbfun o as ih =>
    cases b <;> simp [Expr.pyEq] at h
    obtain ⟨rfl, h⟩ := h
    simp [Expr.hash, Expr.hashes_congr_of σ (fun a ha b ga gb h => ih a ha ga gb h)
      (goods_iff.mp ga.2) (goods_iff.mp gb.2) h]
  | hbin o as ih =>
    cases b <;> simp [Expr.pyEq] at h
    obtain ⟨rfl, h⟩ := h
    simp [Expr.hash, Expr.hashes_congr_of σ (fun a ha b ga gb h => ih a ha ga gb h)
      (goods_iff.mp ga.2) (goods_iff.mp gb.2) h]
  | hnot a ih =>
    cases b <;> simp [Expr.pyEq] at h
    simp only [Expr.Good] at ga gb
    simp [Expr.hash, ih ga gb h]
  | hquant q vs c ih =>
    cases b <;> simp [Expr.pyEq] at h
    obtain ⟨⟨rfl, h1⟩, h2⟩ := h
    simp [Expr.hash, varsHash_congr σ ga.1 gb.1 h1, ih ga.2 gb.2 h2]
  | hwhen c e ih1 ih2 =>
    cases b <;> simp [Expr.pyEq] at h
    simp [Expr.hash, ih1 ga.1 gb.1 h.1, ih2 ga.2 gb.2 h.2]
  | hfall vs e ih =>
    cases b <;> simp [Expr.pyEq] at h
    simp [Expr.hash, varsHash_congr σ ga.1 gb.1 h.1, ih ga.2 gb.2 h.2]

theorem optHash_congr {a b : Option Expr} (ga : BuiltOpt a) (gb : BuiltOpt b) (h : optEq a b = true) :
    optHash σ a = optHash σ b := by
  cases a <;> cases b <;> simp [optEq] at h
  · rfl
  · exact Expr.hash_congr σ ga.good gb.good h

end Pddl
