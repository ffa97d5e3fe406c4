/-
Parsing and instantiating do not make anything larger.
-/
import Verif.Spec.Size
import Verif.Proofs.ParseRel
import Verif.Proofs.Construct
import Verif.Proofs.Tags

namespace Pddl
open Spec

theorem nodesAll_sum (l : List Expr) : nodesAll l = (l.map nodes).sum := by
  induction l with
  | nil => rfl
  | cons a l ih => simp [nodesAll, ih]

theorem nodesAll_append (a b : List Expr) : nodesAll (a ++ b) = nodesAll a + nodesAll b := by
  simp [nodesAll_sum]

theorem tokensAll_sum (l : List Tree) : tokensAll l = (l.map tokens).sum := by
  induction l with
  | nil => rfl
  | cons a l ih => simp [tokensAll, ih]

theorem tokensAll_append (a b : List Tree) : tokensAll (a ++ b) = tokensAll a + tokensAll b := by
  simp [tokensAll_sum]

theorem nestingAll_le {l : List Expr} {n : Nat} : nestingAll l ≤ n ↔ ∀ e ∈ l, nesting e ≤ n := by
  induction l with
  | nil => simp [nestingAll]
  | cons a l ih => simp [nestingAll, ih]

theorem bracketsAll_le {l : List Tree} {n : Nat} : bracketsAll l ≤ n ↔ ∀ e ∈ l, brackets e ≤ n := by
  induction l with
  | nil => simp [bracketsAll]
  | cons a l ih => simp [bracketsAll, ih]

theorem length_le_tokens (l : List Tree) : l.length ≤ tokensAll l := by
  induction l with
  | nil => simp
  | cons a l ih =>
    have : 1 ≤ tokens a := by cases a <;> simp [tokens]; omega
    simp only [List.length_cons, tokensAll]
    omega

theorem sum_sublist {l l' : List Nat} (h : l.Sublist l') : l.sum ≤ l'.sum := by
  induction h with
  | slnil => simp
  | cons a _ ih => simp; omega
  | cons_cons a _ ih => simp; omega

theorem nodesAll_sublist {l l' : List Expr} (h : l.Sublist l') : nodesAll l ≤ nodesAll l' := by
  rw [nodesAll_sum, nodesAll_sum]
  exact sum_sublist (h.map _)

theorem simplLoop_nodes (c : Cls) (stack out : List Expr) : nodesAll (simplLoop c stack out) ≤ nodesAll stack + nodesAll out := by
  fun_induction simplLoop c stack out with
  | case1 out => simp [nodesAll]
  | case2 out e rest h hm ih => simp only [nodesAll]; omega
  | case3 out e rest h hm ih =>
    rw [nodesAll_append] at ih
    simp only [nodesAll] at ih ⊢
    omega
  | case4 out e rest as h ih =>
    rw [nodesAll_append] at ih
    have : nodesAll as ≤ nodes e := by
      unfold Expr.operandsIf at h
      split at h
      · split at h
        · simp only [Option.some.injEq] at h; subst h; simp [nodes]
        · cases h
      · split at h
        · simp only [Option.some.injEq] at h; subst h; simp [nodes]
        · cases h
      · cases h
    simp only [nodesAll]
    omega

theorem simplLoop_nesting (c : Cls) (stack out : List Expr) {n : Nat} (h1 : ∀ e ∈ stack, nesting e ≤ n)
    (h2 : ∀ e ∈ out, nesting e ≤ n) : ∀ e ∈ simplLoop c stack out, nesting e ≤ n := by
  fun_induction simplLoop c stack out with
  | case1 out => exact h2
  | case2 out e rest h hm ih => exact ih (fun x hx => h1 x (.tail _ hx)) h2
  | case3 out e rest h hm ih =>
    refine ih (fun x hx => h1 x (.tail _ hx)) (fun x hx => ?_)
    rcases List.mem_append.1 hx with hx | hx
    · exact h2 x hx
    · simp only [List.mem_singleton] at hx; subst hx; exact h1 _ (.head _)
  | case4 out e rest as h ih =>
    refine ih (fun x hx => ?_) h2
    rcases List.mem_append.1 hx with hx | hx
    · have he := h1 e (.head _)
      have : nestingAll as ≤ nesting e := by
        unfold Expr.operandsIf at h
        split at h
        · split at h
          · simp only [Option.some.injEq] at h; subst h; simp [nesting]
          · cases h
        · split at h
          · simp only [Option.some.injEq] at h; subst h; simp [nesting]
          · cases h
        · cases h
      exact nestingAll_le.1 (this.trans he) x hx
    · exact h1 x (.tail _ hx)

theorem simplOperands_nodes (c : Cls) (as : List Expr) : nodesAll (simplOperands c as) ≤ nodesAll as := by
  have h : nodesAll (if c.idempotent then dedupBy Expr.pyEq as else as) ≤ nodesAll as := by
    split
    · exact nodesAll_sublist (dedupBy_sublist as)
    · exact Nat.le_refl _
  unfold simplOperands
  simp only
  generalize (if c.idempotent then dedupBy Expr.pyEq as else as) = old at h
  split
  · simp [nodesAll]
  · exact h
  · exact (simplLoop_nodes c old []).trans (by simpa [nodesAll] using h)

theorem simplOperands_nesting (c : Cls) {as : List Expr} {n : Nat} (h : ∀ e ∈ as, nesting e ≤ n) :
    ∀ e ∈ simplOperands c as, nesting e ≤ n := by
  have h : ∀ e ∈ (if c.idempotent then dedupBy Expr.pyEq as else as), nesting e ≤ n := by
    split
    · exact fun e he => h e (dedupBy_subset he)
    · exact h
  unfold simplOperands
  simp only
  generalize (if c.idempotent then dedupBy Expr.pyEq as else as) = old at h
  split
  · simp
  · exact h
  · exact simplLoop_nesting c old [] h (by simp)

theorem ofCls_nodes (c : Cls) (as : List Expr) : nodes (.ofCls c as) = 1 + nodesAll as := by cases c <;> rfl
theorem ofCls_nesting (c : Cls) (as : List Expr) : nesting (.ofCls c as) = 1 + nestingAll as := by cases c <;> rfl

theorem construct_nodes (c : Cls) (as : List Expr) : nodes (construct c as) ≤ 1 + nodesAll as := by
  have h := simplOperands_nodes c as
  unfold construct
  split
  · simp only
    split
    · rename_i x e
      rw [e] at h
      simp only [nodesAll] at h
      split
      · omega
      · rw [ofCls_nodes]; simp only [nodesAll]; omega
    · rw [ofCls_nodes]; omega
  · rw [ofCls_nodes]

theorem construct_nesting (c : Cls) {as : List Expr} {n : Nat} (h : ∀ e ∈ as, nesting e ≤ n) :
    nesting (construct c as) ≤ 1 + n := by
  have h' := simplOperands_nesting c h
  unfold construct
  split
  · simp only
    split
    · rename_i x e
      rw [e] at h'
      split
      · have := h' x (.head _); omega
      · rw [ofCls_nesting]; have := nestingAll_le.2 h'; omega
    · rw [ofCls_nesting]; have := nestingAll_le.2 h'; omega
  · rw [ofCls_nesting]; have := nestingAll_le.2 h; omega

/-! ### Instantiation -/

/-- Not larger and not deeper. -/
def Smaller (e' e : Expr) : Prop := nodes e' ≤ nodes e ∧ nesting e' ≤ nesting e

theorem smaller_all {as as' : List Expr} (h : List.Forall₂ Smaller as' as) :
    nodesAll as' ≤ nodesAll as ∧ nestingAll as' ≤ nestingAll as := by
  induction h with
  | nil => simp [nodesAll, nestingAll]
  | cons h _ ih =>
    obtain ⟨h1, h2⟩ := h
    simp only [nodesAll, nestingAll]
    omega

theorem smaller_construct {c : Cls} {as as' : List Expr} (h : List.Forall₂ Smaller as' as) :
    Smaller (construct c as') (.ofCls c as) := by
  obtain ⟨h1, h2⟩ := smaller_all h
  refine ⟨?_, ?_⟩
  · rw [ofCls_nodes]; have := construct_nodes c as'; omega
  · rw [ofCls_nesting]; exact construct_nesting c (nestingAll_le.1 h2)

theorem inst_smaller {m : Mapping} {e : Expr} : ∀ {e'}, e.inst m = .ok e' → Smaller e' e := by
  induction e using Expr.ind with
  | hpred p =>
    intro e' h
    simp only [Expr.inst, bind_ok_iff, pure_ok, Except.ok.injEq] at h
    obtain ⟨q, h1, rfl⟩ := h
    obtain ⟨_, _, rfl⟩ := mkPred_ok.1 h1
    simp [Smaller, nodes, nesting]
  | heq l r =>
    intro e' h
    simp only [Expr.inst] at h
    obtain ⟨_, rfl⟩ := mkEq_ok.1 h
    simp [Smaller, nodes, nesting]
  | hnfun f =>
    intro e' h
    simp only [Expr.inst, bind_ok_iff, pure_ok, Except.ok.injEq] at h
    obtain ⟨q, h1, rfl⟩ := h
    obtain ⟨_, rfl⟩ := mkNFun_ok.1 h1
    simp [Smaller, nodes, nesting]
  | hnum n =>
    intro e' h
    simp only [Expr.inst, pure_ok, Except.ok.injEq] at h
    subst h
    simp [Smaller]
  | hbfun o as ih =>
    intro e' h
    simp only [Expr.inst, bind_ok_iff, pure_ok, Except.ok.injEq] at h
    obtain ⟨as', h1, rfl⟩ := h
    refine smaller_construct (c := .fop o) ?_
    clear * - h1 ih
    induction as generalizing as' with
    | nil => simp [Expr.insts] at h1; subst h1; exact .nil
    | cons a as ih' =>
      simp only [Expr.insts, bind_ok_iff, pure_ok, Except.ok.injEq] at h1
      obtain ⟨a', h2, as2, h3, rfl⟩ := h1
      exact .cons (ih a (.head _) h2) (ih' (fun x hx => ih x (.tail _ hx)) _ h3)
  | hbin o as ih =>
    intro e' h
    simp only [Expr.inst, bind_ok_iff, pure_ok, Except.ok.injEq] at h
    obtain ⟨as', h1, rfl⟩ := h
    refine smaller_construct (c := .bop o) ?_
    clear * - h1 ih
    induction as generalizing as' with
    | nil => simp [Expr.insts] at h1; subst h1; exact .nil
    | cons a as ih' =>
      simp only [Expr.insts, bind_ok_iff, pure_ok, Except.ok.injEq] at h1
      obtain ⟨a', h2, as2, h3, rfl⟩ := h1
      exact .cons (ih a (.head _) h2) (ih' (fun x hx => ih x (.tail _ hx)) _ h3)
  | hnot a ih =>
    intro e' h
    simp only [Expr.inst, bind_ok_iff, pure_ok, Except.ok.injEq] at h
    obtain ⟨a', h1, rfl⟩ := h
    obtain ⟨h2, h3⟩ := ih h1
    simp only [Smaller, nodes, nesting]; omega
  | hquant q vs c ih =>
    intro e' h
    simp only [Expr.inst, bind_ok_iff, pure_ok, Except.ok.injEq] at h
    obtain ⟨a', h1, rfl⟩ := h
    obtain ⟨h2, h3⟩ := ih h1
    have := (dedupBy_sublist (eq := Var.pyEq) vs).length_le
    simp only [Smaller, mkQuant, nodes, nesting]; omega
  | hwhen c e _ _ => intro e' h; simp [Expr.inst] at h
  | hfall vs e _ => intro e' h; simp [Expr.inst] at h

theorem updateTags_smaller {e : Expr} : ∀ {env : VarTypes} {e'}, e.updateTags env = .ok e' → Smaller e' e := by
  induction e using Expr.ind with
  | hpred p =>
    intro env e' h
    simp only [Expr.updateTags, bind_ok_iff, pure_ok, Except.ok.injEq] at h
    obtain ⟨ts, h0, q, h1, rfl⟩ := h
    obtain ⟨_, _, rfl⟩ := mkPred_ok.1 h1
    simp [Smaller, nodes, nesting, (mapM_ok_iff.1 h0).length_eq]
  | heq l r =>
    intro env e' h
    simp only [Expr.updateTags, bind_ok_iff] at h
    obtain ⟨_, _, _, _, h⟩ := h
    obtain ⟨_, rfl⟩ := mkEq_ok.1 h
    simp [Smaller, nodes, nesting]
  | hnfun f =>
    intro env e' h
    simp only [Expr.updateTags, bind_ok_iff, pure_ok, Except.ok.injEq] at h
    obtain ⟨ts, h0, q, h1, rfl⟩ := h
    obtain ⟨_, rfl⟩ := mkNFun_ok.1 h1
    simp [Smaller, nodes, nesting, (mapM_ok_iff.1 h0).length_eq]
  | hnum n =>
    intro env e' h
    simp only [Expr.updateTags, pure_ok, Except.ok.injEq] at h
    subst h
    simp [Smaller]
  | hbfun o as ih =>
    intro env e' h
    simp only [Expr.updateTags, bind_ok_iff, pure_ok, Except.ok.injEq] at h
    obtain ⟨as', h1, rfl⟩ := h
    refine smaller_construct (c := .fop o) ?_
    clear * - h1 ih
    induction as generalizing as' with
    | nil => simp [Expr.updateTagss] at h1; subst h1; exact .nil
    | cons a as ih' =>
      simp only [Expr.updateTagss, bind_ok_iff, pure_ok, Except.ok.injEq] at h1
      obtain ⟨a', h2, as2, h3, rfl⟩ := h1
      exact .cons (ih a (.head _) h2) (ih' (fun x hx => ih x (.tail _ hx)) _ h3)
  | hbin o as ih =>
    intro env e' h
    simp only [Expr.updateTags, bind_ok_iff, pure_ok, Except.ok.injEq] at h
    obtain ⟨as', h1, rfl⟩ := h
    refine smaller_construct (c := .bop o) ?_
    clear * - h1 ih
    induction as generalizing as' with
    | nil => simp [Expr.updateTagss] at h1; subst h1; exact .nil
    | cons a as ih' =>
      simp only [Expr.updateTagss, bind_ok_iff, pure_ok, Except.ok.injEq] at h1
      obtain ⟨a', h2, as2, h3, rfl⟩ := h1
      exact .cons (ih a (.head _) h2) (ih' (fun x hx => ih x (.tail _ hx)) _ h3)
  | hnot a ih =>
    intro env e' h
    simp only [Expr.updateTags, bind_ok_iff, pure_ok, Except.ok.injEq] at h
    obtain ⟨a', h1, rfl⟩ := h
    obtain ⟨h2, h3⟩ := ih h1
    simp only [Smaller, nodes, nesting]; omega
  | hquant q vs c ih =>
    intro env e' h
    simp only [Expr.updateTags, bind_ok_iff, pure_ok, Except.ok.injEq] at h
    obtain ⟨a', h1, rfl⟩ := h
    obtain ⟨h2, h3⟩ := ih h1
    have := (dedupBy_sublist (eq := Var.pyEq) vs).length_le
    simp only [Smaller, mkQuant, nodes, nesting]; omega
  | hwhen c e _ _ => intro env e' h; simp [Expr.updateTags] at h
  | hfall vs e _ => intro env e' h; simp [Expr.updateTags] at h

end Pddl
