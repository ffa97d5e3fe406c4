/- Structural consequences of being built by the constructors. -/
import Verif.Proofs.Construct
import Verif.Proofs.Names

namespace Pddl
open Spec

/-- No two equal variables (`ensure_set`). -/
def DistinctVars (vs : List Var) : Prop := vs.Pairwise (fun a b => b.pyEq a = false)

mutual
def Expr.Good : Expr → Prop
  | .pred p => parseName p.name = .ok p.name ∧ termsConsistent [] p.terms = true
  | .eq l r => termsConsistent [] [l, r] = true
  | .nfun f => parseFunction f.name = .ok f.name
  | .num _ => True
  | .bfun o as => Stable (.fop o) as ∧ Expr.Goods as
  | .bin o as => Stable (.bop o) as ∧ Expr.Goods as
  | .not a => a.Good
  | .quant _ vs c => DistinctVars vs ∧ c.Good
  | .when c e => c.Good ∧ e.Good
  | .fall vs e => DistinctVars vs ∧ e.Good
def Expr.Goods : List Expr → Prop
  | [] => True
  | a :: as => a.Good ∧ Expr.Goods as
end

theorem goods_iff {as : List Expr} : Expr.Goods as ↔ ∀ a ∈ as, a.Good := by
  induction as with
  | nil => simp [Expr.Goods]
  | cons a as ih => simp [Expr.Goods, ih]

theorem good_ofCls {c : Cls} {as : List Expr} :
    (Expr.ofCls c as).Good ↔ Stable c as ∧ ∀ a ∈ as, a.Good := by
  cases c <;> simp [Expr.ofCls, Expr.Good, goods_iff]

theorem good_operands {c : Cls} {e : Expr} {as} (h : e.operandsIf c = some as) (g : e.Good) :
    ∀ a ∈ as, a.Good := by
  rw [ofCls_operandsIf] at h; subst h; exact (good_ofCls.mp g).2

/-- A property of expressions closed under taking operands holds of the flattening. -/
theorem flatten_closed {P : Expr → Prop} (c : Cls)
    (hop : ∀ e as, e.operandsIf c = some as → P e → ∀ a ∈ as, P a)
    (as : List Expr) (h : ∀ a ∈ as, P a) : ∀ a ∈ flattenEs c as, P a := by
  have key : ∀ n, ∀ as : List Expr, Expr.sizes as = n → (∀ a ∈ as, P a) → ∀ a ∈ flattenEs c as, P a := by
    intro n
    induction n using Nat.strongRecOn with
    | _ n ih =>
      intro as hn h a ha
      match as, h, ha with
      | [], _, ha => simp [flattenEs] at ha
      | e :: rest, h, ha =>
        have hpos : 0 < e.size := by cases e <;> simp [Expr.size] <;> omega
        rw [flattenEs, List.mem_append] at ha
        rcases ha with ha | ha
        · cases ho : e.operandsIf c with
          | none => rw [flattenE_none ho] at ha; simp at ha; subst ha; exact h _ (by simp)
          | some bs =>
            rw [flattenE_some ho] at ha
            have hs := Expr.size_operands ho
            refine ih (Expr.sizes bs) ?_ bs rfl (hop e bs ho (h e (by simp))) a ha
            simp only [Expr.sizes] at hn; omega
        · refine ih (Expr.sizes rest) ?_ rest rfl (fun x hx => h x (List.mem_cons_of_mem _ hx)) a ha
          simp only [Expr.sizes] at hn; omega
  exact key _ as rfl h

theorem good_construct {c : Cls} {args : List Expr} (h : ∀ a ∈ args, a.Good) :
    (construct c args).Good := by
  have hf : ∀ e ∈ flattenEs c args ++ args, e.Good := by
    intro e he
    rcases List.mem_append.mp he with he | he
    · exact flatten_closed (P := Expr.Good) c (fun _ _ h g => good_operands h g) args h e he
    · exact h e he
  rcases construct_cases c args with ⟨e, he, hmem, _⟩ | ⟨as, he, hst, hmem⟩
  · rw [he]; exact hf e hmem
  · rw [he, good_ofCls]; exact ⟨hst, fun e h => hf e (hmem e h)⟩

theorem mkPred_ok {n ts p} : mkPred n ts = .ok p ↔
    parseName n = .ok n ∧ termsConsistent [] ts = true ∧ p = ⟨n, ts⟩ := by
  unfold mkPred
  constructor
  · intro h
    rw [bind_ok_iff] at h
    obtain ⟨n', h1, h⟩ := h
    have hn := parseName_ok.mp h1
    rw [bind_ok_iff] at h
    obtain ⟨_, h2, h⟩ := h
    rw [check_ok] at h2
    simp at h
    obtain ⟨rfl, _⟩ := hn
    exact ⟨h1, h2, h.symm⟩
  · rintro ⟨h1, h2, rfl⟩
    rw [h1]; simp [h2]

theorem mkEq_ok {l r e} : mkEq l r = .ok e ↔ termsConsistent [] [l, r] = true ∧ e = .eq l r := by
  unfold mkEq
  constructor
  · intro h
    rw [bind_ok_iff] at h
    obtain ⟨_, h2, h⟩ := h
    rw [check_ok] at h2
    simp at h
    exact ⟨h2, h.symm⟩
  · rintro ⟨h2, rfl⟩; simp [h2]

theorem mkNFun_ok {n ts p} : mkNFun n ts = .ok p ↔ parseFunction n = .ok n ∧ p = ⟨n, ts⟩ := by
  unfold mkNFun
  constructor
  · intro h
    rw [bind_ok_iff] at h
    obtain ⟨n', h1, h⟩ := h
    have hn := parseFunction_ok.mp h1
    simp at h
    obtain ⟨rfl, _⟩ := hn
    exact ⟨h1, h.symm⟩
  · rintro ⟨h1, rfl⟩
    rw [h1]; simp

theorem distinctVars_dedup (vs : List Var) : DistinctVars (dedupBy Var.pyEq vs) := dedupBy_pairwise _

theorem Spec.Built.good {e : Expr} (h : Built e) : e.Good := by
  induction h with
  | pred h => obtain ⟨h1, h2, rfl⟩ := mkPred_ok.mp h; exact ⟨h1, h2⟩
  | eq h => obtain ⟨h1, rfl⟩ := mkEq_ok.mp h; exact h1
  | nfun h => obtain ⟨h1, rfl⟩ := mkNFun_ok.mp h; exact h1
  | num => trivial
  | op c _ ih => exact good_construct ih
  | not _ ih => exact ih
  | quant q vars _ ih => exact ⟨distinctVars_dedup _, ih⟩
  | when _ _ ih1 ih2 => exact ⟨ih1, ih2⟩
  | fall vars _ ih => exact ⟨distinctVars_dedup _, ih⟩

/-- Conversely a good expression is built (with the operands it has). -/
theorem Expr.Good.built {e : Expr} (h : e.Good) : Built e := by
  induction e using Expr.ind with
  | hpred p => exact .pred (mkPred_ok.mpr ⟨h.1, h.2, rfl⟩)
  | heq l r => exact .eq (mkEq_ok.mpr ⟨h, rfl⟩)
  | hnfun f => exact .nfun (mkNFun_ok.mpr ⟨h, rfl⟩)
  | hnum n => exact .num n
  | hbfun o as ih =>
    have := Built.op (.fop o) (args := as) (fun a ha => ih a ha (goods_iff.mp h.2 a ha))
    rw [h.1] at this; exact this
  | hbin o as ih =>
    have := Built.op (.bop o) (args := as) (fun a ha => ih a ha (goods_iff.mp h.2 a ha))
    rw [h.1] at this; exact this
  | hnot a ih => exact .not (ih h)
  | hquant q vs c ih =>
    have := Built.quant q vs (ih h.2)
    rw [mkQuant, dedupBy_eq_self h.1] at this; exact this
  | hwhen c e ih1 ih2 => exact .when (ih1 h.1) (ih2 h.2)
  | hfall vs e ih =>
    have := Built.fall vs (ih h.2)
    rw [mkForall, dedupBy_eq_self h.1] at this; exact this

theorem built_iff_good {e : Expr} : Built e ↔ e.Good := ⟨Spec.Built.good, Expr.Good.built⟩

end Pddl
