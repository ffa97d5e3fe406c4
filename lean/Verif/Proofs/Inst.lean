/- `instantiate`: inversion lemmas, meaning, atoms, composition. -/
import Verif.Spec.Subst
import Verif.Proofs.Sem

namespace Pddl
open Spec

variable {m : Mapping}

/-! ### Inversion -/

theorem inst_substTerm (t : Term) : t.inst m = substTerm m t := by
  cases t with
  | var v => simp only [Term.inst, substTerm]; cases m.get (.var v) <;> rfl
  | const n t => rfl

theorem insts_ok {as bs : List Expr} :
    Expr.insts m as = .ok bs ↔ List.Forall₂ (fun a b => a.inst m = .ok b) as bs := by
  induction as generalizing bs with
  | nil => simp [Expr.insts, eq_comm]
  | cons a as ih =>
    rw [Expr.insts, bind_ok_iff]
    constructor
    · rintro ⟨a', h1, h⟩
      rw [bind_ok_iff] at h
      obtain ⟨as', h2, h⟩ := h
      simp at h; subst h
      exact .cons h1 (ih.mp h2)
    · intro h
      cases h with
      | cons h1 h2 => exact ⟨_, h1, by rw [ih.mpr h2]; rfl⟩

theorem inst_pred_ok {p : Pred} {e : Expr} : (Expr.pred p).inst m = .ok e ↔
    parseName p.name = .ok p.name ∧ termsConsistent [] (p.terms.map (substTerm m)) = true ∧
    e = .pred ⟨p.name, p.terms.map (substTerm m)⟩ := by
  have hm : p.terms.map (Term.inst m) = p.terms.map (substTerm m) :=
    List.map_congr_left (fun t _ => inst_substTerm t)
  rw [Expr.inst, bind_ok_iff]
  constructor
  · rintro ⟨p', h1, h⟩
    simp at h; subst h
    rw [Pred.inst, hm] at h1
    obtain ⟨h3, h2, rfl⟩ := mkPred_ok.mp h1
    exact ⟨h3, h2, rfl⟩
  · rintro ⟨h1, h2, rfl⟩
    exact ⟨_, by rw [Pred.inst, hm]; exact mkPred_ok.mpr ⟨h1, h2, rfl⟩, rfl⟩

theorem inst_eq_ok {l r : Term} {e : Expr} : (Expr.eq l r).inst m = .ok e ↔
    termsConsistent [] [substTerm m l, substTerm m r] = true ∧
    e = .eq (substTerm m l) (substTerm m r) := by
  rw [Expr.inst, inst_substTerm, inst_substTerm, mkEq_ok]

theorem inst_nfun_ok {f : NFun} {e : Expr} : (Expr.nfun f).inst m = .ok e ↔
    parseFunction f.name = .ok f.name ∧ e = .nfun ⟨f.name, f.terms.map (substTerm m)⟩ := by
  have hm : f.terms.map (Term.inst m) = f.terms.map (substTerm m) :=
    List.map_congr_left (fun t _ => inst_substTerm t)
  rw [Expr.inst, bind_ok_iff]
  constructor
  · rintro ⟨p', h1, h⟩
    simp at h; subst h
    rw [NFun.inst, hm] at h1
    obtain ⟨h3, rfl⟩ := mkNFun_ok.mp h1
    exact ⟨h3, rfl⟩
  · rintro ⟨h1, rfl⟩
    exact ⟨_, by rw [NFun.inst, hm]; exact mkNFun_ok.mpr ⟨h1, rfl⟩, rfl⟩

theorem inst_num_ok {n : Num} {e : Expr} : (Expr.num n).inst m = .ok e ↔ e = .num n := by
  simp [Expr.inst, eq_comm]

theorem inst_cls_ok {c : Cls} {as : List Expr} {e : Expr} : (Expr.ofCls c as).inst m = .ok e ↔
    ∃ bs, List.Forall₂ (fun a b => a.inst m = .ok b) as bs ∧ e = construct c bs := by
  have : (Expr.ofCls c as).inst m = (do let as' ← Expr.insts m as; pure (construct c as')) := by
    cases c <;> rw [Expr.ofCls, Expr.inst]
  rw [this, bind_ok_iff]
  simp only [insts_ok, pure_ok, Except.ok.injEq]
  exact ⟨fun ⟨b, h1, h2⟩ => ⟨b, h1, h2.symm⟩, fun ⟨b, h1, h2⟩ => ⟨b, h1, h2.symm⟩⟩

theorem inst_bfun_ok {o : FOp} {as : List Expr} {e : Expr} : (Expr.bfun o as).inst m = .ok e ↔
    ∃ bs, List.Forall₂ (fun a b => a.inst m = .ok b) as bs ∧ e = construct (.fop o) bs :=
  inst_cls_ok (c := .fop o)

theorem inst_bin_ok {o : BOp} {as : List Expr} {e : Expr} : (Expr.bin o as).inst m = .ok e ↔
    ∃ bs, List.Forall₂ (fun a b => a.inst m = .ok b) as bs ∧ e = construct (.bop o) bs :=
  inst_cls_ok (c := .bop o)

theorem inst_not_ok {a : Expr} {e : Expr} : (Expr.not a).inst m = .ok e ↔
    ∃ b, a.inst m = .ok b ∧ e = .not b := by
  rw [Expr.inst, bind_ok_iff]
  simp only [pure_ok, Except.ok.injEq]
  exact ⟨fun ⟨b, h1, h2⟩ => ⟨b, h1, h2.symm⟩, fun ⟨b, h1, h2⟩ => ⟨b, h1, h2.symm⟩⟩

theorem inst_quant_ok {q : QOp} {vs : List Var} {a : Expr} {e : Expr} :
    (Expr.quant q vs a).inst m = .ok e ↔ ∃ b, a.inst m = .ok b ∧ e = mkQuant q b vs := by
  rw [Expr.inst, bind_ok_iff]
  simp only [pure_ok, Except.ok.injEq]
  exact ⟨fun ⟨b, h1, h2⟩ => ⟨b, h1, h2.symm⟩, fun ⟨b, h1, h2⟩ => ⟨b, h1, h2.symm⟩⟩

theorem inst_when {c e : Expr} : (Expr.when c e).inst m = .error .attribute := by rw [Expr.inst]
theorem inst_fall {vs : List Var} {e : Expr} : (Expr.fall vs e).inst m = .error .attribute := by
  rw [Expr.inst]

/-- The results of `instantiate` are constructor-built. -/
theorem inst_good {a b : Expr} (g : a.Good) (h : a.inst m = .ok b) : b.Good := by
  have hlist : ∀ as bs : List Expr, (∀ a ∈ as, ∀ b, a.Good → a.inst m = .ok b → b.Good) →
      (∀ a ∈ as, a.Good) → List.Forall₂ (fun a b => a.inst m = .ok b) as bs → ∀ b ∈ bs, b.Good := by
    intro as bs ih hg h2
    induction h2 with
    | nil => simp
    | cons h _ ihl =>
      intro b hb
      rcases List.mem_cons.mp hb with rfl | hb
      · exact ih _ (by simp) _ (hg _ (by simp)) h
      · exact ihl (fun a ha => ih a (List.mem_cons_of_mem _ ha))
          (fun a ha => hg a (List.mem_cons_of_mem _ ha)) b hb
  induction a using Expr.ind generalizing b with
  | hpred p => obtain ⟨h1, h2, rfl⟩ := inst_pred_ok.mp h; exact ⟨h1, h2⟩
  | heq l r => obtain ⟨h1, rfl⟩ := inst_eq_ok.mp h; exact h1
  | hnfun f => obtain ⟨h1, rfl⟩ := inst_nfun_ok.mp h; exact h1
  | hnum n => have := inst_num_ok.mp h; subst this; trivial
  | hbfun o as ih =>
    obtain ⟨bs, h2, rfl⟩ := inst_bfun_ok.mp h
    exact good_construct (hlist as bs (fun a ha b g h => ih a ha g h) (goods_iff.mp g.2) h2)
  | hbin o as ih =>
    obtain ⟨bs, h2, rfl⟩ := inst_bin_ok.mp h
    exact good_construct (hlist as bs (fun a ha b g h => ih a ha g h) (goods_iff.mp g.2) h2)
  | hnot a ih => obtain ⟨b, h1, rfl⟩ := inst_not_ok.mp h; exact ih (b := b) g h1
  | hquant q vs c ih =>
    obtain ⟨b, h1, rfl⟩ := inst_quant_ok.mp h
    exact ⟨distinctVars_dedup _, ih g.2 h1⟩
  | hwhen c e _ _ => rw [inst_when] at h; simp at h
  | hfall vs e _ => rw [inst_fall] at h; simp at h

/-- Instantiating a numeric expression keeps its class. -/
theorem inst_numeric {a b : Expr} (h : a.inst m = .ok b) (hn : Numeric a) :
    Numeric b ∧ ∀ o, a.operandsIf (.fop o) = none → b.operandsIf (.fop o) = none := by
  cases a with
  | bfun o' as =>
    obtain ⟨bs, h2, rfl⟩ := inst_bfun_ok.mp h
    rcases construct_cases (.fop o') bs with ⟨_, _, _, hi⟩ | ⟨as', he, _, _⟩
    · simp [Cls.idempotent] at hi
    · rw [he]
      refine ⟨trivial, fun o ho => ?_⟩
      have : o ≠ o' := by intro e; subst e; simp [Expr.operandsIf] at ho
      simp [Expr.ofCls, Expr.operandsIf, this]
  | nfun f => obtain ⟨h1, rfl⟩ := inst_nfun_ok.mp h; exact ⟨trivial, fun _ _ => rfl⟩
  | num n => have := inst_num_ok.mp h; subst this; exact ⟨trivial, fun _ _ => rfl⟩
  | _ => exact absurd hn (by simp [Numeric])

end Pddl
