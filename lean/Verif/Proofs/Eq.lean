/- Normal forms: `pyEq a b` iff `norm a = norm b`. -/
import Verif.Model.Core
import Verif.Proofs.Basic
import Mathlib.Data.Finset.Basic
import Mathlib.Data.Finset.Dedup

namespace Pddl

/-- Induction over expressions. -/
theorem Expr.ind {P : Expr → Prop}
    (hpred : ∀ p, P (.pred p)) (heq : ∀ l r, P (.eq l r)) (hnfun : ∀ f, P (.nfun f))
    (hnum : ∀ n, P (.num n))
    (hbfun : ∀ o as, (∀ a ∈ as, P a) → P (.bfun o as))
    (hbin : ∀ o as, (∀ a ∈ as, P a) → P (.bin o as))
    (hnot : ∀ a, P a → P (.not a))
    (hquant : ∀ q vs c, P c → P (.quant q vs c))
    (hwhen : ∀ c e, P c → P e → P (.when c e))
    (hfall : ∀ vs e, P e → P (.fall vs e)) : ∀ e, P e := by
  intro e
  refine Expr.rec (motive_1 := P) (motive_2 := fun as => ∀ a ∈ as, P a)
    hpred heq hnfun hnum hbfun hbin hnot hquant hwhen hfall ?_ ?_ e
  · simp
  · intro a as ha has x hx
    rcases List.mem_cons.mp hx with rfl | hx
    · exact ha
    · exact has x hx

abbrev NVar := Str × Finset Str

inductive NTerm
  | var (v : NVar)
  | const (n : Str)

inductive NExpr
  | pred (n : Str) (ts : List NTerm)
  | eq (l r : NTerm)
  | nfun (n : Str) (ts : List NTerm)
  | num (n : NumKey)
  | bfun (op : FOp) (args : List NExpr)
  | bin (op : BOp) (args : List NExpr)
  | not (e : NExpr)
  | quant (q : QOp) (vars : Finset NVar) (c : NExpr)
  | when (c : NExpr) (e : NExpr)
  | fall (vars : Finset NVar) (e : NExpr)

def Var.norm (v : Var) : NVar := (v.name, v.tags.toFinset)

def Term.norm : Term → NTerm
  | .var v => .var v.norm
  | .const n _ => .const n

def varsNorm (vs : List Var) : Finset NVar := (vs.map Var.norm).toFinset

mutual
def Expr.norm : Expr → NExpr
  | .pred p => .pred p.name (p.terms.map Term.norm)
  | .eq l r => .eq l.norm r.norm
  | .nfun f => .nfun f.name (f.terms.map Term.norm)
  | .num n => .num n.key
  | .bfun o as => .bfun o (Expr.norms as)
  | .bin o as => .bin o (Expr.norms as)
  | .not a => .not a.norm
  | .quant q vs c => .quant q (varsNorm vs) c.norm
  | .when c e => .when c.norm e.norm
  | .fall vs e => .fall (varsNorm vs) e.norm
def Expr.norms : List Expr → List NExpr
  | [] => []
  | a :: as => a.norm :: Expr.norms as
end

theorem Expr.norms_eq_map (as : List Expr) : Expr.norms as = as.map Expr.norm := by
  induction as with
  | nil => rfl
  | cons a as ih => simp [Expr.norms, ih]

theorem Var.pyEq_iff {a b : Var} : a.pyEq b = true ↔ a.norm = b.norm := by
  simp [Var.pyEq, Var.norm, setEq_iff, Finset.ext_iff]

theorem Term.pyEq_iff {a b : Term} : a.pyEq b = true ↔ a.norm = b.norm := by
  cases a <;> cases b <;> simp [Term.pyEq, Term.norm, Var.pyEq_iff]

theorem termsEq_iff {a b : List Term} : termsEq a b = true ↔ a.map Term.norm = b.map Term.norm := by
  induction a generalizing b with
  | nil => cases b <;> simp [termsEq]
  | cons x xs ih => cases b <;> simp [termsEq, Term.pyEq_iff, ih]

/-- Set equality through a normal form of the elements. -/
theorem setEqBy_iff {α β} [DecidableEq β] {eq : α → α → Bool} {f : α → β}
    (h : ∀ a b, eq a b = true ↔ f a = f b) {a b : List α} :
    setEqBy eq a b = true ↔ (a.map f).toFinset = (b.map f).toFinset := by
  simp only [setEqBy, Bool.and_eq_true, List.all_eq_true, memBy_iff, h, Finset.ext_iff,
    List.mem_toFinset, List.mem_map]
  constructor
  · rintro ⟨h1, h2⟩ x
    constructor
    · rintro ⟨y, hy, rfl⟩
      obtain ⟨z, hz, e⟩ := h1 y hy; exact ⟨z, hz, e.symm⟩
    · rintro ⟨y, hy, rfl⟩
      obtain ⟨z, hz, e⟩ := h2 y hy; exact ⟨z, hz, e.symm⟩
  · intro h
    refine ⟨fun x hx => ?_, fun x hx => ?_⟩
    · obtain ⟨z, hz, e⟩ := (h (f x)).1 ⟨x, hx, rfl⟩; exact ⟨z, hz, e.symm⟩
    · obtain ⟨z, hz, e⟩ := (h (f x)).2 ⟨x, hx, rfl⟩; exact ⟨z, hz, e.symm⟩

theorem varsEq_iff {a b : List Var} : varsEq a b = true ↔ varsNorm a = varsNorm b :=
  setEqBy_iff (eq := Var.pyEq) (f := Var.norm) (fun _ _ => Var.pyEq_iff)

theorem Expr.pyEqs_iff_of {as bs : List Expr}
    (h : ∀ a ∈ as, ∀ b, a.pyEq b = true ↔ a.norm = b.norm) :
    Expr.pyEqs as bs = true ↔ Expr.norms as = Expr.norms bs := by
  induction as generalizing bs with
  | nil => cases bs <;> simp [Expr.pyEqs, Expr.norms]
  | cons a as ih =>
    cases bs with
    | nil => simp [Expr.pyEqs, Expr.norms]
    | cons b bs =>
      simp [Expr.pyEqs, Expr.norms, h a (by simp) b,
        ih (fun x hx => h x (List.mem_cons_of_mem _ hx))]

theorem Expr.pyEq_iff (a b : Expr) : a.pyEq b = true ↔ a.norm = b.norm := by
  induction a using Expr.ind generalizing b with
  | hpred p => cases b <;> simp [Expr.pyEq, Expr.norm, Pred.pyEq, termsEq_iff]
  | heq l r => cases b <;> simp [Expr.pyEq, Expr.norm, Term.pyEq_iff]
  | hnfun f => cases b <;> simp [Expr.pyEq, Expr.norm, NFun.pyEq, termsEq_iff]
  | hnum n => cases b <;> simp [Expr.pyEq, Expr.norm]
  | hbfun o as ih => cases b <;> simp [Expr.pyEq, Expr.norm, Expr.pyEqs_iff_of ih]
  | hbin o as ih => cases b <;> simp [Expr.pyEq, Expr.norm, Expr.pyEqs_iff_of ih]
  | hnot a ih => cases b <;> simp [Expr.pyEq, Expr.norm, ih]
  | hquant q vs c ih => cases b <;> simp [Expr.pyEq, Expr.norm, ih, varsEq_iff, and_assoc]
  | hwhen c e ih1 ih2 => cases b <;> simp [Expr.pyEq, Expr.norm, ih1, ih2]
  | hfall vs e ih => cases b <;> simp [Expr.pyEq, Expr.norm, ih, varsEq_iff]

theorem Expr.pyEqs_iff (as bs : List Expr) :
    Expr.pyEqs as bs = true ↔ Expr.norms as = Expr.norms bs :=
  Expr.pyEqs_iff_of (fun a _ b => Expr.pyEq_iff a b)

theorem Expr.pyEq_refl (a : Expr) : a.pyEq a = true := (Expr.pyEq_iff a a).mpr rfl

def Pred.norm (p : Pred) : Str × List NTerm := (p.name, p.terms.map Term.norm)
def NFun.norm (p : NFun) : Str × List NTerm := (p.name, p.terms.map Term.norm)
theorem Pred.pyEq_iff {a b : Pred} : a.pyEq b = true ↔ a.norm = b.norm := by
  simp [Pred.pyEq, Pred.norm, termsEq_iff]
theorem NFun.pyEq_iff {a b : NFun} : a.pyEq b = true ↔ a.norm = b.norm := by
  simp [NFun.pyEq, NFun.norm, termsEq_iff]

def Action.norm (a : Action) : Str × List NTerm × Option NExpr × Option NExpr :=
  (a.name, a.params.map Term.norm, a.pre.map Expr.norm, a.eff.map Expr.norm)
theorem optEq_iff {a b : Option Expr} : optEq a b = true ↔ a.map Expr.norm = b.map Expr.norm := by
  cases a <;> cases b <;> simp [optEq, Expr.pyEq_iff]
theorem Action.pyEq_iff {a b : Action} : a.pyEq b = true ↔ a.norm = b.norm := by
  simp [Action.pyEq, Action.norm, termsEq_iff, optEq_iff, and_assoc]

def Derived.norm (d : Derived) : (Str × List NTerm) × NExpr := (d.pred.norm, d.cond.norm)
theorem Derived.pyEq_iff {a b : Derived} : a.pyEq b = true ↔ a.norm = b.norm := by
  simp [Derived.pyEq, Derived.norm, Pred.pyEq_iff, Expr.pyEq_iff]

def Metric.norm (m : Metric) : NExpr × Bool := (m.expr.norm, m.max)
theorem Metric.pyEq_iff {a b : Metric} : a.pyEq b = true ↔ a.norm = b.norm := by
  simp [Metric.pyEq, Metric.norm, Expr.pyEq_iff]

open Classical in
/-- Set equality through a normal form, as equality of sets of normal forms. -/
theorem setEqBy_iff' {α β} {eq : α → α → Bool} {f : α → β}
    (h : ∀ a b, eq a b = true ↔ f a = f b) {a b : List α} :
    setEqBy eq a b = true ↔ (∀ x, x ∈ a.map f ↔ x ∈ b.map f) := by
  rw [setEqBy_iff h, Finset.ext_iff]; simp

theorem typeDictEq_iff {a b : TypeDict} :
    typeDictEq a b = true ↔ (∀ p ∈ a, dictGet b p.1 = some p.2) ∧ (∀ p ∈ b, dictGet a p.1 = some p.2) := by
  simp [typeDictEq]

end Pddl
