/-
C67: calling predicates and functions; C68: metrics and default formulas.
-/
import Verif.Model.Call
import Verif.Proofs.EqDomain
import Verif.Props.Instantiate
import Verif.Props.Formula

namespace Pddl.Props
open Pddl Spec

/-! ### C67 -/

/-- Two terms with one name have the same types. -/
def NoClash (ts : List Term) : Prop := ∀ a ∈ ts, ∀ b ∈ ts, ¬ Clash a b

theorem mkPred_iff {n : Str} {ts : List Term} {p : Pred} (hn : parseName n = .ok n) :
    mkPred n ts = .ok p ↔ NoClash ts ∧ p = ⟨n, ts⟩ := by
  have h := (C44_predicate n ts hn).2
  rw [mkPred_ok]
  rw [mkPred_ok] at h
  simp only [hn, true_and, and_true] at h ⊢
  rw [h]
  unfold NoClash
  push Not
  rfl

/-- `p(t1, …, tn)` succeeds exactly if there are as many terms as `p` has, and terms of one name have one set of
types; the result has the name of `p` and the given terms. The terms of `p` and their types do not matter. -/
theorem C67_predicate (p q : Pred) (ts : List Term) (hp : Built (.pred p)) :
    p.call ts = .ok q ↔ ts.length = p.terms.length ∧ NoClash ts ∧ q = ⟨p.name, ts⟩ := by
  obtain ⟨hn, _⟩ := hp.good
  simp only [Pred.call, bind_ok_iff, check_ok, decide_eq_true_eq]
  rw [mkPred_iff hn]
  simp

/-- `f(t1, …, tn)` succeeds exactly if there are as many terms as `f` has and each has the types of the one it
replaces; terms of one name need not agree. -/
theorem C67_function (f g : NFun) (ts : List Term) (hf : Built (.nfun f)) :
    f.call ts = .ok g ↔ List.Forall₂ (fun a b : Term => ∀ x, x ∈ a.tags ↔ x ∈ b.tags) f.terms ts ∧ g = ⟨f.name, ts⟩ := by
  have hn := hf.good
  simp only [NFun.call, bind_ok_iff, check_ok, decide_eq_true_eq, mkNFun_ok, List.all_eq_true, setEq_iff]
  rw [List.forall₂_iff_zip]
  constructor
  · rintro ⟨_, h1, _, h2, _, h3⟩
    exact ⟨⟨h1.symm, fun {a b} hab => h2 _ hab⟩, h3⟩
  · rintro ⟨⟨h1, h2⟩, h3⟩
    exact ⟨(), h1.symm, (), fun x hx => h2 hx, hn, h3⟩

/-- The exceptions: `AssertionError` for a wrong number of terms (and, of a function, wrong types), `ValueError` for
inconsistent terms of a predicate. -/
theorem C67_errors (p : Pred) (f : NFun) (ts : List Term) (hp : Built (.pred p)) (hf : Built (.nfun f)) :
    (∀ e, p.call ts = .error e → e = .assertion ∧ ts.length ≠ p.terms.length ∨ e = .value ∧ ¬ NoClash ts) ∧
    (∀ e, f.call ts = .error e → e = .assertion) := by
  obtain ⟨hn, _⟩ := hp.good
  have hf' : parseFunction f.name = .ok f.name := hf.good
  refine ⟨fun e h => ?_, fun e h => ?_⟩
  · unfold Pred.call at h
    by_cases hl : ts.length = p.terms.length
    · right
      simp only [check, hl, decide_true, if_true, ok_bind] at h
      have h44 := C44_predicate p.name ts hn
      by_cases hc : ∃ a ∈ ts, ∃ b ∈ ts, Clash a b
      · rw [h44.1.2 hc] at h
        simp only [Except.error.injEq] at h
        refine ⟨h.symm, fun hnc => ?_⟩
        obtain ⟨a, ha, b, hb, hab⟩ := hc
        exact hnc a ha b hb hab
      · rw [h44.2.2 hc] at h; simp at h
    · left
      simp only [check, hl, decide_false, Bool.false_eq_true, if_false, error_bind, Except.error.injEq] at h
      exact ⟨h.symm, hl⟩
  · unfold NFun.call at h
    have hm : mkNFun f.name ts = .ok ⟨f.name, ts⟩ := mkNFun_ok.2 ⟨hf', rfl⟩
    rw [hm] at h
    unfold check at h
    split at h
    · rw [ok_bind] at h
      split at h
      · rw [ok_bind] at h; simp at h
      · rw [error_bind, Except.error.injEq] at h; exact h.symm
    · rw [error_bind, Except.error.injEq] at h; exact h.symm

/-- A call without changes. -/
theorem C67_self (p : Pred) (f : NFun) (hp : Built (.pred p)) (hf : Built (.nfun f)) :
    p.call p.terms = .ok p ∧ f.call f.terms = .ok f := by
  refine ⟨?_, (C67_function f f f.terms hf).2 ⟨List.forall₂_same.2 (fun _ _ _ => Iff.rfl), rfl⟩⟩
  obtain ⟨hn, hc⟩ := hp.good
  simp [Pred.call, check, mkPred_ok.2 ⟨hn, hc, rfl⟩]

theorem find_unique {α : Type} {l : List α} {q : α → Bool} {x : α} (hx : x ∈ l) (hq : q x = true)
    (hu : ∀ y ∈ l, q y = true → y = x) : l.find? q = some x := by
  cases h : l.find? q with
  | none => rw [List.find?_eq_none] at h; exact absurd hq (h x hx)
  | some y => rw [hu y (List.mem_of_find?_eq_some h) (List.find?_some h)]

theorem inst_zip {vs : List Var} {ts : List Term} (hd : vs.Pairwise (fun a b => a.pyEq b = false))
    (hl : ts.length = vs.length) :
    (vs.map Term.var).map (Term.inst (Mapping.ofZip (vs.map Term.var) ts)) = ts := by
  have hidx : ∀ i j (hi : i < vs.length) (hj : j < vs.length), vs[i].pyEq vs[j] = true → i = j := by
    intro i j hi hj h
    rcases Nat.lt_trichotomy i j with hij | hij | hij
    · rw [List.pairwise_iff_getElem.1 hd i j hi hj hij] at h; simp at h
    · exact hij
    · have := List.pairwise_iff_getElem.1 hd j i hj hi hij
      rw [eqv_var.symm h] at this; simp at this
  apply List.ext_getElem
  · simp [hl]
  · intro i h1 h2
    have hi : i < vs.length := by simpa using h1
    simp only [List.getElem_map, Term.inst, get_ofZip]
    rw [find_unique (x := (.var vs[i], ts[i])) (q := fun p => (Term.var vs[i]).pyEq p.1)]
    · rfl
    · rw [List.mem_reverse, List.mem_iff_getElem]
      exact ⟨i, by simp [hl, hi], by simp⟩
    · exact eqv_var.refl vs[i]
    · intro y hy hq
      rw [List.mem_reverse, List.mem_iff_getElem] at hy
      obtain ⟨j, hj, rfl⟩ := hy
      have hj' : j < vs.length := by simp at hj; omega
      simp only [List.getElem_zip, List.getElem_map] at hq ⊢
      have := hidx i j hi hj' hq
      subst this
      rfl

/-- Calling a predicate whose terms are different variables is the same as instantiating it. -/
theorem C67_instance (p : Pred) (ts : List Term) (vs : List Var) (hp : p.terms = vs.map Term.var)
    (hd : vs.Pairwise (fun a b => a.pyEq b = false)) (hl : ts.length = vs.length) :
    p.call ts = p.inst (Mapping.ofZip p.terms ts) := by
  have hl' : ts.length = p.terms.length := by rw [hp]; simpa using hl
  unfold Pred.inst
  rw [hp, inst_zip hd hl]
  simp [Pred.call, check, hl']

theorem C67_function_instance (f g : NFun) (ts : List Term) (vs : List Var) (hp : f.terms = vs.map Term.var)
    (hd : vs.Pairwise (fun a b => a.pyEq b = false)) (h : f.call ts = .ok g) :
    f.inst (Mapping.ofZip f.terms ts) = .ok g := by
  simp only [NFun.call, bind_ok_iff, check_ok, decide_eq_true_eq] at h
  obtain ⟨_, h1, _, _, h3⟩ := h
  unfold NFun.inst
  rw [hp, inst_zip hd (by rw [h1, hp]; simp)]
  exact h3

/-- A schema, its instance, and two calls that fail. -/
def demoSchema : Pred := ⟨s%"on", [.var vx, .var vy]⟩
example : demoSchema.call [ca, cc] = .ok ⟨s%"on", [ca, cc]⟩ ∧ demoSchema.call [ca] = .error .assertion ∧
    demoSchema.call [.var vx, .var vxt] = .error .value := by decide +kernel
example : Built (.pred demoSchema) :=
  .pred (n := s%"on") (ts := [.var vx, .var vy]) (by decide +kernel)
example : [vx, vy].Pairwise (fun a b => a.pyEq b = false) := by decide
example : (NFun.mk s%"f" [.var vx]).call [.var vxt] = .error .assertion ∧
    (NFun.mk s%"f" [.var vx]).call [ca] = .ok ⟨s%"f", [ca]⟩ := by decide +kernel

/-! ### C68 -/

/-- `Metric(expression, optimization)` succeeds exactly for the two keywords, and keeps both. -/
theorem C68_metric (e : Expr) (o : Str) :
    (∀ m, mkMetric e o = .ok m → m.expr = e ∧ m.optimization = o) ∧
    ((∃ m, mkMetric e o = .ok m) ↔ o = s%"minimize" ∨ o = s%"maximize") ∧
    (∀ x, mkMetric e o = .error x → x = .assertion) := by
  unfold mkMetric
  split
  · next h => subst h; simp [Metric.optimization]
  · split
    · next h => subst h; simp [Metric.optimization]
    · simp_all

example : (mkMetric (.nfun ⟨s%"f", []⟩) s%"maximize").toOption.isSome = true ∧
    (mkMetric (.nfun ⟨s%"f", []⟩) s%"smaller").toOption.isSome = false := by decide +kernel

/-- `ensure_formula`: the formula, or one that is always true, or always false. -/
theorem C68_default {D} (I : Interp D) (ρ : Str → D) (f : Expr) (b : Bool) :
    ensureFormula (some f) b = f ∧ holds I (ensureFormula none true) ρ ∧ ¬ holds I (ensureFormula none false) ρ := by
  refine ⟨rfl, ?_, ?_⟩
  · exact (C07_and I ρ []).2 (by simp)
  · intro h
    obtain ⟨f, hf, _⟩ := (C07_or I ρ []).1 h
    simp at hf

end Pddl.Props
