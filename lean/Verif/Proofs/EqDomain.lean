/- Equality of domains, problems and plans. -/
import Verif.Proofs.Hash

namespace Pddl
open Spec

theorem setEqBy_refl {α} {eq : α → α → Bool} (h : ∀ a, eq a a = true) (l : List α) :
    setEqBy eq l l = true := by
  simp only [setEqBy, Bool.and_self, List.all_eq_true, memBy_iff]
  exact fun x hx => ⟨x, hx, h x⟩

theorem setEqBy_symm {α} {eq : α → α → Bool} {a b : List α} (h : setEqBy eq a b = true) :
    setEqBy eq b a = true := by
  simp only [setEqBy, Bool.and_eq_true] at *; exact ⟨h.2, h.1⟩

theorem setEqBy_trans {α} {eq : α → α → Bool}
    (ht : ∀ a b c, eq a b = true → eq b c = true → eq a c = true) {a b c : List α}
    (h : setEqBy eq a b = true) (h' : setEqBy eq b c = true) : setEqBy eq a c = true := by
  simp only [setEqBy, Bool.and_eq_true, List.all_eq_true, memBy_iff] at *
  constructor
  · intro x hx
    obtain ⟨y, hy, e⟩ := h.1 x hx
    obtain ⟨z, hz, e'⟩ := h'.1 y hy
    exact ⟨z, hz, ht _ _ _ e e'⟩
  · intro x hx
    obtain ⟨y, hy, e⟩ := h'.2 x hx
    obtain ⟨z, hz, e'⟩ := h.2 y hy
    exact ⟨z, hz, ht _ _ _ e e'⟩

theorem decide_trans {α} [DecidableEq α] : ∀ a b c : α, decide (a = b) = true → decide (b = c) = true →
    decide (a = c) = true := by
  intro a b c h h'
  simp at *
  exact h.trans h'

theorem dictGet_mem {β} {d : List (Str × β)} {k : Str} {v : β} (h : dictGet d k = some v) :
    (k, v) ∈ d := by
  unfold dictGet at h
  induction d with
  | nil => simp at h
  | cons p d ih =>
    obtain ⟨k', v'⟩ := p
    rw [List.lookup_cons] at h
    by_cases hk : k = k'
    · subst hk; simp at h; subst h; simp
    · have : (k == k') = false := by simpa using hk
      rw [this] at h
      exact List.mem_cons_of_mem _ (ih h)

theorem dictGet_of_mem {β} {d : List (Str × β)} (hd : IsDict d) {k : Str} {v : β}
    (h : (k, v) ∈ d) : dictGet d k = some v := by
  unfold dictGet
  unfold IsDict at hd
  induction d with
  | nil => simp at h
  | cons p d ih =>
    obtain ⟨k', v'⟩ := p
    rw [List.lookup_cons]
    simp only [List.map_cons, List.nodup_cons] at hd
    rcases List.mem_cons.mp h with h' | h'
    · simp at h'; simp [h'.1, h'.2]
    · have hk : k ≠ k' := by
        rintro rfl
        exact hd.1 (List.mem_map.mpr ⟨(k, v), h', rfl⟩)
      have : (k == k') = false := by simpa using hk
      rw [this]
      exact ih hd.2 h'

theorem typeDictEq_trans {a b c : TypeDict} (h : typeDictEq a b = true) (h' : typeDictEq b c = true) :
    typeDictEq a c = true := by
  rw [typeDictEq_iff] at *
  constructor
  · intro p hp
    have := h'.1 _ (dictGet_mem (h.1 p hp))
    exact this
  · intro p hp
    exact h.2 _ (dictGet_mem (h'.2 p hp))

theorem NFun.pyEq_refl (a : NFun) : a.pyEq a = true := NFun.pyEq_iff.mpr rfl
theorem NFun.pyEq_symm {a b : NFun} (h : a.pyEq b = true) : b.pyEq a = true :=
  NFun.pyEq_iff.mpr (NFun.pyEq_iff.mp h).symm
theorem NFun.pyEq_trans {a b c : NFun} (h : a.pyEq b = true) (h' : b.pyEq c = true) : a.pyEq c = true :=
  NFun.pyEq_iff.mpr ((NFun.pyEq_iff.mp h).trans (NFun.pyEq_iff.mp h'))

theorem NFun.pyEq_congr {a b c : NFun} (h : a.pyEq b = true) : a.pyEq c = b.pyEq c := by
  rw [Bool.eq_iff_iff, NFun.pyEq_iff, NFun.pyEq_iff, NFun.pyEq_iff.mp h]

theorem funDictGet_congr {d : FunDict} {f g : NFun} (h : f.pyEq g = true) :
    funDictGet d f = funDictGet d g := by
  unfold funDictGet
  have : (fun p : NFun × Option Str => f.pyEq p.1) = (fun p => g.pyEq p.1) := by
    funext p; exact NFun.pyEq_congr h
  rw [this]

theorem funDictGet_mem {d : FunDict} {f : NFun} {v} (h : funDictGet d f = some v) :
    ∃ g, (g, v) ∈ d ∧ f.pyEq g = true := by
  unfold funDictGet at h
  split at h
  · next p hp =>
    have h1 := List.mem_of_find?_eq_some hp
    have h2 := List.find?_some hp
    simp at h
    exact ⟨p.1, by rw [← h]; exact h1, h2⟩
  · simp at h

theorem funDictGet_self {d : FunDict} (hd : IsFunDict d) {p} (h : p ∈ d) :
    funDictGet d p.1 = some p.2 := by
  unfold IsFunDict at hd
  unfold funDictGet
  induction d with
  | nil => simp at h
  | cons q d ih =>
    rw [List.pairwise_cons] at hd
    rcases List.mem_cons.mp h with rfl | h
    · simp [NFun.pyEq_refl]
    · have : p.1.pyEq q.1 = false := by
        have := hd.1 p h
        cases e : p.1.pyEq q.1 with
        | false => rfl
        | true => rw [NFun.pyEq_symm e] at this; simp at this
      rw [List.find?_cons_of_neg (by simp [this])]
      exact ih hd.2 h

theorem funDictEq_trans {a b c : FunDict} (h : funDictEq a b = true) (h' : funDictEq b c = true) :
    funDictEq a c = true := by
  simp only [funDictEq, Bool.and_eq_true, List.all_eq_true, decide_eq_true_eq] at *
  constructor
  · intro p hp
    obtain ⟨g, hg, e⟩ := funDictGet_mem (h.1 p hp)
    rw [funDictGet_congr e]; exact h'.1 _ hg
  · intro p hp
    obtain ⟨g, hg, e⟩ := funDictGet_mem (h'.2 p hp)
    rw [funDictGet_congr e]; exact h.2 _ hg

theorem eqv_of_norm {α β} {eq : α → α → Bool} {f : α → β} (h : ∀ a b, eq a b = true ↔ f a = f b) :
    Equivalence (fun a b => eq a b = true) :=
  ⟨fun a => (h a a).mpr rfl, fun e => (h _ _).mpr ((h _ _).mp e).symm,
   fun e e' => (h _ _).mpr (((h _ _).mp e).trans ((h _ _).mp e'))⟩

theorem eqv_term : Equivalence (fun a b : Term => a.pyEq b = true) :=
  eqv_of_norm (f := Term.norm) (fun _ _ => Term.pyEq_iff)
theorem eqv_var : Equivalence (fun a b : Var => a.pyEq b = true) :=
  eqv_of_norm (f := Var.norm) (fun _ _ => Var.pyEq_iff)
theorem eqv_expr : Equivalence (fun a b : Expr => a.pyEq b = true) :=
  eqv_of_norm (f := Expr.norm) (fun _ _ => Expr.pyEq_iff _ _)
theorem eqv_pred : Equivalence (fun a b : Pred => a.pyEq b = true) :=
  eqv_of_norm (f := Pred.norm) (fun _ _ => Pred.pyEq_iff)
theorem eqv_nfun : Equivalence (fun a b : NFun => a.pyEq b = true) :=
  eqv_of_norm (f := NFun.norm) (fun _ _ => NFun.pyEq_iff)
theorem eqv_action : Equivalence (fun a b : Action => a.pyEq b = true) :=
  eqv_of_norm (f := Action.norm) (fun _ _ => Action.pyEq_iff)
theorem eqv_derived : Equivalence (fun a b : Derived => a.pyEq b = true) :=
  eqv_of_norm (f := Derived.norm) (fun _ _ => Derived.pyEq_iff)
theorem eqv_metric : Equivalence (fun a b : Metric => a.pyEq b = true) :=
  eqv_of_norm (f := Metric.norm) (fun _ _ => Metric.pyEq_iff)

theorem stepsEq_iff {a b : List (Str × List Term)} :
    stepsEq a b = true ↔ a.map (fun s => (s.1, s.2.map Term.norm)) = b.map (fun s => (s.1, s.2.map Term.norm)) := by
  induction a generalizing b with
  | nil => cases b <;> simp [stepsEq]
  | cons x xs ih => cases b <;> simp [stepsEq, termsEq_iff, ih]

theorem eqv_plan : Equivalence (fun a b : Plan => a.pyEq b = true) :=
  eqv_of_norm (f := fun p : Plan => p.steps.map (fun s : Str × List Term => (s.1, s.2.map Term.norm)))
    (fun _ _ => stepsEq_iff)

theorem Domain.pyEq_refl {d : Domain} (ht : IsDict d.types) (hf : IsFunDict d.functions) :
    d.pyEq d = true := by
  simp only [Domain.pyEq, Bool.and_eq_true, decide_true, true_and]
  refine ⟨⟨⟨⟨⟨⟨?_, ?_⟩, ?_⟩, ?_⟩, ?_⟩, ?_⟩, ?_⟩
  · exact setEqBy_refl (by simp) _
  · rw [typeDictEq_iff]
    exact ⟨fun p hp => dictGet_of_mem ht hp, fun p hp => dictGet_of_mem ht hp⟩
  · exact setEqBy_refl eqv_term.refl _
  · exact setEqBy_refl eqv_pred.refl _
  · simp only [funDictEq, Bool.and_self, List.all_eq_true, decide_eq_true_eq]
    exact fun p hp => funDictGet_self hf hp
  · exact setEqBy_refl eqv_derived.refl _
  · exact setEqBy_refl eqv_action.refl _

theorem Domain.pyEq_symm {a b : Domain} (h : a.pyEq b = true) : b.pyEq a = true := by
  simp only [Domain.pyEq, Bool.and_eq_true, decide_eq_true_eq] at *
  obtain ⟨⟨⟨⟨⟨⟨⟨h1, h2⟩, h3⟩, h4⟩, h5⟩, h6⟩, h7⟩, h8⟩ := h
  refine ⟨⟨⟨⟨⟨⟨⟨h1.symm, setEqBy_symm h2⟩, ?_⟩, setEqBy_symm h4⟩, setEqBy_symm h5⟩, ?_⟩,
    setEqBy_symm h7⟩, setEqBy_symm h8⟩
  · rw [typeDictEq_iff] at *; exact ⟨h3.2, h3.1⟩
  · simp only [funDictEq, Bool.and_eq_true] at *; exact ⟨h6.2, h6.1⟩

theorem Domain.pyEq_trans {a b c : Domain} (h : a.pyEq b = true) (h' : b.pyEq c = true) :
    a.pyEq c = true := by
  simp only [Domain.pyEq, Bool.and_eq_true, decide_eq_true_eq] at *
  obtain ⟨⟨⟨⟨⟨⟨⟨h1, h2⟩, h3⟩, h4⟩, h5⟩, h6⟩, h7⟩, h8⟩ := h
  obtain ⟨⟨⟨⟨⟨⟨⟨g1, g2⟩, g3⟩, g4⟩, g5⟩, g6⟩, g7⟩, g8⟩ := h'
  exact ⟨⟨⟨⟨⟨⟨⟨h1.trans g1, setEqBy_trans decide_trans h2 g2⟩, typeDictEq_trans h3 g3⟩,
    setEqBy_trans (eq := Term.pyEq) (fun _ _ _ => eqv_term.trans) h4 g4⟩,
    setEqBy_trans (eq := Pred.pyEq) (fun _ _ _ => eqv_pred.trans) h5 g5⟩, funDictEq_trans h6 g6⟩,
    setEqBy_trans (eq := Derived.pyEq) (fun _ _ _ => eqv_derived.trans) h7 g7⟩,
    setEqBy_trans (eq := Action.pyEq) (fun _ _ _ => eqv_action.trans) h8 g8⟩

theorem metricEq_iff {a b : Option Metric} : metricEq a b = true ↔ a.map Metric.norm = b.map Metric.norm := by
  cases a <;> cases b <;> simp [metricEq, Metric.pyEq_iff]

theorem Problem.pyEq_refl {p : Problem}
    (hd : ∀ d, p.domain = some d → IsDict d.types ∧ IsFunDict d.functions) : p.pyEq p = true := by
  simp only [Problem.pyEq, Bool.and_eq_true, decide_true, true_and, and_true]
  refine ⟨⟨⟨⟨⟨?_, ?_⟩, ?_⟩, ?_⟩, ?_⟩, ?_⟩
  · cases h : p.domain with
    | none => rfl
    | some d => exact Domain.pyEq_refl (hd d h).1 (hd d h).2
  · exact setEqBy_refl (by simp) _
  · exact setEqBy_refl eqv_term.refl _
  · exact setEqBy_refl eqv_expr.refl _
  · exact Expr.pyEq_refl _
  · exact metricEq_iff.mpr rfl

theorem Problem.pyEq_symm {a b : Problem} (h : a.pyEq b = true) : b.pyEq a = true := by
  simp only [Problem.pyEq, Bool.and_eq_true, decide_eq_true_eq] at *
  obtain ⟨⟨⟨⟨⟨⟨⟨h1, h2⟩, h3⟩, h4⟩, h5⟩, h6⟩, h7⟩, h8⟩ := h
  refine ⟨⟨⟨⟨⟨⟨⟨h1.symm, ?_⟩, h3.symm⟩, setEqBy_symm h4⟩, setEqBy_symm h5⟩, setEqBy_symm h6⟩,
    Expr.pyEq_symm h7⟩, metricEq_iff.mpr (metricEq_iff.mp h8).symm⟩
  cases ha : a.domain <;> cases hb : b.domain <;> simp_all [domOptEq, Domain.pyEq_symm]

theorem Problem.pyEq_trans {a b c : Problem} (h : a.pyEq b = true) (h' : b.pyEq c = true) :
    a.pyEq c = true := by
  simp only [Problem.pyEq, Bool.and_eq_true, decide_eq_true_eq] at *
  obtain ⟨⟨⟨⟨⟨⟨⟨h1, h2⟩, h3⟩, h4⟩, h5⟩, h6⟩, h7⟩, h8⟩ := h
  obtain ⟨⟨⟨⟨⟨⟨⟨g1, g2⟩, g3⟩, g4⟩, g5⟩, g6⟩, g7⟩, g8⟩ := h'
  refine ⟨⟨⟨⟨⟨⟨⟨h1.trans g1, ?_⟩, h3.trans g3⟩, setEqBy_trans decide_trans h4 g4⟩,
    setEqBy_trans (eq := Term.pyEq) (fun _ _ _ => eqv_term.trans) h5 g5⟩,
    setEqBy_trans (eq := Expr.pyEq) (fun _ _ _ => eqv_expr.trans) h6 g6⟩, Expr.pyEq_trans h7 g7⟩,
    metricEq_iff.mpr ((metricEq_iff.mp h8).trans (metricEq_iff.mp g8))⟩
  cases ha : a.domain <;> cases hb : b.domain <;> cases hc : c.domain <;>
    simp_all [domOptEq]
  exact Domain.pyEq_trans h2 g2

end Pddl
