/-
Formulas that are equal and print the same text.
-/
import Verif.Proofs.FormulaParse
import Verif.Proofs.Tags
import Verif.Proofs.Reorder

namespace Pddl
open Spec

/-- Equal, with the same text. -/
def Expr.Echo (a b : Expr) : Prop := a.norm = b.norm ∧ a.str = b.str

theorem term_str_norm {t u : Term} (h : t.norm = u.norm) : t.str = u.str := by
  cases t <;> cases u <;> simp_all [Term.norm, Var.norm, Term.str]

theorem terms_str_norm {ts us : List Term} (h : ts.map Term.norm = us.map Term.norm) :
    ts.map Term.str = us.map Term.str := by
  induction ts generalizing us with
  | nil => cases us <;> simp_all
  | cons t ts ih =>
    cases us with
    | nil => simp at h
    | cons u us =>
      simp only [List.map_cons, List.cons.injEq] at h ⊢
      exact ⟨term_str_norm h.1, ih h.2⟩

theorem atomStr_norm {n : Str} {ts us : List Term} (h : ts.map Term.norm = us.map Term.norm) :
    atomStr n ts = atomStr n us := by
  unfold atomStr
  rw [terms_str_norm h, show ts.length = us.length by simpa using congrArg List.length h]

theorem echo_pred {p q : Pred} (h : (Expr.pred q).norm = (Expr.pred p).norm) : (Expr.pred q).Echo (.pred p) := by
  refine ⟨h, ?_⟩
  simp only [Expr.norm, NExpr.pred.injEq] at h
  simp only [Expr.str, Pred.str, h.1]
  exact atomStr_norm h.2

theorem echo_nfun {p q : NFun} (h : (Expr.nfun q).norm = (Expr.nfun p).norm) : (Expr.nfun q).Echo (.nfun p) := by
  refine ⟨h, ?_⟩
  simp only [Expr.norm, NExpr.nfun.injEq] at h
  simp only [Expr.str, NFun.str, h.1]
  exact atomStr_norm h.2

theorem Expr.Echo.refl (a : Expr) : a.Echo a := ⟨rfl, rfl⟩

theorem Expr.Echo.not {a b : Expr} (h : a.Echo b) : (Expr.not a).Echo (.not b) :=
  ⟨by simp only [Expr.norm, h.1], by simp only [Expr.str, h.2]⟩

theorem operandsIf_norm {c : Cls} {a b : Expr} (h : b.norm = a.norm) (ha : a.operandsIf c = none) :
    b.operandsIf c = none := by
  cases c <;> cases a <;> cases b <;> simp_all [Expr.operandsIf, Expr.norm]

/-- Stability depends on the operands up to equality. -/
theorem stable_congr {c : Cls} {as es : List Expr} (g : Stable c as) (h : Expr.norms es = Expr.norms as) : Stable c es := by
  have hlen := norms_length h
  by_cases hm : c.isMeta = true
  · by_cases hl : 2 ≤ as.length
    · have hc := g.canonical2 hm hl
      rw [Expr.norms_eq_map, Expr.norms_eq_map] at h
      apply Canonical.stable
      · refine ⟨?_, ?_⟩
        · intro e he
          have : e.norm ∈ as.map Expr.norm := by rw [← h]; exact List.mem_map_of_mem he
          obtain ⟨a, ha, e1⟩ := List.mem_map.1 this
          exact operandsIf_norm e1.symm (hc.flat a ha)
        · have h1 : (as.map Expr.norm).Pairwise (fun x y => y ≠ x) := by
            rw [List.pairwise_map]
            refine hc.distinct.imp ?_
            intro a b hab e
            rw [(Expr.pyEq_iff _ _).2 e] at hab
            cases hab
          rw [← h, List.pairwise_map] at h1
          refine h1.imp ?_
          intro a b hab
          cases hp : b.pyEq a with
          | false => rfl
          | true => exact absurd ((Expr.pyEq_iff _ _).1 hp) hab
      · intro _; omega
    · match as, es, hl, g with
      | [], [], _, g => exact g
      | [x], [y], _, g =>
        cases hi : c.idempotent with
        | false => simp [Stable, construct, hm, simplOperands, hi]
        | true =>
          exfalso
          simp only [Stable, construct, hm, simplOperands, hi, if_true, dedupBy_length_one] at g
          have := congrArg Expr.size g
          cases c <;> simp [Expr.ofCls, Expr.size, Expr.sizes] at this
      | [], _ :: _, _, _ => simp at hlen
      | [_], [], _, _ => simp at hlen
      | [_], _ :: _ :: _, _, _ => simp at hlen
      | _ :: _ :: _, _, hl, _ => simp at hl
  · simp [Stable, construct, hm]

theorem echo_construct {c : Cls} {as es : List Expr} (g : Stable c as) (h : List.Forall₂ Expr.Echo es as) :
    (construct c es).Echo (Expr.ofCls c as) := by
  have hn : Expr.norms es = Expr.norms as := by
    rw [Expr.norms_eq_map, Expr.norms_eq_map]
    exact forall₂_map_eq (fun _ _ h => h.1) h
  have hs : Expr.strs es = Expr.strs as := by
    rw [strs_eq_map, strs_eq_map]
    exact forall₂_map_eq (fun _ _ h => h.2) h
  rw [stable_congr g hn]
  refine ⟨ofCls_norm hn, ?_⟩
  cases c <;> simp only [Expr.ofCls, Expr.str, hs]

theorem collectE {R : Tree → Expr → Prop} {as : List Expr} (h : ∀ a ∈ as, ∃ e', R a.tree e' ∧ e'.Echo a) :
    ∃ es', (Expr.trees as).length = es'.length ∧ (∀ p ∈ (Expr.trees as).zip es', R p.1 p.2) ∧
      List.Forall₂ Expr.Echo es' as := by
  induction as with
  | nil => exact ⟨[], rfl, by simp [Expr.trees], .nil⟩
  | cons a as ih =>
    obtain ⟨e', h1, h2⟩ := h a (by simp)
    obtain ⟨es', h3, h4, h5⟩ := ih (fun x hx => h x (by simp [hx]))
    refine ⟨e' :: es', by simp [Expr.trees, h3], ?_, .cons h2 h5⟩
    intro p hp
    simp only [Expr.trees, List.zip_cons_cons, List.mem_cons] at hp
    rcases hp with rfl | hp
    · exact h1
    · exact h4 p hp

end Pddl
