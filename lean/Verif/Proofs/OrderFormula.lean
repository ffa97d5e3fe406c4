/-
`<` between formulas.
-/
import Mathlib.Algebra.Order.Ring.Unbundled.Rat
import Verif.Proofs.Order
import Verif.Proofs.Eq
import Verif.Spec.Types
import Verif.Model.OrderFormula

namespace Pddl
open Spec

theorem NFun.lt_laws : OrdLaws (fun p : NFun => ∀ t ∈ p.terms, t.TagsNodup) NFun.pyEq NFun.lt := by
  have h1 := OrdLaws.pair strLt_laws (Term.keyLt_laws.lex (fun _ _ => termsEq_forall₂))
    NFun.name NFun.terms (fun p : NFun => ∀ t ∈ p.terms, t.TagsNodup) (fun _ _ => trivial) (fun _ h => h)
  refine h1.congr (fun _ h => h) ?_ ?_ ?_ ?_ ?_
  · intro a b _ _; rfl
  · intro a b _ _
    simp only [NFun.lt, decide_eq_true_eq]
    rw [lexLt_congr (fun a b => Term.lt_eq_keyLt)]
  · intro a; rw [NFun.pyEq_iff]
  · intro a b h; rw [NFun.pyEq_iff] at *; exact h.symm
  · intro a b c h h'; rw [NFun.pyEq_iff] at *; exact h.trans h'

theorem FVal.lt_laws : OrdLaws (fun _ : FVal => True) (fun a b => decide (a = b)) FVal.lt where
  refl a := by simp
  symm a b h := by simp at *; exact h.symm
  etrans a b c h h' := by simp at *; exact h.trans h'
  irrefl a b _ _ h := by simp at h; subst h; cases a <;> simp [FVal.lt]
  asymm a b _ _ h := by cases a <;> cases b <;> simp_all [FVal.lt] <;> exact le_of_lt h
  tri a b _ _ := by
    cases a <;> cases b <;> simp [FVal.lt]
    exact em _
  trans a b c _ _ _ h h' := by cases a <;> cases b <;> cases c <;> simp_all [FVal.lt] <;> exact lt_trans h h'

/-- Laws of a comparison that may raise. -/
structure LtLaws {α} (P : α → Prop) (eq : α → α → Bool) (lt : α → α → Except Exc Bool) : Prop where
  irrefl : ∀ a b, P a → P b → eq a b = true → lt a b ≠ .ok true
  left : ∀ a b c, P a → P b → P c → eq a b = true → lt a c = lt b c
  right : ∀ a b c, P a → P b → P c → eq a b = true → lt c a = lt c b
  swap : ∀ a b, P a → P b → (∃ r, lt a b = .ok r) → ∃ r, lt b a = .ok r
  trans : ∀ a b c, P a → P b → P c → lt a b = .ok true → lt b c = .ok true → lt a c = .ok true

theorem bool_congr {a b : Bool} (h : a = true → b = true) (h' : b = true → a = true) : a = b := by
  cases a <;> cases b <;> simp_all

theorem OrdLaws.raising {α} {P : α → Prop} {eq lt : α → α → Bool} (h : OrdLaws P eq lt) :
    LtLaws P eq (fun a b => pure (lt a b)) where
  irrefl a b pa pb e := by simp [h.irrefl a b pa pb e]
  left a b c pa pb pc e := by
    rw [bool_congr (h.congr_left pa pb pc e) (h.congr_left pb pa pc (h.symm _ _ e))]
  right a b c pa pb pc e := by
    rw [bool_congr (h.congr_right pa pb pc e) (h.congr_right pb pa pc (h.symm _ _ e))]
  swap a b pa pb _ := ⟨_, rfl⟩
  trans a b c pa pb pc h1 h2 := by
    simp only [pure_ok, Except.ok.injEq] at *
    exact h.trans a b c pa pb pc h1 h2

/-! ### Sets of variables -/

theorem varsLt_iff {a b : List Var} : varsLt a b = true ↔ varsNorm a ⊂ varsNorm b := by
  have h : a.all (fun x => memBy Var.pyEq x b) = true ↔ varsNorm a ⊆ varsNorm b := by
    simp only [List.all_eq_true, memBy_iff, Var.pyEq_iff, varsNorm, Finset.subset_iff, List.mem_toFinset, List.mem_map]
    constructor
    · rintro h x ⟨v, hv, rfl⟩
      obtain ⟨w, hw, e⟩ := h v hv
      exact ⟨w, hw, e.symm⟩
    · intro h v hv
      obtain ⟨w, hw, e⟩ := h ⟨v, hv, rfl⟩
      exact ⟨w, hw, e.symm⟩
  have he : varsEq a b = false ↔ varsNorm a ≠ varsNorm b := by
    rw [← not_iff_not]; simp [varsEq_iff]
  simp only [varsLt, Bool.and_eq_true, h, Bool.not_eq_true', he]
  exact ⟨fun ⟨h1, h2⟩ => Finset.ssubset_iff_subset_ne.2 ⟨h1, h2⟩, fun h => Finset.ssubset_iff_subset_ne.1 h⟩

/-! ### Pairs compared like tuples -/

/-- A comparison of tuples `(set of variables, formula)`. -/
def scopeLt (x y : List Var × Expr) : Except Exc Bool :=
  if varsEq x.1 y.1 then
    if x.2.pyEq y.2 then pure false else x.2.lt y.2
  else pure (varsLt x.1 y.1)

/-- Every term is a constructed one. -/
def Tidy (e : Expr) : Prop := ∀ t ∈ terms e, t.TagsNodup

theorem scopeLt_true {x y : List Var × Expr} : scopeLt x y = .ok true ↔
    (varsNorm x.1 ⊂ varsNorm y.1) ∨ (varsNorm x.1 = varsNorm y.1 ∧ x.2.norm ≠ y.2.norm ∧ x.2.lt y.2 = .ok true) := by
  unfold scopeLt
  by_cases h : varsEq x.1 y.1 = true
  · have h' := varsEq_iff.1 h
    rw [if_pos h]
    by_cases hc : x.2.pyEq y.2 = true
    · have hc' := (Expr.pyEq_iff _ _).1 hc
      rw [if_pos hc]
      simp [h', hc']
    · have hc' : x.2.norm ≠ y.2.norm := fun e => hc ((Expr.pyEq_iff _ _).2 e)
      rw [if_neg hc]
      simp [h', hc']
  · have h' : varsNorm x.1 ≠ varsNorm y.1 := fun e => h (varsEq_iff.2 e)
    rw [if_neg h]
    simp [h', varsLt_iff]

/-- The laws with the first formula fixed. -/
structure LtLawsAt (a : Expr) : Prop where
  irrefl : ∀ b, Tidy a → Tidy b → a.norm = b.norm → a.lt b ≠ .ok true
  left : ∀ b c, Tidy a → Tidy b → Tidy c → a.norm = b.norm → a.lt c = b.lt c
  right : ∀ b c, Tidy a → Tidy b → Tidy c → b.norm = c.norm → a.lt b = a.lt c
  swap : ∀ b, Tidy a → Tidy b → (∃ r, a.lt b = .ok r) → ∃ r, b.lt a = .ok r
  trans : ∀ b c, Tidy a → Tidy b → Tidy c → a.lt b = .ok true → b.lt c = .ok true → a.lt c = .ok true

theorem LtLaws.at {α} {Q : α → Prop} {eq : α → α → Bool} {lt : α → α → Except Exc Bool} (h : LtLaws Q eq lt) (f : α → Expr)
    (hQ : ∀ a, Tidy (f a) → Q a) (heq : ∀ a b, (f a).norm = (f b).norm ↔ eq a b = true)
    (hlt : ∀ a b, (f a).lt (f b) = lt a b)
    (hother : ∀ a b, (∀ c, b ≠ f c) → (f a).lt b = .error .type_ ∧ b.lt (f a) = .error .type_ ∧ (f a).norm ≠ b.norm) (a : α) :
    LtLawsAt (f a) where
  irrefl b ta tb e := by
    by_cases hb : ∃ c, b = f c
    · obtain ⟨c, rfl⟩ := hb
      rw [hlt]; exact h.irrefl a c (hQ _ ta) (hQ _ tb) ((heq _ _).1 e)
    · exact absurd e (hother a b (fun c hc => hb ⟨c, hc⟩)).2.2
  left b c ta tb tc e := by
    by_cases hb : ∃ c, b = f c
    · obtain ⟨b, rfl⟩ := hb
      by_cases hc : ∃ d, c = f d
      · obtain ⟨c, rfl⟩ := hc
        rw [hlt, hlt]; exact h.left a b c (hQ _ ta) (hQ _ tb) (hQ _ tc) ((heq _ _).1 e)
      · rw [(hother a c (fun d hd => hc ⟨d, hd⟩)).1, (hother b c (fun d hd => hc ⟨d, hd⟩)).1]
    · exact absurd e (hother a b (fun c hc => hb ⟨c, hc⟩)).2.2
  right b c ta tb tc e := by
    by_cases hb : ∃ c, b = f c
    · obtain ⟨b, rfl⟩ := hb
      by_cases hc : ∃ d, c = f d
      · obtain ⟨c, rfl⟩ := hc
        rw [hlt, hlt]; exact h.right b c a (hQ _ tb) (hQ _ tc) (hQ _ ta) ((heq _ _).1 e)
      · exact absurd e (hother b c (fun d hd => hc ⟨d, hd⟩)).2.2
    · by_cases hc : ∃ d, c = f d
      · obtain ⟨c, rfl⟩ := hc
        exact absurd e.symm (hother c b (fun d hd => hb ⟨d, hd⟩)).2.2
      · rw [(hother a c (fun d hd => hc ⟨d, hd⟩)).1, (hother a b (fun d hd => hb ⟨d, hd⟩)).1]
  swap b ta tb hr := by
    by_cases hb : ∃ c, b = f c
    · obtain ⟨b, rfl⟩ := hb
      simp only [hlt] at *; exact h.swap a b (hQ _ ta) (hQ _ tb) hr
    · rw [(hother a b (fun c hc => hb ⟨c, hc⟩)).1] at hr; simp at hr
  trans b c ta tb tc h1 h2 := by
    by_cases hb : ∃ c, b = f c
    · obtain ⟨b, rfl⟩ := hb
      by_cases hc : ∃ d, c = f d
      · obtain ⟨c, rfl⟩ := hc
        simp only [hlt] at *; exact h.trans a b c (hQ _ ta) (hQ _ tb) (hQ _ tc) h1 h2
      · rw [(hother b c (fun d hd => hc ⟨d, hd⟩)).1] at h2; simp at h2
    · rw [(hother a b (fun c hc => hb ⟨c, hc⟩)).1] at h1; simp at h1

theorem Num.lt_laws : LtLaws (fun _ : Num => True) (fun a b => decide (a.key = b.key)) Num.lt where
  irrefl a b _ _ h := by
    simp only [decide_eq_true_eq] at h
    unfold Num.lt
    rw [h]
    cases b.key with
    | val v => simp [FVal.lt_laws.irrefl v v trivial trivial (by simp)]
    | str s => simp [strLt_irrefl]
  left a b c _ _ _ h := by simp only [decide_eq_true_eq] at h; unfold Num.lt; rw [h]
  right a b c _ _ _ h := by simp only [decide_eq_true_eq] at h; unfold Num.lt; rw [h]
  swap a b _ _ h := by
    unfold Num.lt at *
    cases ha : a.key <;> cases hb : b.key <;> simp_all
  trans a b c _ _ _ h h' := by
    unfold Num.lt at *
    cases ha : a.key <;> cases hb : b.key <;> cases hc : c.key <;> simp_all
    · exact FVal.lt_laws.trans _ _ _ trivial trivial trivial h h'
    · exact strLt_trans h h'

/-- The laws of tuples `(variables, formula)` from those of the formula. -/
theorem scope_laws {a : Expr} (ih : LtLawsAt a) (vs : List Var) :
    (∀ ws b, Tidy a → Tidy b → varsNorm vs = varsNorm ws → a.norm = b.norm → scopeLt (vs, a) (ws, b) ≠ .ok true) ∧
    (∀ ws b us c, Tidy a → Tidy b → Tidy c → varsNorm vs = varsNorm ws → a.norm = b.norm →
      scopeLt (vs, a) (us, c) = scopeLt (ws, b) (us, c)) ∧
    (∀ ws b us c, Tidy a → Tidy b → Tidy c → varsNorm ws = varsNorm us → b.norm = c.norm →
      scopeLt (vs, a) (ws, b) = scopeLt (vs, a) (us, c)) ∧
    (∀ ws b, Tidy a → Tidy b → (∃ r, scopeLt (vs, a) (ws, b) = .ok r) → ∃ r, scopeLt (ws, b) (vs, a) = .ok r) ∧
    (∀ ws b us c, Tidy a → Tidy b → Tidy c → scopeLt (vs, a) (ws, b) = .ok true → scopeLt (ws, b) (us, c) = .ok true →
      scopeLt (vs, a) (us, c) = .ok true) := by
  have veq : ∀ {x y z : List Var}, varsNorm x = varsNorm y → varsEq x z = varsEq y z ∧ varsEq z x = varsEq z y ∧
      varsLt x z = varsLt y z ∧ varsLt z x = varsLt z y := by
    intro x y z h
    refine ⟨bool_congr ?_ ?_, bool_congr ?_ ?_, bool_congr ?_ ?_, bool_congr ?_ ?_⟩ <;>
      simp [varsEq_iff, varsLt_iff, h]
  have eeq : ∀ {x y z : Expr}, x.norm = y.norm → x.pyEq z = y.pyEq z ∧ z.pyEq x = z.pyEq y := by
    intro x y z h
    refine ⟨bool_congr ?_ ?_, bool_congr ?_ ?_⟩ <;> simp [Expr.pyEq_iff, h]
  refine ⟨?_, ?_, ?_, ?_, ?_⟩
  · intro ws b _ _ hv he h
    rcases scopeLt_true.1 h with h | ⟨_, h, _⟩
    · simp only [hv] at h; exact ssubset_irrefl _ h
    · exact h he
  · intro ws b us c ta tb tc hv he
    simp only [scopeLt, (veq hv).1, (veq hv).2.2.1, (eeq he).1, ih.left b c ta tb tc he]
  · intro ws b us c ta tb tc hv he
    simp only [scopeLt, (veq hv).2.1, (veq hv).2.2.2, (eeq he).2, ih.right b c ta tb tc he]
  · intro ws b ta tb hr
    unfold scopeLt at *
    simp only at *
    by_cases h : varsEq vs ws = true
    · have h' : varsEq ws vs = true := varsEq_iff.2 (varsEq_iff.1 h).symm
      rw [if_pos h] at hr
      rw [if_pos h']
      by_cases hc : a.pyEq b = true
      · have hc' : b.pyEq a = true := (Expr.pyEq_iff _ _).2 ((Expr.pyEq_iff _ _).1 hc).symm
        rw [if_pos hc']; exact ⟨_, rfl⟩
      · have hc' : ¬ b.pyEq a = true := fun e => hc ((Expr.pyEq_iff _ _).2 ((Expr.pyEq_iff _ _).1 e).symm)
        rw [if_neg hc] at hr
        rw [if_neg hc']
        exact ih.swap b ta tb hr
    · have h' : ¬ varsEq ws vs = true := fun e => h (varsEq_iff.2 (varsEq_iff.1 e).symm)
      rw [if_neg h']; exact ⟨_, rfl⟩
  · intro ws b us c ta tb tc h1 h2
    rw [scopeLt_true] at *
    simp only at *
    rcases h1 with h1 | ⟨e1, n1, l1⟩
    · rcases h2 with h2 | ⟨e2, n2, l2⟩
      · exact .inl (h1.trans h2)
      · exact .inl (e2 ▸ h1)
    · rcases h2 with h2 | ⟨e2, n2, l2⟩
      · exact .inl (e1 ▸ h2)
      · have := ih.trans b c ta tb tc l1 l2
        exact .inr ⟨e1.trans e2, fun e => ih.irrefl c ta tc e this, this⟩

/-- The laws of tuples of formulas. -/
def pairLt (x y : Expr × Expr) : Except Exc Bool :=
  if x.1.pyEq y.1 then
    if x.2.pyEq y.2 then pure false else x.2.lt y.2
  else x.1.lt y.1

theorem pairLt_true {x y : Expr × Expr} : pairLt x y = .ok true ↔
    (x.1.norm ≠ y.1.norm ∧ x.1.lt y.1 = .ok true) ∨
      (x.1.norm = y.1.norm ∧ x.2.norm ≠ y.2.norm ∧ x.2.lt y.2 = .ok true) := by
  unfold pairLt
  by_cases h : x.1.pyEq y.1 = true
  · have h' := (Expr.pyEq_iff _ _).1 h
    rw [if_pos h]
    by_cases hc : x.2.pyEq y.2 = true
    · have hc' := (Expr.pyEq_iff _ _).1 hc
      rw [if_pos hc]
      simp [h', hc']
    · have hc' : x.2.norm ≠ y.2.norm := fun e => hc ((Expr.pyEq_iff _ _).2 e)
      rw [if_neg hc]
      simp [h', hc']
  · have h' : x.1.norm ≠ y.1.norm := fun e => h ((Expr.pyEq_iff _ _).2 e)
    rw [if_neg h]
    simp [h']

theorem pair_laws {a a' : Expr} (ih : LtLawsAt a) (ih' : LtLawsAt a') :
    (∀ b b', a.norm = b.norm → a'.norm = b'.norm → pairLt (a, a') (b, b') ≠ .ok true) ∧
    (∀ b b' c c', Tidy a → Tidy a' → Tidy b → Tidy b' → Tidy c → Tidy c' → a.norm = b.norm → a'.norm = b'.norm →
      pairLt (a, a') (c, c') = pairLt (b, b') (c, c')) ∧
    (∀ b b' c c', Tidy a → Tidy a' → Tidy b → Tidy b' → Tidy c → Tidy c' → b.norm = c.norm → b'.norm = c'.norm →
      pairLt (a, a') (b, b') = pairLt (a, a') (c, c')) ∧
    (∀ b b', Tidy a → Tidy a' → Tidy b → Tidy b' → (∃ r, pairLt (a, a') (b, b') = .ok r) → ∃ r, pairLt (b, b') (a, a') = .ok r) ∧
    (∀ b b' c c', Tidy a → Tidy a' → Tidy b → Tidy b' → Tidy c → Tidy c' → pairLt (a, a') (b, b') = .ok true →
      pairLt (b, b') (c, c') = .ok true → pairLt (a, a') (c, c') = .ok true) := by
  have eeq : ∀ {x y z : Expr}, x.norm = y.norm → x.pyEq z = y.pyEq z ∧ z.pyEq x = z.pyEq y := by
    intro x y z h
    refine ⟨bool_congr ?_ ?_, bool_congr ?_ ?_⟩ <;> simp [Expr.pyEq_iff, h]
  refine ⟨?_, ?_, ?_, ?_, ?_⟩
  · intro b b' he he' h
    rcases pairLt_true.1 h with ⟨h, _⟩ | ⟨_, h, _⟩
    · exact h he
    · exact h he'
  · intro b b' c c' ta ta' tb tb' tc tc' he he'
    simp only [pairLt, (eeq he).1, (eeq he').1, ih.left b c ta tb tc he, ih'.left b' c' ta' tb' tc' he']
  · intro b b' c c' ta ta' tb tb' tc tc' he he'
    simp only [pairLt, (eeq he).2, (eeq he').2, ih.right b c ta tb tc he, ih'.right b' c' ta' tb' tc' he']
  · intro b b' ta ta' tb tb' hr
    unfold pairLt at *
    simp only at *
    have sym : ∀ {x y : Expr}, x.pyEq y = true → y.pyEq x = true :=
      fun h => (Expr.pyEq_iff _ _).2 ((Expr.pyEq_iff _ _).1 h).symm
    by_cases h : a.pyEq b = true
    · rw [if_pos h] at hr
      rw [if_pos (sym h)]
      by_cases hc : a'.pyEq b' = true
      · rw [if_pos (sym hc)]; exact ⟨_, rfl⟩
      · rw [if_neg hc] at hr
        rw [if_neg (fun e => hc (sym e))]
        exact ih'.swap b' ta' tb' hr
    · rw [if_neg h] at hr
      rw [if_neg (fun e => h (sym e))]
      exact ih.swap b ta tb hr
  · intro b b' c c' ta ta' tb tb' tc tc' h1 h2
    rw [pairLt_true] at *
    simp only at *
    rcases h1 with ⟨n1, l1⟩ | ⟨e1, n1, l1⟩
    · rcases h2 with ⟨n2, l2⟩ | ⟨e2, n2, l2⟩
      · have := ih.trans b c ta tb tc l1 l2
        exact .inl ⟨fun e => ih.irrefl c ta tc e this, this⟩
      · refine .inl ⟨fun e => n1 (e.trans e2.symm), ?_⟩
        rw [← ih.right b c ta tb tc e2]; exact l1
    · rcases h2 with ⟨n2, l2⟩ | ⟨e2, n2, l2⟩
      · refine .inl ⟨fun e => n2 (e1.symm.trans e), ?_⟩
        rw [ih.left b c ta tb tc e1]; exact l2
      · have := ih'.trans b' c' ta' tb' tc' l1 l2
        exact .inr ⟨e1.trans e2, fun e => ih'.irrefl c' ta' tc' e this, this⟩

theorem lt_at_none {a : Expr} (h : ∀ b, a.lt b = .error .type_)
    (h' : ∀ b : Expr, a.norm = b.norm → ∀ c, b.lt c = .error .type_) : LtLawsAt a where
  irrefl b _ _ _ := by simp [h]
  left b c _ _ _ e := by rw [h, h' b e]
  right b c _ _ _ _ := by rw [h, h]
  swap b _ _ hr := by simp [h] at hr
  trans b c _ _ _ h1 _ := by simp [h] at h1

/-- The laws hold from every formula. -/
theorem Expr.lt_at (a : Expr) : LtLawsAt a := by
  induction a using Expr.ind with
  | hpred p =>
    refine Pred.lt_laws.raising.at Expr.pred (fun p h => by simpa [Tidy, terms] using h) ?_ ?_ ?_ p
    · intro a b; simp [Expr.norm, Pred.pyEq_iff, Pred.norm]
    · intro a b; simp [Expr.lt]
    · intro a b h; cases b <;> simp_all [Expr.lt, Expr.norm]
  | hnfun p =>
    refine NFun.lt_laws.raising.at Expr.nfun (fun p h => by simpa [Tidy, terms] using h) ?_ ?_ ?_ p
    · intro a b; simp [Expr.norm, NFun.pyEq_iff, NFun.norm]
    · intro a b; simp [Expr.lt]
    · intro a b h; cases b <;> simp_all [Expr.lt, Expr.norm]
  | hnum p =>
    refine Num.lt_laws.at Expr.num (fun p h => trivial) ?_ ?_ ?_ p
    · intro a b; simp [Expr.norm]
    · intro a b; simp [Expr.lt]
    · intro a b h; cases b <;> simp_all [Expr.lt, Expr.norm]
  | heq l r => exact lt_at_none (fun b => by cases b <;> rfl) (fun b h => by cases b <;> simp_all [Expr.norm, Expr.lt])
  | hbfun o as _ => exact lt_at_none (fun b => by cases b <;> rfl) (fun b h => by cases b <;> simp_all [Expr.norm, Expr.lt])
  | hbin o as _ => exact lt_at_none (fun b => by cases b <;> rfl) (fun b h => by cases b <;> simp_all [Expr.norm, Expr.lt])
  | hnot a _ => exact lt_at_none (fun b => by cases b <;> rfl) (fun b h => by cases b <;> simp_all [Expr.norm, Expr.lt])
  | hquant k vs c ih =>
    obtain ⟨i1, i2, i3, i4, i5⟩ := scope_laws ih vs
    have T : ∀ {k vs c}, Tidy (.quant k vs c) → Tidy c := fun h t ht => h t (by simp [terms, ht])
    have L' : ∀ k k' vs vs' c c', (Expr.quant k vs c).lt (.quant k' vs' c') = scopeLt (vs, c) (vs', c') :=
      fun _ _ _ _ _ _ => rfl
    constructor
    · intro b ta tb h
      cases b <;> simp only [Expr.norm, NExpr.quant.injEq, reduceCtorEq] at h
      rw [L']; exact i1 _ _ (T ta) (T tb) h.2.1 h.2.2
    · intro b d ta tb td h
      cases b <;> simp only [Expr.norm, NExpr.quant.injEq, reduceCtorEq] at h
      cases d <;> first | rfl | skip
      rw [L', L']; exact i2 _ _ _ _ (T ta) (T tb) (T td) h.2.1 h.2.2
    · intro b d ta tb td h
      cases b <;> cases d <;> simp only [Expr.norm, NExpr.quant.injEq, reduceCtorEq] at h <;> first | rfl | skip
      rw [L', L']; exact i3 _ _ _ _ (T ta) (T tb) (T td) h.2.1 h.2.2
    · intro b ta tb h
      cases b <;> first | (simp only [Expr.lt, reduceCtorEq, exists_false] at h; done) | skip
      rw [L'] at h ⊢
      exact i4 _ _ (T ta) (T tb) h
    · intro b d ta tb td h h'
      cases b <;> first | (simp only [Expr.lt, reduceCtorEq] at h; done) | skip
      cases d <;> first | (simp only [Expr.lt, reduceCtorEq] at h'; done) | skip
      rw [L'] at h h' ⊢
      exact i5 _ _ _ _ (T ta) (T tb) (T td) h h'
  | hwhen c e ih ih' =>
    obtain ⟨i1, i2, i3, i4, i5⟩ := pair_laws ih ih'
    have T : ∀ {c e}, Tidy (.when c e) → Tidy c := fun h t ht => h t (by simp [terms, ht])
    have T' : ∀ {c e}, Tidy (.when c e) → Tidy e := fun h t ht => h t (by simp [terms, ht])
    have L' : ∀ c e c' e', (Expr.when c e).lt (.when c' e') = pairLt (c, e) (c', e') := fun _ _ _ _ => rfl
    constructor
    · intro b ta tb h
      cases b <;> simp only [Expr.norm, NExpr.when.injEq, reduceCtorEq] at h
      rw [L']; exact i1 _ _ h.1 h.2
    · intro b d ta tb td h
      cases b <;> simp only [Expr.norm, NExpr.when.injEq, reduceCtorEq] at h
      cases d <;> first | rfl | skip
      rw [L', L']; exact i2 _ _ _ _ (T ta) (T' ta) (T tb) (T' tb) (T td) (T' td) h.1 h.2
    · intro b d ta tb td h
      cases b <;> cases d <;> simp only [Expr.norm, NExpr.when.injEq, reduceCtorEq] at h <;> first | rfl | skip
      rw [L', L']; exact i3 _ _ _ _ (T ta) (T' ta) (T tb) (T' tb) (T td) (T' td) h.1 h.2
    · intro b ta tb h
      cases b <;> first | (simp only [Expr.lt, reduceCtorEq, exists_false] at h; done) | skip
      rw [L'] at h ⊢
      exact i4 _ _ (T ta) (T' ta) (T tb) (T' tb) h
    · intro b d ta tb td h h'
      cases b <;> first | (simp only [Expr.lt, reduceCtorEq] at h; done) | skip
      cases d <;> first | (simp only [Expr.lt, reduceCtorEq] at h'; done) | skip
      rw [L'] at h h' ⊢
      exact i5 _ _ _ _ (T ta) (T' ta) (T tb) (T' tb) (T td) (T' td) h h'
  | hfall vs c ih =>
    obtain ⟨i1, i2, i3, i4, i5⟩ := scope_laws ih vs
    have T : ∀ {vs c}, Tidy (.fall vs c) → Tidy c := fun h t ht => h t (by simp [terms, ht])
    have L' : ∀ vs vs' c c', (Expr.fall vs c).lt (.fall vs' c') = scopeLt (vs, c) (vs', c') :=
      fun _ _ _ _ => rfl
    constructor
    · intro b ta tb h
      cases b <;> simp only [Expr.norm, NExpr.fall.injEq, reduceCtorEq] at h
      rw [L']; exact i1 _ _ (T ta) (T tb) h.1 h.2
    · intro b d ta tb td h
      cases b <;> simp only [Expr.norm, NExpr.fall.injEq, reduceCtorEq] at h
      cases d <;> first | rfl | skip
      rw [L', L']; exact i2 _ _ _ _ (T ta) (T tb) (T td) h.1 h.2
    · intro b d ta tb td h
      cases b <;> cases d <;> simp only [Expr.norm, NExpr.fall.injEq, reduceCtorEq] at h <;> first | rfl | skip
      rw [L', L']; exact i3 _ _ _ _ (T ta) (T tb) (T td) h.1 h.2
    · intro b ta tb h
      cases b <;> first | (simp only [Expr.lt, reduceCtorEq, exists_false] at h; done) | skip
      rw [L'] at h ⊢
      exact i4 _ _ (T ta) (T tb) h
    · intro b d ta tb td h h'
      cases b <;> first | (simp only [Expr.lt, reduceCtorEq] at h; done) | skip
      cases d <;> first | (simp only [Expr.lt, reduceCtorEq] at h'; done) | skip
      rw [L'] at h h' ⊢
      exact i5 _ _ _ _ (T ta) (T tb) (T td) h h'

/-- `<` is asymmetric, and where it holds the other direction returns too. -/
theorem Expr.lt_asymm {a b : Expr} (ta : Tidy a) (tb : Tidy b) (h : a.lt b = .ok true) :
    b.lt a = .ok false ∧ a.pyEq b = false := by
  have hne : a.pyEq b = false := by
    cases e : a.pyEq b with
    | false => rfl
    | true => exact absurd h (a.lt_at.irrefl b ta tb ((Expr.pyEq_iff _ _).1 e))
  obtain ⟨r, hr⟩ := a.lt_at.swap b ta tb ⟨_, h⟩
  cases r with
  | false => exact ⟨hr, hne⟩
  | true => exact absurd (a.lt_at.trans b a ta tb ta h hr) (a.lt_at.irrefl a ta ta rfl)

theorem Num.lt_total {a b : Num} (h : a.lt b = .ok false) (he : a.key ≠ b.key) : b.lt a = .ok true := by
  unfold Num.lt at *
  cases ha : a.key with
  | val v =>
    cases hb : b.key with
    | val w =>
      simp only [ha, hb, pure_ok, Except.ok.injEq, ne_eq, NumKey.val.injEq] at *
      rcases FVal.lt_laws.tri v w trivial trivial with e | e | e
      · simp at e; exact absurd e he
      · simp [h] at e
      · simpa using e
    | str t => simp [ha, hb] at h
  | str s =>
    cases hb : b.key with
    | val w => simp [ha, hb] at h
    | str t =>
      simp only [ha, hb, pure_ok, Except.ok.injEq, ne_eq, NumKey.str.injEq] at *
      rcases strLt_laws.tri s t trivial trivial with e | e | e
      · simp at e; exact absurd e he
      · simp [h] at e
      · simpa using e

end Pddl
