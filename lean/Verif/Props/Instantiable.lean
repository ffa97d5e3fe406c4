/-
C13, C15, C28: exactly when formulas, actions and plans can be instantiated.
-/
import Verif.Spec.Instantiable
import Verif.Spec.Declared
import Verif.Props.Problem

namespace Pddl.Props
open Pddl Spec

theorem atomTermsAll_iff {as : List Expr} {ts : List Term} : ts ∈ atomTermsAll as ↔ ∃ a ∈ as, ts ∈ atomTerms a := by
  induction as with
  | nil => simp [atomTermsAll]
  | cons a as ih => simp [atomTermsAll, ih]

theorem pairwise_agree {ts : List Term} : ts.Pairwise Agree ↔ OneType ts := by
  constructor
  · intro h
    induction h with
    | nil => intro t ht; simp at ht
    | @cons a l h1 _ ih =>
      intro t ht u hu e x
      rcases List.mem_cons.1 ht with rfl | ht' <;> rcases List.mem_cons.1 hu with rfl | hu'
      · exact Iff.rfl
      · exact h1 u hu' e x
      · exact (h1 t ht' e.symm x).symm
      · exact ih t ht' u hu' e x
  · intro h
    exact List.pairwise_of_forall_mem_list (fun a ha b hb => h a ha b hb)

/-- In formulas made by the constructors no types clash. -/
theorem good_oneType {f : Expr} (g : f.Good) : ∀ ts ∈ atomTerms f, OneType ts := by
  induction f using Expr.ind with
  | hpred p => simpa only [atomTerms, List.mem_singleton, forall_eq, ← pairwise_agree, ← termsConsistent_nil] using g.2
  | heq l r => simpa only [atomTerms, List.mem_singleton, forall_eq, ← pairwise_agree, ← termsConsistent_nil, Expr.Good] using g
  | hnfun f => simp [atomTerms]
  | hnum n => simp [atomTerms]
  | hbfun o as ih =>
    intro ts ht
    obtain ⟨a, ha, ht⟩ := atomTermsAll_iff.1 ht
    exact ih a ha (goods_iff.mp g.2 a ha) ts ht
  | hbin o as ih =>
    intro ts ht
    obtain ⟨a, ha, ht⟩ := atomTermsAll_iff.1 ht
    exact ih a ha (goods_iff.mp g.2 a ha) ts ht
  | hnot a ih => exact ih g
  | hquant q vs c ih => exact ih g.2
  | hwhen c e h1 h2 =>
    intro ts ht
    rcases List.mem_append.1 ht with ht | ht
    · exact h1 g.1 ts ht
    · exact h2 g.2 ts ht
  | hfall vs e ih => exact ih g.2

/-- Instantiating a formula returns exactly if it has no conditional or universal effect and in no atom do two terms of
one name have different types after the replacement. -/
theorem C15_formula {f : Expr} (hb : Built f) (m : Mapping) : (∃ g, f.inst m = .ok g) ↔ CanReplace (substTerm m) f := by
  have g := hb.good
  clear hb
  have hl : ∀ as : List Expr, (∃ bs, List.Forall₂ (fun a b => a.inst m = .ok b) as bs) ↔ ∀ a ∈ as, ∃ b, a.inst m = .ok b := by
    intro as
    induction as with
    | nil => exact ⟨fun _ a ha => by simp at ha, fun _ => ⟨[], .nil⟩⟩
    | cons a as ih =>
      rw [List.forall_mem_cons, ← ih]
      constructor
      · rintro ⟨_, h⟩; cases h with | cons h1 h2 => exact ⟨⟨_, h1⟩, _, h2⟩
      · rintro ⟨⟨b, h1⟩, bs, h2⟩; exact ⟨b :: bs, .cons h1 h2⟩
  have hall : ∀ as : List Expr, (∀ a ∈ as, CanReplace (substTerm m) a) ↔
      NoEffects as ∧ ∀ ts ∈ atomTermsAll as, OneType (ts.map (substTerm m)) := by
    intro as
    rw [noEffects_iff]
    constructor
    · intro h
      refine ⟨fun a ha => (h a ha).1, fun ts ht => ?_⟩
      obtain ⟨a, ha, ht⟩ := atomTermsAll_iff.1 ht
      exact (h a ha).2 ts ht
    · exact fun h a ha => ⟨h.1 a ha, fun ts ht => h.2 ts (atomTermsAll_iff.2 ⟨a, ha, ht⟩)⟩
  induction f using Expr.ind with
  | hpred p =>
    simp only [inst_pred_ok, termsConsistent_nil, pairwise_agree, CanReplace, NoEffect, atomTerms, List.mem_singleton, forall_eq, true_and]
    exact ⟨fun ⟨_, _, h, _⟩ => h, fun h => ⟨_, g.1, h, rfl⟩⟩
  | heq l r =>
    simp only [inst_eq_ok, termsConsistent_nil, pairwise_agree, CanReplace, NoEffect, atomTerms, List.mem_singleton, forall_eq, true_and,
      List.map_cons, List.map_nil]
    exact ⟨fun ⟨_, h, _⟩ => h, fun h => ⟨_, h, rfl⟩⟩
  | hnfun f =>
    simp only [inst_nfun_ok, CanReplace, NoEffect, atomTerms, List.not_mem_nil, false_imp_iff, implies_true, and_self, iff_true]
    exact ⟨_, g, rfl⟩
  | hnum n =>
    simp only [inst_num_ok, CanReplace, NoEffect, atomTerms, List.not_mem_nil, false_imp_iff, implies_true, and_self, iff_true]
    exact ⟨_, rfl⟩
  | hbfun o as ih =>
    unfold CanReplace
    simp only [inst_bfun_ok, NoEffect, atomTerms]
    rw [← hall, ← forall₂_congr (fun a ha => ih a ha (goods_iff.mp g.2 a ha)), ← hl]
    exact ⟨fun ⟨_, bs, h, _⟩ => ⟨bs, h⟩, fun ⟨bs, h⟩ => ⟨_, bs, h, rfl⟩⟩
  | hbin o as ih =>
    unfold CanReplace
    simp only [inst_bin_ok, NoEffect, atomTerms]
    rw [← hall, ← forall₂_congr (fun a ha => ih a ha (goods_iff.mp g.2 a ha)), ← hl]
    exact ⟨fun ⟨_, bs, h, _⟩ => ⟨bs, h⟩, fun ⟨bs, h⟩ => ⟨_, bs, h, rfl⟩⟩
  | hnot a ih =>
    unfold CanReplace
    simp only [inst_not_ok, NoEffect, atomTerms]
    exact Iff.trans ⟨fun ⟨_, b, h, _⟩ => ⟨b, h⟩, fun ⟨b, h⟩ => ⟨_, b, h, rfl⟩⟩ (ih g)
  | hquant q vs c ih =>
    unfold CanReplace
    simp only [inst_quant_ok, NoEffect, atomTerms]
    exact Iff.trans ⟨fun ⟨_, b, h, _⟩ => ⟨b, h⟩, fun ⟨b, h⟩ => ⟨_, b, h, rfl⟩⟩ (ih g.2)
  | hwhen c e _ _ =>
    simp [inst_when, CanReplace, NoEffect]
  | hfall vs e _ =>
    simp [inst_fall, CanReplace, NoEffect]

theorem substTerm_ofZip (ps args : List Term) (t : Term) : substTerm (Mapping.ofZip ps args) t = replaced ps args t := by
  cases t with
  | const => rfl
  | var v =>
    unfold substTerm replaced
    simp only [C15_mapping]

/-- `Action.instantiate` returns exactly if the number of arguments is right and both parts can be instantiated. -/
theorem C15_exact {a : Action} (hb : BuiltAction a) (args : List Term) : (∃ b, a.inst args = .ok b) ↔ Instantiable a args := by
  have hv : parseName a.name = .ok a.name := by
    obtain ⟨n, hn'⟩ := hb.name
    obtain ⟨e, hv⟩ := parseName_ok.mp hn'
    rw [e]; exact parseName_of_valid hv
  have ho : ∀ o : Option Expr, BuiltOpt o → ((∃ o', InstOpt (Mapping.ofZip a.params args) o o') ↔
      ∀ e, o = some e → CanReplace (replaced a.params args) e) := by
    intro o ho
    cases o with
    | none => exact ⟨fun _ e he => by simp at he, fun _ => ⟨none, trivial⟩⟩
    | some e =>
      have := C15_formula (f := e) ho (Mapping.ofZip a.params args)
      rw [show substTerm (Mapping.ofZip a.params args) = replaced a.params args from funext (substTerm_ofZip _ _)] at this
      simp only [Option.some.injEq, forall_eq']
      rw [← this]
      constructor
      · rintro ⟨o', h⟩
        cases o' with
        | none => exact h.elim
        | some g => exact ⟨g, h⟩
      · rintro ⟨g, h⟩; exact ⟨some g, h⟩
  simp only [C15_result a _ args hv]
  unfold Instantiable
  rw [← ho _ hb.pre, ← ho _ hb.eff]
  constructor
  · rintro ⟨b, h1, _, _, h2, h3⟩; exact ⟨h1, ⟨_, h2⟩, _, h3⟩
  · rintro ⟨h1, ⟨o, h2⟩, o', h3⟩; exact ⟨⟨a.name, args, o, o'⟩, h1, rfl, rfl, h2, h3⟩

/-- A plan that passes the check can be instantiated exactly if each step can. -/
theorem C28_exact {d : Domain} {pr : Problem} {p : Plan} (hb : ∀ a ∈ d.actions, BuiltAction a) (hc : p.check d pr = .ok ()) :
    (∃ gs, p.inst d = .ok gs) ↔ ∀ s ∈ p.steps, ∀ a, lastNamed s.1 d.actions = some a → Instantiable a s.2 := by
  have hsteps := planCheck_ok.mp hc
  unfold Plan.inst
  simp only [instSteps_ok]
  generalize p.steps = l at hsteps
  induction l with
  | nil => exact ⟨fun _ s hs => by simp at hs, fun _ => ⟨[], .nil⟩⟩
  | cons s l ih =>
    have ih' := ih (fun x hx => hsteps x (List.mem_cons_of_mem _ hx))
    rw [List.forall_mem_cons]
    refine Iff.trans ?_ (and_congr_right fun _ => ih')
    constructor
    · rintro ⟨_, h⟩
      obtain ⟨b, bs, ⟨a, ha, hi⟩, h2, rfl⟩ := List.forall₂_cons_left_iff.1 h
      refine ⟨fun a' ha' => ?_, _, h2⟩
      rw [ha] at ha'
      cases ha'
      exact (C15_exact (hb a (lastNamed_mem ha).1) s.2).1 ⟨_, hi⟩
    · rintro ⟨h1, gs, h2⟩
      obtain ⟨a, ha, _⟩ := hsteps s (by simp)
      obtain ⟨b, hi⟩ := (C15_exact (hb a (lastNamed_mem ha).1) s.2).2 (h1 a ha)
      exact ⟨b :: gs, .cons ⟨a, ha, hi⟩ h2⟩

/-- Arguments without types, as plan texts have them: an action can be instantiated exactly if it has no conditional or
universal effect, provided the arguments are not the names of typed terms that stay in its atoms. -/
theorem C28_untyped {a : Action} (hb : BuiltAction a) {args : List Term} (hlen : args.length = a.params.length)
    (hargs : ∀ t ∈ args, ∃ n, t = .const n none)
    (hstay : ∀ e, PartOf a e → ∀ ts ∈ atomTerms e, ∀ t ∈ ts, replaced a.params args t = t → ∀ u ∈ args, u.name = t.name → t.tags = []) :
    (∃ b, a.inst args = .ok b) ↔ ∀ e, PartOf a e → NoEffect e := by
  rw [C15_exact hb]
  have hrep : ∀ t, replaced a.params args t = t ∨ replaced a.params args t ∈ args := by
    intro t
    cases t with
    | const => exact .inl rfl
    | var v =>
      unfold replaced
      simp only
      cases hf : (a.params.zip args).reverse.find? (fun p => Term.pyEq (.var v) p.1) with
      | none => exact .inl rfl
      | some q =>
        refine .inr ?_
        have := List.mem_of_find?_eq_some hf
        simp only [Option.map_some, Option.getD_some]
        exact (List.of_mem_zip (List.mem_reverse.1 this)).2
  have htags : ∀ t ∈ args, t.tags = [] := by
    intro t ht; obtain ⟨n, rfl⟩ := hargs t ht; rfl
  have key : ∀ e, PartOf a e → Built e → ∀ ts ∈ atomTerms e, OneType (ts.map (replaced a.params args)) := by
    intro e he hbe ts hts t ht u hu hn
    obtain ⟨t0, ht0, rfl⟩ := List.mem_map.1 ht
    obtain ⟨u0, hu0, rfl⟩ := List.mem_map.1 hu
    rcases hrep t0 with h1 | h1 <;> rcases hrep u0 with h2 | h2
    · rw [h1, h2] at hn ⊢
      exact good_oneType hbe.good ts hts t0 ht0 u0 hu0 hn
    · rw [h1] at hn ⊢
      rw [htags _ h2, hstay e he ts hts t0 ht0 h1 _ h2 hn.symm]
      exact fun x => Iff.rfl
    · rw [h2] at hn ⊢
      rw [htags _ h1, hstay e he ts hts u0 hu0 h2 _ h1 hn]
      exact fun x => Iff.rfl
    · rw [htags _ h1, htags _ h2]
      exact fun x => Iff.rfl
  have hbe : ∀ e, PartOf a e → Built e := by
    rintro e (he | he)
    · have := hb.pre; rw [he] at this; exact this
    · have := hb.eff; rw [he] at this; exact this
  constructor
  · rintro ⟨_, h1, h2⟩ e (he | he)
    · exact (h1 e he).1
    · exact (h2 e he).1
  · exact fun h => ⟨hlen, fun e he => ⟨h e (.inl he), key e (.inl he) (hbe e (.inl he))⟩,
      fun e he => ⟨h e (.inr he), key e (.inr he) (hbe e (.inr he))⟩⟩

/-! ### C13 -/

/-- Instantiating in two stages and at once both return exactly if types clash in no atom, neither after the first mapping nor
after both; the two formulas are then the same. -/
theorem C13_exact {f : Expr} (hb : Built f) (hw : WellSorted f) (m1 m2 : Mapping) (hc : ToConstants m1) :
    (∃ g, (f.inst m1 >>= fun g => g.inst m2) = .ok g ∧ f.inst (m1 ++ m2) = .ok g) ↔
      CanReplace (substTerm m1) f ∧ CanReplace (substTerm (m1 ++ m2)) f := by
  rw [← C15_formula hb, ← C15_formula hb]
  constructor
  · rintro ⟨g, h1, h2⟩
    obtain ⟨g1, h1, _⟩ := bind_ok_iff.mp h1
    exact ⟨⟨g1, h1⟩, g, h2⟩
  · rintro ⟨⟨g1, h1⟩, g, h2⟩
    exact ⟨g, by rw [h1]; exact C13_partial m1 m2 f g1 g hc hb hw h1 h2, h2⟩

/-- They never return different formulas: where they differ, exactly one of them returns. At once and not in two stages
exactly if types clash after the first mapping and not after both. -/
theorem C13_differ {f : Expr} (hb : Built f) (hw : WellSorted f) (m1 m2 : Mapping) (hc : ToConstants m1) :
    (∀ g g', (f.inst m1 >>= fun g => g.inst m2) = .ok g → f.inst (m1 ++ m2) = .ok g' → g = g') ∧
    ((∃ g, f.inst (m1 ++ m2) = .ok g ∧ ∀ g', (f.inst m1 >>= fun g => g.inst m2) ≠ .ok g') ↔
      CanReplace (substTerm (m1 ++ m2)) f ∧ ¬ CanReplace (substTerm m1) f) := by
  have key : ∀ g g', (f.inst m1 >>= fun g => g.inst m2) = .ok g → f.inst (m1 ++ m2) = .ok g' → g = g' := by
    intro g g' h1 h2
    obtain ⟨g1, h1, h3⟩ := bind_ok_iff.mp h1
    rw [C13_partial m1 m2 f g1 g' hc hb hw h1 h2] at h3
    cases h3; rfl
  refine ⟨key, ?_⟩
  rw [← C15_formula hb, ← C15_formula hb]
  constructor
  · rintro ⟨g, h1, h2⟩
    refine ⟨⟨g, h1⟩, ?_⟩
    rintro ⟨g1, h3⟩
    refine h2 g ?_
    rw [h3]; exact C13_partial m1 m2 f g1 g hc hb hw h3 h1
  · rintro ⟨⟨g, h1⟩, h2⟩
    refine ⟨g, h1, fun g' h3 => h2 ?_⟩
    obtain ⟨g1, h3, _⟩ := bind_ok_iff.mp h3
    exact ⟨g1, h3⟩

/-! ### Examples -/

/-- An action with a typed constant in an atom beside a parameter. -/
def besideAction : Action := ⟨s%"go", [.var ⟨s%"x", []⟩], some (.pred ⟨s%"p", [.const s%"c" (some s%"t"), .var ⟨s%"x", []⟩]⟩),
  some (.not (.pred ⟨s%"q", [.var ⟨s%"x", []⟩]⟩))⟩

theorem beside_built : BuiltAction besideAction :=
  ⟨.pred (n := s%"p") (ts := [.const s%"c" (some s%"t"), .var ⟨s%"x", []⟩]) (by decide +kernel),
    .not (.pred (n := s%"q") (ts := [.var ⟨s%"x", []⟩]) (by decide +kernel)), s%"go", by decide +kernel⟩

/-- It can be instantiated with any other constant, and not with that one. -/
example : (∃ b, besideAction.inst [.const s%"e" none] = .ok b) ∧ ¬ ∃ b, besideAction.inst [.const s%"c" none] = .ok b := by
  rw [C15_exact beside_built, C15_exact beside_built]
  constructor
  · refine ⟨rfl, fun e he => ?_, fun e he => ?_⟩
    all_goals
      cases he
      refine ⟨trivial, ?_⟩
      intro ts ht
      simp only [atomTerms, List.mem_singleton] at ht
      subst ht
      exact pairwise_agree.1 ((termsConsistent_nil _).1 (by decide +kernel))
  · rintro ⟨_, h, _⟩
    have := (h _ rfl).2 _ (List.mem_singleton.2 rfl)
    have := this (.const s%"c" (some s%"t")) (by decide +kernel) (.const s%"c" none) (by decide +kernel) rfl s%"t"
    simp [Term.tags] at this

/-- The conditions of C28_untyped hold for every argument of another name. -/
example (n : Str) (hn : n ≠ s%"c") : ∃ b, besideAction.inst [.const n none] = .ok b := by
  refine (C28_untyped (args := [.const n none]) beside_built rfl (fun t ht => ⟨n, by simpa using ht⟩) ?_).2 ?_
  · intro e he ts hts t ht _ u hu hname
    simp only [List.mem_singleton] at hu
    subst hu
    have hc : t = .const s%"c" (some s%"t") ∨ t = .var ⟨s%"x", []⟩ := by
      rcases he with he | he <;> cases he <;> simp only [atomTerms, List.mem_singleton] at hts <;> subst hts <;> simp at ht <;> simp [ht]
    rcases hc with rfl | rfl
    · exact absurd hname hn
    · rfl
  · rintro e (he | he) <;> cases he <;> trivial

/-- ?y becomes the constant x, and then ?x, which has a type, becomes c: only the first way returns. -/
example : CanReplace (substTerm ([(.var vy, .const s%"x" none)] ++ [(.var vxt, cc)])) (.pred ⟨s%"p", [.var vxt, .var vy]⟩) ∧
    ¬ CanReplace (substTerm [(.var vy, .const s%"x" none)]) (.pred ⟨s%"p", [.var vxt, .var vy]⟩) := by
  have hb : Built (.pred ⟨s%"p", [.var vxt, .var vy]⟩) := .pred (n := s%"p") (ts := [.var vxt, .var vy]) (by decide +kernel)
  rw [← C15_formula hb, ← C15_formula hb]
  refine ⟨⟨_, rfl⟩, ?_⟩
  rintro ⟨g, h⟩
  have : (Expr.pred ⟨s%"p", [.var vxt, .var vy]⟩).inst [(.var vy, .const s%"x" none)] = .error .value := by decide +kernel
  rw [this] at h
  cases h

end Pddl.Props
