/-
C73: instances of well-typed formulas, actions and derived predicates.
-/
import Verif.Props.WrittenProblem
import Verif.Proofs.EffectRead
import Verif.Props.Problem

namespace Pddl.Props
open Pddl Spec

/-- A mapping whose values are well-typed terms. -/
def WellTypedMapping (declared : Str → Prop) (rs : List Req) (m : Mapping) : Prop :=
  ∀ p ∈ m, WellTypedTerm declared rs p.2

theorem wellTyped_subst {declared : Str → Prop} {rs : List Req} {m : Mapping} (hm : WellTypedMapping declared rs m) {t : Term}
    (ht : WellTypedTerm declared rs t) : WellTypedTerm declared rs (substTerm m t) := by
  cases t with
  | const n x => exact ht
  | var v =>
    have e : substTerm m (.var v) = (m.get (.var v)).getD (.var v) := rfl
    rw [e]
    cases hg : m.get (.var v) with
    | none => exact ht
    | some t =>
      unfold Mapping.get at hg
      split at hg
      · next p hp =>
        cases hg
        exact hm p (List.mem_of_find?_eq_some hp)
      · cases hg

theorem wellTyped_construct {declared : Str → Prop} {rs : List Req} {c : Cls} {es : List Expr}
    (h : ∀ e ∈ es, WellTyped declared rs e) : WellTyped declared rs (construct c es) := by
  have hop : ∀ as, WellTyped declared rs (Expr.ofCls c as) ↔ ∀ a ∈ as, WellTyped declared rs a := by
    intro as
    have : terms (Expr.ofCls c as) = termsAll as := by cases c <;> rfl
    unfold WellTyped
    rw [this]
    constructor
    · intro h a ha v hv; exact h v (mem_termsAll.2 ⟨a, ha, hv⟩)
    · intro h v hv
      obtain ⟨a, ha, hv⟩ := mem_termsAll.1 hv
      exact h a ha v hv
  rcases construct_read (P := WellTyped declared rs) c (fun as => (hop as).1) h with h | ⟨as, h1, h2⟩
  · exact h.1
  · rw [h1]; exact (hop as).2 h2

/-- C73 for formulas: an instance of a well-typed formula with well-typed terms is well-typed. -/
theorem C73_formula {declared : Str → Prop} {rs : List Req} {m : Mapping} (hm : WellTypedMapping declared rs m) {f g : Expr}
    (h : f.inst m = .ok g) (hf : WellTyped declared rs f) : WellTyped declared rs g := by
  have hl : ∀ (c : Cls) (as bs : List Expr), (∀ a ∈ as, ∀ b : Expr, a.inst m = .ok b → WellTyped declared rs b) →
      List.Forall₂ (fun a b => a.inst m = .ok b) as bs → WellTyped declared rs (construct c bs) := by
    intro c as bs ih h2
    refine wellTyped_construct ?_
    intro b hb
    obtain ⟨a, ha, e⟩ := forall2_mem h2 b hb
    exact ih a ha b e
  have hmap : ∀ ts : List Term, (∀ t ∈ ts, WellTypedTerm declared rs t) →
      ∀ t ∈ ts.map (substTerm m), WellTypedTerm declared rs t := by
    intro ts hts t ht
    obtain ⟨s, hs, rfl⟩ := List.mem_map.1 ht
    exact wellTyped_subst hm (hts s hs)
  induction f using Expr.ind generalizing g with
  | hpred p => obtain ⟨_, _, rfl⟩ := inst_pred_ok.mp h; exact hmap _ hf
  | heq l r =>
    obtain ⟨_, rfl⟩ := inst_eq_ok.mp h
    exact hmap [l, r] hf
  | hnfun f => obtain ⟨_, rfl⟩ := inst_nfun_ok.mp h; exact hmap _ hf
  | hnum n => have := inst_num_ok.mp h; subst this; exact hf
  | hbfun o as ih =>
    obtain ⟨bs, h2, rfl⟩ := inst_bfun_ok.mp h
    exact hl (.fop o) as bs (fun a ha b h => ih a ha h (fun t ht => hf t (mem_termsAll.2 ⟨a, ha, ht⟩))) h2
  | hbin o as ih =>
    obtain ⟨bs, h2, rfl⟩ := inst_bin_ok.mp h
    exact hl (.bop o) as bs (fun a ha b h => ih a ha h (fun t ht => hf t (mem_termsAll.2 ⟨a, ha, ht⟩))) h2
  | hnot a ih => obtain ⟨b, h1, rfl⟩ := inst_not_ok.mp h; exact ih (g := b) h1 hf
  | hquant q vs c ih =>
    obtain ⟨b, h1, rfl⟩ := inst_quant_ok.mp h
    intro t ht
    simp only [mkQuant, terms, List.mem_append, List.mem_map] at ht
    rcases ht with ⟨v, hv, rfl⟩ | ht
    · exact hf _ (by simp only [terms, List.mem_append, List.mem_map]; exact .inl ⟨v, dedupBy_subset hv, rfl⟩)
    · exact ih h1 (fun t ht => hf t (by simp only [terms, List.mem_append]; exact .inr ht)) t ht
  | hwhen c e _ _ => rw [inst_when] at h; simp at h
  | hfall vs e _ => rw [inst_fall] at h; simp at h

/-- C73 for actions: an instance of a well-typed action with well-typed arguments is well-typed. -/
theorem C73_action {declared : Str → Prop} {rs : List Req} {a g : Action} {args : List Term}
    (hargs : ∀ t ∈ args, WellTypedTerm declared rs t) (h : a.inst args = .ok g) (ha : WellTypedAction declared rs a) :
    WellTypedAction declared rs g := by
  unfold Action.inst at h
  split at h
  · cases h
  · obtain ⟨pre, h1, h⟩ := bind_ok_iff.1 h
    obtain ⟨eff, h2, h⟩ := bind_ok_iff.1 h
    unfold mkAction at h
    obtain ⟨n, _, h⟩ := bind_ok_iff.1 h
    simp only [pure_ok, Except.ok.injEq] at h
    subst h
    have hopt : ∀ {o o' : Option Expr}, instOpt (Mapping.ofZip a.params args) o = .ok o' →
        (∀ t ∈ termsOpt o, WellTypedTerm declared rs t) → ∀ t ∈ termsOpt o', WellTypedTerm declared rs t := by
      intro o o' ho hw
      cases o with
      | none =>
        simp only [instOpt, pure_ok, Except.ok.injEq] at ho
        subst ho
        exact hw
      | some e =>
        obtain ⟨e', he, ho⟩ := bind_ok_iff.1 ho
        simp only [pure_ok, Except.ok.injEq] at ho
        subst ho
        exact C73_formula (fun p hp => hargs _ (ofZip_values _ _ p hp)) he hw
    intro t ht
    simp only [List.mem_append] at ht
    rcases ht with (ht | ht) | ht
    · exact hargs t ht
    · exact hopt h1 (fun t ht => ha t (by simp [ht])) t ht
    · exact hopt h2 (fun t ht => ha t (by simp [ht])) t ht

/-- C73 for derived predicates. -/
theorem C73_derived {declared : Str → Prop} {rs : List Req} {m : Mapping} (hm : WellTypedMapping declared rs m)
    {d g : Derived} (h : d.inst m = .ok g) (h1 : ∀ t ∈ d.pred.terms, WellTypedTerm declared rs t)
    (h2 : WellTyped declared rs d.cond) :
    (∀ t ∈ g.pred.terms, WellTypedTerm declared rs t) ∧ WellTyped declared rs g.cond := by
  unfold Derived.inst at h
  obtain ⟨p, hp, h⟩ := bind_ok_iff.1 h
  obtain ⟨c, hc, h⟩ := bind_ok_iff.1 h
  simp only [pure_ok, Except.ok.injEq] at h
  subst h
  refine ⟨?_, C73_formula hm hc h2⟩
  have : (Expr.pred d.pred).inst m = .ok (.pred p) := by
    simp only [Expr.inst, hp, ok_bind]; rfl
  exact C73_formula hm this h1

/-! ### Plans -/

/-- The full statement for plans: the ground actions of a checked plan are accepted by the type checker of the domain. -/
def C73_full : Prop := ∀ (d : Domain) (pr : Problem) (p : Plan) (gs : List Action), ExistsDomain d → pr.check d = .ok () →
  p.check d pr = .ok () → p.inst d = .ok gs → ∀ g ∈ gs, (⟨typesAll d.types, d.reqs⟩ : TCtx).checkAction g = .ok ()

/-- Every action of a domain that exists is well-typed, with a precondition and an effect. -/
theorem existsDomain_actions {d : Domain} (h : ExistsDomain d) : ∀ a ∈ d.actions, a.pre ≠ none ∧ a.eff ≠ none ∧
    WellTypedAction (· ∈ typesAll d.types) d.reqs a := by
  obtain ⟨a, ht, h⟩ := h
  obtain ⟨_, _, _, _, _, _, h7, _, rfl⟩ := (mkDomain_ok ht).mp h
  intro x hx
  rw [show (domainOf a).actions = dedupBy Action.pyEq a.actions from rfl, dedup_firstOcc eqv_action] at hx
  obtain ⟨g1, g2, g3⟩ := h7 x hx
  refine ⟨g1, g2, ?_⟩
  intro t ht
  obtain ⟨k1, k2⟩ := g3 t ht
  refine ⟨fun y hy => mem_typesAll.2 (k1 y hy), fun hne => ?_⟩
  rcases k2 hne with h | h
  · exact .inl (mem_reqSet.2 h)
  · exact .inr (mem_reqSet.2 h)

/-- C73 for plans: if the arguments of the steps are well-typed, so are the ground actions. Missing: arguments that carry
types of their own, which `check` does not look at (see `C73_fails`). -/
theorem C73_partial {d : Domain} {p : Plan} {gs : List Action} (hd : ExistsDomain d)
    (hargs : ∀ s ∈ p.steps, ∀ t ∈ s.2, WellTypedTerm (· ∈ typesAll d.types) d.reqs t) (hi : p.inst d = .ok gs) :
    ∀ g ∈ gs, (⟨typesAll d.types, d.reqs⟩ : TCtx).checkAction g = .ok () := by
  intro g hg
  have h1 := instSteps_ok.1 hi
  obtain ⟨s, hs, a, ha, hg⟩ := forall2_mem h1 g hg
  obtain ⟨g1, g2, g3⟩ := existsDomain_actions hd a (lastNamed_mem ha).1
  have hn : g.pre ≠ none ∧ g.eff ≠ none := by
    have hg := hg
    unfold Action.inst at hg
    split at hg
    · cases hg
    · obtain ⟨pre, k1, hg⟩ := bind_ok_iff.1 hg
      obtain ⟨eff, k2, hg⟩ := bind_ok_iff.1 hg
      unfold mkAction at hg
      obtain ⟨n, _, hg⟩ := bind_ok_iff.1 hg
      simp only [pure_ok, Except.ok.injEq] at hg
      subst hg
      have hopt : ∀ {o o' : Option Expr}, instOpt (Mapping.ofZip a.params s.2) o = .ok o' → o ≠ none → o' ≠ none := by
        intro o o' ho hne
        cases o with
        | none => exact absurd rfl hne
        | some e =>
          obtain ⟨e', he, ho⟩ := bind_ok_iff.1 ho
          simp only [pure_ok, Except.ok.injEq] at ho
          subst ho
          simp
      exact ⟨hopt k1 g1, hopt k2 g2⟩
  exact (C18_action _ g hn.1 hn.2).2 (C73_action (hargs s hs) hg g3)

/-- The plans that the parser returns have arguments without types: their ground actions are well-typed. -/
theorem C73_parsed {d : Domain} {text : Str} {p : Plan} {gs : List Action} (hd : ExistsDomain d) (hp : parsePlan text = .ok p)
    (hi : p.inst d = .ok gs) : ∀ g ∈ gs, (⟨typesAll d.types, d.reqs⟩ : TCtx).checkAction g = .ok () := by
  refine C73_partial hd ?_ hi
  intro s hs t ht
  obtain ⟨ts, _, h, _⟩ := C59_steps.1 hp
  obtain ⟨x, _, hx⟩ := forall2_mem h s hs
  obtain ⟨ns, _, e⟩ := hx
  rw [e] at ht
  obtain ⟨n, _, rfl⟩ := List.mem_map.1 ht
  have : (Term.const n none).tags = [] := rfl
  exact ⟨by rw [this]; simp, fun h => absurd this h⟩

/-- It is false for plans built with typed constants: `check` finds the object by its name, whatever the type. -/
theorem C73_fails : ¬ C73_full := by
  intro h
  have h1 := h demoDomain demoProblem ⟨[(s%"go", [.const s%"t2" (some s%"plane")])]⟩ _ demoDomain_exists rfl
    (by decide +kernel) rfl
  revert h1
  decide +kernel

/-- A checked plan whose ground actions are well-typed. -/
example : demoProblem.check demoDomain = .ok () ∧ demoPlan.check demoDomain demoProblem = .ok () ∧
    (∀ s ∈ demoPlan.steps, ∀ t ∈ s.2, t.tags = []) ∧ ∃ g g', demoPlan.inst demoDomain = .ok [g, g'] :=
  ⟨rfl, by decide +kernel, by decide +kernel, _, _, rfl⟩

/-- An instance with a declared type. -/
example : WellTypedMapping (· ∈ [s%"t"]) [.typing] [(.var ⟨s%"x", [s%"t"]⟩, .const s%"c" (some s%"t"))] ∧
    WellTyped (· ∈ [s%"t"]) [.typing] (.quant .all [⟨s%"y", [s%"t"]⟩] (.pred ⟨s%"p", [.var ⟨s%"x", [s%"t"]⟩, .var ⟨s%"y", [s%"t"]⟩]⟩)) ∧
    Expr.inst [(.var ⟨s%"x", [s%"t"]⟩, .const s%"c" (some s%"t"))]
      (.quant .all [⟨s%"y", [s%"t"]⟩] (.pred ⟨s%"p", [.var ⟨s%"x", [s%"t"]⟩, .var ⟨s%"y", [s%"t"]⟩]⟩)) =
      .ok (.quant .all [⟨s%"y", [s%"t"]⟩] (.pred ⟨s%"p", [.const s%"c" (some s%"t"), .var ⟨s%"y", [s%"t"]⟩]⟩)) := by
  refine ⟨?_, ?_, by decide +kernel⟩
  · intro p hp
    rw [List.mem_singleton.1 hp]
    exact ⟨by simp [Term.tags], fun _ => .inl (by simp)⟩
  · intro t ht
    simp only [terms, List.map_cons, List.map_nil, List.cons_append, List.nil_append, List.mem_cons, List.not_mem_nil, or_false] at ht
    rcases ht with rfl | rfl | rfl <;> exact ⟨by simp [Term.tags], fun _ => .inl (by simp)⟩

end Pddl.Props
