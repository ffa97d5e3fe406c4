/- C11-C15: instantiation; C44: consistency of terms. -/
import Verif.Proofs.Consistent
import Verif.Proofs.DecEq

namespace Pddl.Props
open Pddl Spec

/-! ### C44 -/

/-- Two terms with the same name and different sets of types. -/
def Clash (a b : Term) : Prop := a.name = b.name ∧ ¬ ∀ x, x ∈ a.tags ↔ x ∈ b.tags

theorem pairwise_agree_iff (ts : List Term) : ts.Pairwise Agree ↔ ¬ ∃ a ∈ ts, ∃ b ∈ ts, Clash a b := by
  constructor
  · rintro h ⟨a, ha, b, hb, hn, hc⟩
    apply hc
    intro x
    have hp : ∀ l : List Term, l.Pairwise Agree → ∀ a ∈ l, ∀ b ∈ l, Agree a b := by
      intro l hl
      induction hl with
      | nil => simp
      | cons h1 _ ih =>
        intro a ha b hb
        rcases List.mem_cons.mp ha with ea | ha <;> rcases List.mem_cons.mp hb with eb | hb
        · rw [ea, eb]; exact fun _ _ => Iff.rfl
        · rw [ea]; exact h1 b hb
        · rw [eb]; exact fun e z => (h1 a ha e.symm z).symm
        · exact ih a ha b hb
    exact hp ts h a ha b hb hn x
  · intro h
    apply List.Pairwise.imp_of_mem (R := fun _ _ => True)
    · intro a b ha hb _ e
      by_contra hc
      exact h ⟨a, ha, b, hb, e, hc⟩
    · exact List.pairwise_of_forall (fun _ _ => trivial)

/-- `Predicate(name, *terms)` with a valid name raises `ValueError` iff two of
the terms clash, and is otherwise the predicate asked for. -/
theorem C44_predicate (n : Str) (ts : List Term) (hn : parseName n = .ok n) :
    (mkPred n ts = .error .value ↔ ∃ a ∈ ts, ∃ b ∈ ts, Clash a b) ∧
    (mkPred n ts = .ok ⟨n, ts⟩ ↔ ¬ ∃ a ∈ ts, ∃ b ∈ ts, Clash a b) := by
  have h := termsConsistent_nil ts
  rw [pairwise_agree_iff] at h
  unfold mkPred
  rw [hn]
  cases hc : termsConsistent [] ts with
  | true =>
    have := h.mp hc
    simp only [ok_bind, check_true, pure_ok]
    constructor
    · simp only [reduceCtorEq, false_iff]; exact this
    · simp only [true_iff]; exact this
  | false =>
    have : ∃ a ∈ ts, ∃ b ∈ ts, Clash a b := by
      by_contra hcl
      rw [h.mpr hcl] at hc; simp at hc
    simp only [ok_bind, check_false, error_bind]
    constructor
    · simp only [true_iff]; exact this
    · simp only [reduceCtorEq, false_iff, not_not]; exact this

/-- `EqualTo(left, right)` raises `ValueError` iff the two terms clash. -/
theorem C44_equal_to (l r : Term) :
    (mkEq l r = .error .value ↔ Clash l r) ∧ (mkEq l r = .ok (.eq l r) ↔ ¬ Clash l r) := by
  have h := termsConsistent_nil [l, r]
  simp only [List.pairwise_cons, List.mem_singleton, forall_eq, List.not_mem_nil, false_imp_iff,
    implies_true, List.Pairwise.nil, and_true] at h
  have h' : Agree l r ↔ ¬ Clash l r := by
    constructor
    · rintro h1 ⟨e, h2⟩; exact h2 (h1 e)
    · intro h1 e; by_contra h2; exact h1 ⟨e, h2⟩
  rw [h'] at h
  unfold mkEq
  cases hc : termsConsistent [] [l, r] with
  | true =>
    have := h.mp hc
    simp [this]
  | false =>
    have : Clash l r := by
      by_contra hcl
      rw [h.mpr hcl] at hc; simp at hc
    simp [this]

/-- `NumericFunction` does not check. -/
theorem C44_function (n : Str) (ts : List Term) (hn : parseFunction n = .ok n) :
    mkNFun n ts = .ok ⟨n, ts⟩ := mkNFun_ok.mpr ⟨hn, rfl⟩

def vx : Var := ⟨s%"x", []⟩
def vy : Var := ⟨s%"y", []⟩
def vxt : Var := ⟨s%"x", [s%"t"]⟩
def ca : Term := .const s%"a" none
def cc : Term := .const s%"c" none

example : mkPred s%"p" [.var vx, ca, .var vxt] = .error .value := by decide +kernel
example : mkPred s%"p" [.var vxt, ca, .var vxt] = .ok ⟨s%"p", [.var vxt, ca, .var vxt]⟩ := by
  decide +kernel
example : Clash (.var vx) (.var vxt) := ⟨rfl, fun h => by simpa [Term.tags, vx, vxt] using h s%"t"⟩

/-! ### C11 -/

/-- The full statement. -/
def C11_full : Prop :=
  ∀ (D : Type) (I : Interp D) (m : Mapping) (f g : Expr) (ρ ρ' : Str → D),
    ToConstants m → Built f → WellSorted f → f.inst m = .ok g → Updated I m ρ ρ' →
    (holds I g ρ ↔ holds I f ρ')

/-- Objects `true` and `false`; the constants denote `true`; `(p d)` holds of `true` only. -/
def boolI : Interp Bool :=
  ⟨fun _ => true, fun _ _ => True, fun n ds => n = s%"p" ∧ ds = [true], fun _ _ => some 1⟩

theorem built_p (t : Term) : Built (.pred ⟨s%"p", [t]⟩) := by
  have : termsConsistent [] [t] = true := by rw [termsConsistent_nil]; simp
  exact .pred (n := s%"p") (ts := [t]) (mkPred_ok.mpr ⟨by decide +kernel, this, rfl⟩)

/-- It is false when a quantifier of the formula binds a mapped variable: the
occurrences under the quantifier are replaced too. -/
theorem C11_shadow_fails : ¬ C11_full := by
  intro h
  have := h Bool boolI [(.var vx, ca)] (mkQuant .all (.pred ⟨s%"p", [.var vx]⟩) [vx])
    (mkQuant .all (.pred ⟨s%"p", [ca]⟩) [vx]) (fun _ => true) (fun _ => true)
    (by simp [ToConstants, ca]) (.quant _ _ (built_p _)) (by simp [mkQuant, WellSorted])
    (by decide +kernel)
    ⟨by intro v t h; cases t <;> simp [denote, boolI], by simp⟩
  have h1 : holds boolI (mkQuant .all (.pred ⟨s%"p", [ca]⟩) [vx]) (fun _ => true) := by
    intro σ _; simp [holds, boolI, denote, ca]
  have h2 := this.mp h1
  have hd : dedupBy Var.pyEq [vx] = [vx] := by simp [dedupBy, dedupAux, memBy]
  have h3 := h2 (fun n => if n = s%"x" then false else true) ⟨by
      intro n hn
      have := hn vx (by rw [hd]; simp)
      have : n ≠ s%"x" := fun e => this e.symm
      simp [this], by
      intro v hv
      rw [hd] at hv
      have : v = vx := by simpa using hv
      subst this; exact Or.inl rfl⟩
  simp [holds, boolI, denote, vx] at h3

/-- It is also false when two operands of a numeric comparison become equal: the
comparison loses an operand. -/
theorem C11_collision_fails : ¬ C11_full := by
  intro h
  have := h Bool boolI [(.var vx, ca), (.var vy, ca)]
    (.bfun .eq [.nfun ⟨s%"f", [.var vx]⟩, .nfun ⟨s%"f", [.var vy]⟩])
    (.bfun .eq [.nfun ⟨s%"f", [ca]⟩]) (fun _ => true) (fun _ => true)
    (by simp [ToConstants, ca])
    (by
      have := Built.op (.fop .eq) (args := [.nfun ⟨s%"f", [.var vx]⟩, .nfun ⟨s%"f", [.var vy]⟩]) (by
        intro a ha
        simp at ha
        rcases ha with rfl | rfl
        · exact .nfun (n := s%"f") (ts := [.var vx]) (by decide +kernel)
        · exact .nfun (n := s%"f") (ts := [.var vy]) (by decide +kernel))
      have e : construct (.fop .eq) [.nfun ⟨s%"f", [.var vx]⟩, .nfun ⟨s%"f", [.var vy]⟩]
        = .bfun .eq [.nfun ⟨s%"f", [.var vx]⟩, .nfun ⟨s%"f", [.var vy]⟩] := by decide +kernel
      rw [e] at this; exact this)
    (by simp [WellSorted, WellSorteds, Numeric]) (by decide +kernel)
    ⟨by intro v t h; cases t <;> simp [denote, boolI], by simp⟩
  have h2 := this.mpr ⟨[1, 1], by simp [values, value, boolI], rfl⟩
  simp [holds, values, value, boolI, compareVals] at h2

/-- And it is false when the formula mentions a mapped variable with other type
tags than the key of the mapping: the occurrence is not replaced. -/
theorem C11_tags_fails : ¬ C11_full := by
  intro h
  have := h Bool boolI [(.var vxt, ca)] (.pred ⟨s%"p", [.var vx]⟩) (.pred ⟨s%"p", [.var vx]⟩)
    (fun _ => false) (fun n => decide (n = s%"x"))
    (by simp [ToConstants, ca]) (built_p _) (by simp [WellSorted])
    (by decide +kernel)
    ⟨by
      intro v t h
      have hn : v.name = s%"x" := by
        by_contra hc
        have : (Term.var v).pyEq (.var vxt) = false := by
          simp [Term.pyEq, Var.pyEq, vxt, hc]
        simp [Mapping.get, this] at h
      obtain ⟨n, tag, rfl⟩ := get_const (m := [(.var vxt, ca)]) (by simp [ToConstants, ca]) h
      simp [denote, boolI, hn], by
      intro n hn
      have : n ≠ s%"x" := fun e => hn ⟨vxt, ca, by simp, e ▸ rfl⟩
      simp [this]⟩
  simp [holds, boolI, denote, vx] at this

/-- What holds: when no quantifier binds a mapped variable, occurrences of mapped
variables carry the tags of the keys (`Safe`) and the operands of numeric
operators stay different (`NoCollision`), instantiation is substitution. -/
theorem C11_partial {D : Type} (I : Interp D) (m : Mapping) (f g : Expr) (ρ ρ' : Str → D)
    (hm : ToConstants m) (hb : Built f) (hw : WellSorted f) (h : f.inst m = .ok g)
    (hu : Updated I m ρ ρ') (hs : Safe m f []) (hc : NoCollision m f) :
    holds I g ρ ↔ holds I f ρ' :=
  inst_holds hm hw hb.good hc h hs
    ⟨by simp, fun v t _ h => hu.mapped v t h, fun n _ h => hu.other n h⟩

/-- (forall (?y) (and (p ?x) (not (p ?y)))) with ?x = a. -/
def demoForm : Expr :=
  .quant .all [vy] (.bin .and [.pred ⟨s%"p", [.var vx]⟩, .not (.pred ⟨s%"p", [.var vy]⟩)])
def demoMap : Mapping := [(.var vx, ca)]

example : Built demoForm ∧ WellSorted demoForm ∧ ToConstants demoMap ∧ Safe demoMap demoForm [] ∧
    NoCollision demoMap demoForm ∧ demoForm.inst demoMap =
      .ok (.quant .all [vy] (.bin .and [.pred ⟨s%"p", [ca]⟩, .not (.pred ⟨s%"p", [.var vy]⟩)])) := by
  refine ⟨?_, by simp [demoForm, WellSorted, WellSorteds], by simp [ToConstants, demoMap, ca], ?_,
    by simp [demoForm, NoCollision, NoCollisions], by decide +kernel⟩
  · have e : demoForm = mkQuant .all (construct (.bop .and)
      [.pred ⟨s%"p", [.var vx]⟩, .not (.pred ⟨s%"p", [.var vy]⟩)]) [vy] := by decide +kernel
    rw [e]
    refine .quant _ _ (.op _ ?_)
    intro a ha
    simp at ha
    rcases ha with rfl | rfl
    · exact built_p _
    · exact .not (built_p _)
  · simp only [demoForm, Safe, SafeAll, SafeTerm, List.nil_append, List.map, List.mem_singleton,
      forall_eq, and_true]
    refine ⟨⟨by decide +kernel, fun _ _ => by decide +kernel⟩, ⟨fun _ => by decide +kernel, ?_⟩⟩
    exact fun h => (h trivial).elim

/-! ### C12 -/

/-- The atoms of the result are those of the formula with each mapped variable
replaced; no mapped variable is left (the mapping having constants as values). -/
theorem C12_instantiate_terms (m : Mapping) (f g : Expr) (hm : ToConstants m) (h : f.inst m = .ok g) :
    (∀ x ∈ atoms g, ∀ v, Term.var v ∈ x.2 → ∀ p ∈ m, (Term.var v).pyEq p.1 = false) ∧
    (∀ x ∈ atoms g, ∃ y ∈ atoms f, x = (y.1, y.2.map (substTerm m))) ∧
    (∀ y ∈ atoms f, ∃ x ∈ atoms g, x.1 = y.1 ∧ termsEq x.2 (y.2.map (substTerm m)) = true) := by
  obtain ⟨h1, h2⟩ := inst_atoms h
  refine ⟨?_, h1, ?_⟩
  · intro x hx v hv p hp
    obtain ⟨y, hy, rfl⟩ := h1 x hx
    obtain ⟨t, ht, e⟩ := List.mem_map.mp hv
    cases t with
    | const n tag => simp [substTerm] at e
    | var w =>
      simp only [substTerm] at e
      cases hg : m.get (.var w) with
      | some u =>
        obtain ⟨n, tag, rfl⟩ := get_const hm hg
        simp [hg] at e
      | none =>
        simp [hg] at e
        subst e
        unfold Mapping.get at hg
        split at hg
        · simp at hg
        · next hf =>
          have := List.find?_eq_none.mp hf p hp
          simpa using this
  · intro y hy
    obtain ⟨x, hx, e⟩ := h2 y hy
    simp only [natom, Prod.mk.injEq] at e
    exact ⟨x, hx, e.1, termsEq_iff.mpr e.2⟩

example : ∃ g, ToConstants demoMap ∧ demoForm.inst demoMap = .ok g ∧ atoms g ≠ atoms demoForm :=
  ⟨_, by simp [ToConstants, demoMap, ca], rfl, by decide +kernel⟩

/-! ### C13 -/

/-- No key of `m1` is a key of `m2`. -/
def DisjointKeys (m1 m2 : Mapping) : Prop := ∀ p ∈ m1, ∀ q ∈ m2, p.1.pyEq q.1 = false

/-- The full statement: one-shot and two-stage instantiation behave alike. -/
def C13_full : Prop :=
  ∀ (m1 m2 : Mapping) (f : Expr), ToConstants m1 → ToConstants m2 → DisjointKeys m1 m2 →
    Built f → WellSorted f → (f.inst m1 >>= fun g => g.inst m2) = f.inst (m1 ++ m2)

/-- It is false: the first stage may raise `ValueError` where the one-shot
instantiation succeeds, because an intermediate atom may hold a constant and a
variable of the same name and different types. -/
theorem C13_fails : ¬ C13_full := by
  intro h
  have := h [(.var vy, .const s%"x" none)] [(.var vxt, cc)] (.pred ⟨s%"p", [.var vxt, .var vy]⟩)
    (by simp [ToConstants]) (by simp [ToConstants, cc])
    (by simp [DisjointKeys]; decide +kernel)
    (.pred (n := s%"p") (ts := [.var vxt, .var vy]) (by decide +kernel)) (by simp [WellSorted])
  revert this
  decide +kernel

/-- The converse also happens: both stages succeed and the one-shot instantiation
raises, because `And` drops one of two atoms that become `==`. -/
theorem C13_fails_other :
    let vz : Var := ⟨s%"z", []⟩
    let m1 : Mapping := [(.var vx, .const s%"c" (some s%"t1")), (.var vz, .const s%"c" (some s%"t2"))]
    let m2 : Mapping := [(.var vy, .const s%"c" (some s%"t1"))]
    let f : Expr := .bin .and [.pred ⟨s%"p", [.var vx, .var vy]⟩, .pred ⟨s%"p", [.var vz, .var vy]⟩]
    (∃ g, (f.inst m1 >>= fun g => g.inst m2) = .ok g) ∧ f.inst (m1 ++ m2) = .error .value := by
  exact ⟨⟨_, rfl⟩, rfl⟩

theorem get_append (m1 m2 : Mapping) (t : Term) : (m1 ++ m2).get t = (m1.get t).or (m2.get t) := by
  unfold Mapping.get
  rw [List.find?_append]
  cases List.find? (fun p => t.pyEq p.1) m1 <;> simp

/-- When the first stage and the one-shot instantiation both succeed, the second
stage succeeds and the results are the same. (With disjoint keys `m1 ++ m2` is the
union; otherwise it is the union with `m1` winning.) -/
theorem C13_partial (m1 m2 : Mapping) (f g1 g : Expr) (hc : ToConstants m1) (hb : Built f)
    (hw : WellSorted f) (h1 : f.inst m1 = .ok g1) (h : f.inst (m1 ++ m2) = .ok g) :
    g1.inst m2 = .ok g :=
  inst_comp hc (fun v => get_append m1 m2 (.var v)) hb.good hw h1 h

/-- When every name has one set of types `τ` throughout the formula and the values
of the mappings, two stages and one shot are the same, and nothing is raised. -/
theorem C13_partial_typed (m1 m2 : Mapping) (f : Expr) (τ : Str → List Str) (hc : ToConstants m1)
    (hb : Built f) (hw : WellSorted f) (hn : NoEffect f)
    (h1 : ∀ p ∈ m1, Conforms τ p.2) (h2 : ∀ p ∈ m2, Conforms τ p.2)
    (hf : ∀ x ∈ atoms f, ∀ t ∈ x.2, Conforms τ t) :
    ∃ g, f.inst (m1 ++ m2) = .ok g ∧ (f.inst m1 >>= fun g => g.inst m2) = .ok g := by
  obtain ⟨g1, e1⟩ := inst_ok_of_conforms h1 hb.good hn hf
  obtain ⟨g, e⟩ := inst_ok_of_conforms (m := m1 ++ m2) (fun p hp => by
    rcases List.mem_append.mp hp with hp | hp
    · exact h1 p hp
    · exact h2 p hp) hb.good hn hf
  exact ⟨g, e, by rw [e1]; exact C13_partial m1 m2 f g1 g hc hb hw e1 e⟩

example : demoForm.inst demoMap ≠ .ok demoForm ∧
    (demoForm.inst demoMap >>= fun g => g.inst [(.var vy, cc)]) =
      demoForm.inst (demoMap ++ [(.var vy, cc)]) := by decide +kernel

/-! ### C14 -/

/-- The full statement. -/
def C14_full : Prop := ∀ f, Built f → ∃ g, f.inst [] = .ok g ∧ g.pyEq f = true

/-- It is false: conditional and universal effects have no `instantiate` method. -/
theorem C14_fails : ¬ C14_full := by
  intro h
  obtain ⟨g, hg, _⟩ := h (.when (.pred ⟨s%"p", [ca]⟩) (.pred ⟨s%"p", [cc]⟩)) (.when (built_p _) (built_p _))
  rw [inst_when] at hg; simp at hg

/-- Without such effects the empty instantiation returns the formula itself. -/
theorem C14_partial (f : Expr) (hb : Built f) (hn : NoEffect f) : f.inst [] = .ok f :=
  inst_nil hb.good hn

/-- With such an effect anywhere inside, no instantiation returns. -/
theorem C14_effects_raise (m : Mapping) (f g : Expr) (h : ¬ NoEffect f) : f.inst m ≠ .ok g :=
  inst_effect h g

example : Built demoForm.not ∧ NoEffect demoForm.not := by
  refine ⟨.not ?_, by simp [demoForm, NoEffect, NoEffects]⟩
  have e : demoForm = mkQuant .all (construct (.bop .and)
    [.pred ⟨s%"p", [.var vx]⟩, .not (.pred ⟨s%"p", [.var vy]⟩)]) [vy] := by decide +kernel
  rw [e]
  refine .quant _ _ (.op _ ?_)
  intro a ha
  simp at ha
  rcases ha with rfl | rfl
  · exact built_p _
  · exact .not (built_p _)

/-! ### C15 -/

theorem get_set (m : Mapping) (k v t : Term) :
    (m.set k v).get t = if t.pyEq k = true then some v else m.get t := by
  unfold Mapping.set
  split
  · next ha =>
    induction m with
    | nil => simp at ha
    | cons p m ih =>
      unfold Mapping.get at ih ⊢
      simp only [List.map_cons, List.find?_cons]
      by_cases hk : k.pyEq p.1 = true
      · simp only [hk, if_true]
        by_cases ht : t.pyEq k = true
        · have : t.pyEq p.1 = true := by rw [Term.pyEq_iff] at *; exact ht.trans hk
          simp [this, ht]
        · have : t.pyEq p.1 = false := by
            by_contra hc
            apply ht
            rw [Bool.not_eq_false] at hc
            rw [Term.pyEq_iff] at *; exact hc.trans hk.symm
          simp only [this, ht]
          have hgen : ∀ l : Mapping, List.find? (fun p => t.pyEq p.1)
              (l.map (fun p => if k.pyEq p.1 then (p.1, v) else p)) =
              List.find? (fun p => t.pyEq p.1) l := by
            intro l
            induction l with
            | nil => rfl
            | cons q l ih =>
              simp only [List.map_cons, List.find?_cons]
              by_cases hq : k.pyEq q.1 = true
              · have : t.pyEq q.1 = false := by
                  by_contra hc
                  apply ht
                  rw [Bool.not_eq_false] at hc
                  rw [Term.pyEq_iff] at *; exact hc.trans hq.symm
                simp [hq, this, ih]
              · rw [if_neg hq]
                cases t.pyEq q.1 <;> simp [ih]
          rw [hgen]; simp
      · have ha' : m.any (fun p => k.pyEq p.1) = true := by
          simpa [hk] using ha
        simp only [hk]
        by_cases ht : t.pyEq p.1 = true
        · have : t.pyEq k ≠ true := by
            intro hc
            apply hk
            rw [Term.pyEq_iff] at *; exact hc.symm.trans ht
          simp [ht, this]
        · simp only [Bool.not_eq_true] at ht
          simp [ht]
          simpa using ih ha'
  · next ha =>
    rw [get_append]
    by_cases ht : t.pyEq k = true
    · have : m.get t = none := by
        unfold Mapping.get
        have : List.find? (fun p => t.pyEq p.1) m = none := by
          rw [List.find?_eq_none]
          intro p hp hc
          apply ha
          rw [List.any_eq_true]
          refine ⟨p, hp, ?_⟩
          simp only [Term.pyEq_iff] at *
          exact ht.symm.trans hc
        rw [this]
      rw [this]; simp [ht, Mapping.get]
    · simp [ht, Mapping.get]

/-- The dictionary that `Action.instantiate` builds maps a variable to the argument
of the last parameter that is `==` to it. -/
theorem get_ofZip (ps args : List Term) (t : Term) :
    (Mapping.ofZip ps args).get t =
      ((ps.zip args).reverse.find? (fun p => t.pyEq p.1)).map Prod.snd := by
  unfold Mapping.ofZip
  have : ∀ (l : List (Term × Term)) (m : Mapping),
      (l.foldl (fun m p => m.set p.1 p.2) m).get t =
        ((l.reverse.find? (fun p => t.pyEq p.1)).map Prod.snd).or (m.get t) := by
    intro l
    induction l with
    | nil => simp
    | cons p l ih =>
      intro m
      rw [List.foldl_cons, ih, get_set]
      simp only [List.reverse_cons, List.find?_append, List.find?_cons, List.find?_nil]
      cases List.find? (fun p => t.pyEq p.1) l.reverse <;> cases t.pyEq p.1 <;> simp
  rw [this]
  simp [Mapping.get]

/-- Instantiating an optional formula. -/
def InstOpt (m : Mapping) : Option Expr → Option Expr → Prop
  | none, none => True
  | some a, some b => a.inst m = .ok b
  | _, _ => False

theorem instOpt_iff (m : Mapping) (a b : Option Expr) : instOpt m a = .ok b ↔ InstOpt m a b := by
  cases a <;> cases b <;> simp [instOpt, InstOpt, bind_ok_iff]

theorem inst_errors (m : Mapping) (f : Expr) (x : Exc) (g : f.Good) (h : f.inst m = .error x) :
    x = .value ∨ x = .attribute := by
  have hl : ∀ as : List Expr, (∀ a ∈ as, ∀ x, a.inst m = .error x → x = .value ∨ x = .attribute) →
      ∀ x, Expr.insts m as = .error x → x = .value ∨ x = .attribute := by
    intro as ih
    induction as with
    | nil => intro x h; simp [Expr.insts] at h
    | cons a as ihl =>
      intro x h
      rw [Expr.insts] at h
      cases h1 : a.inst m with
      | error y =>
        rw [h1] at h
        simp at h; subst h
        exact ih a (by simp) _ h1
      | ok b =>
        rw [h1] at h
        simp only [ok_bind] at h
        cases h2 : Expr.insts m as with
        | error y =>
          rw [h2] at h
          simp at h; subst h
          exact ihl (fun a ha => ih a (List.mem_cons_of_mem _ ha)) _ h2
        | ok bs => rw [h2] at h; simp at h
  induction f using Expr.ind generalizing x with
  | hpred p =>
    rw [Expr.inst] at h
    cases h1 : p.inst m with
    | ok b => rw [h1] at h; simp at h
    | error y =>
      rw [h1] at h; simp at h; subst h
      unfold Pred.inst mkPred at h1
      rw [g.1] at h1
      revert h1
      cases termsConsistent [] (p.terms.map (Term.inst m)) <;> simp
      exact fun h => Or.inl h.symm
  | heq l r =>
    rw [Expr.inst] at h
    unfold mkEq at h
    revert h
    cases termsConsistent [] [l.inst m, r.inst m] <;> simp
    exact fun h => Or.inl h.symm
  | hnfun f =>
    rw [Expr.inst] at h
    cases h1 : f.inst m with
    | ok b => rw [h1] at h; simp at h
    | error y =>
      rw [h1] at h; simp at h; subst h
      unfold NFun.inst mkNFun at h1
      have g' : parseFunction f.name = .ok f.name := g
      rw [g'] at h1
      simp at h1
  | hnum n => rw [Expr.inst] at h; simp at h
  | hbfun o as ih =>
    rw [Expr.inst] at h
    cases h1 : Expr.insts m as with
    | ok b => rw [h1] at h; simp at h
    | error y => rw [h1] at h; simp at h; subst h; exact hl as (fun a ha x => ih a ha x (goods_iff.mp g.2 a ha)) _ h1
  | hbin o as ih =>
    rw [Expr.inst] at h
    cases h1 : Expr.insts m as with
    | ok b => rw [h1] at h; simp at h
    | error y => rw [h1] at h; simp at h; subst h; exact hl as (fun a ha x => ih a ha x (goods_iff.mp g.2 a ha)) _ h1
  | hnot a ih =>
    rw [Expr.inst] at h
    cases h1 : a.inst m with
    | ok b => rw [h1] at h; simp at h
    | error y => rw [h1] at h; simp at h; subst h; exact ih _ g h1
  | hquant q vs c ih =>
    rw [Expr.inst] at h
    cases h1 : c.inst m with
    | ok b => rw [h1] at h; simp at h
    | error y => rw [h1] at h; simp at h; subst h; exact ih _ g.2 h1
  | hwhen => rw [inst_when] at h; simp at h; exact Or.inr h.symm
  | hfall => rw [inst_fall] at h; simp at h; exact Or.inr h.symm

/-- A wrong number of arguments raises `ValueError`. -/
theorem C15_arity (a : Action) (args : List Term) (h : args.length ≠ a.params.length) :
    a.inst args = .error .value := by simp [Action.inst, h]

/-- `Action.instantiate` returns `b` iff the numbers agree, the name is valid, `b` has
the same name and the arguments as parameters, and its parts are the instantiated ones. -/
theorem C15_result (a b : Action) (args : List Term) (hn : parseName a.name = .ok a.name) :
    a.inst args = .ok b ↔
      args.length = a.params.length ∧ b.name = a.name ∧ b.params = args ∧
      InstOpt (Mapping.ofZip a.params args) a.pre b.pre ∧
      InstOpt (Mapping.ofZip a.params args) a.eff b.eff := by
  unfold Action.inst
  split
  · next h => simp [h]
  · next h =>
    simp only [bind_ok_iff, instOpt_iff, mkAction, hn, ok_bind, pure_ok, Except.ok.injEq]
    constructor
    · rintro ⟨pre, h1, eff, h2, rfl⟩
      exact ⟨by simpa using h, rfl, rfl, h1, h2⟩
    · rintro ⟨_, h1, h2, h3, h4⟩
      refine ⟨_, h3, _, h4, ?_⟩
      cases b; simp_all

/-- The mapping used: a variable is mapped to the argument given for the last
parameter `==` to it, other variables are not mapped. -/
theorem C15_mapping (ps args : List Term) (t : Term) :
    (Mapping.ofZip ps args).get t =
      ((ps.zip args).reverse.find? (fun p => t.pyEq p.1)).map Prod.snd := get_ofZip ps args t

/-- With a right number of arguments only two errors are possible: `ValueError` (two
terms of an atom clash after the replacement) and `AttributeError` (conditional or
universal effects). -/
theorem C15_errors (a : Action) (args : List Term) (x : Exc) (hb : BuiltAction a)
    (h : a.inst args = .error x) : x = .value ∨ x = .attribute := by
  have ho : ∀ (o : Option Expr) (m : Mapping) x, BuiltOpt o → instOpt m o = .error x →
      x = .value ∨ x = .attribute := by
    intro o m x hb h
    cases o with
    | none => simp [instOpt] at h
    | some e =>
      simp only [instOpt] at h
      cases h1 : e.inst m with
      | ok b => rw [h1] at h; simp at h
      | error y => rw [h1] at h; simp at h; subst h; exact inst_errors m e _ (Spec.Built.good hb) h1
  unfold Action.inst at h
  split at h
  · simp at h; exact Or.inl h.symm
  · simp only at h
    cases h1 : instOpt (Mapping.ofZip a.params args) a.pre with
    | error y => rw [h1] at h; simp at h; subst h; exact ho _ _ _ hb.pre h1
    | ok pre =>
      rw [h1] at h; simp only [ok_bind] at h
      cases h2 : instOpt (Mapping.ofZip a.params args) a.eff with
      | error y => rw [h2] at h; simp at h; subst h; exact ho _ _ _ hb.eff h2
      | ok eff =>
        rw [h2] at h; simp only [ok_bind] at h
        obtain ⟨n, hn⟩ := hb.name
        have hn' : parseName a.name = .ok a.name := by
          obtain ⟨e, hv⟩ := parseName_ok.mp hn
          rw [e]; exact parseName_of_valid hv
        rw [mkAction, hn'] at h; simp at h

def demoAct : Action :=
  ⟨s%"move", [.var vx, .var vy], some (.pred ⟨s%"p", [.var vx]⟩), some (.not (.pred ⟨s%"p", [.var vy]⟩))⟩

example : demoAct.inst [ca, cc] =
    .ok ⟨s%"move", [ca, cc], some (.pred ⟨s%"p", [ca]⟩), some (.not (.pred ⟨s%"p", [cc]⟩))⟩ := by
  rfl
example : demoAct.inst [ca] = .error .value := rfl

end Pddl.Props
