/-
C66, further: what the instances of derived predicates say, for every mapping; and what a derived predicate derives, in terms of
its ground instances.
-/
import Verif.Props.Instance
import Verif.Props.ProblemArgs
import Verif.Props.GroundPlan

namespace Pddl.Props
open Spec Spec.Grammar

/-- C66, exactly. Whatever the derived predicate and whatever terms the variables are mapped to: the instance is true exactly if
head and condition, with each mapped variable replaced in every atom, hold of the same objects. -/
theorem C66_exact {D : Type} (I : Interp D) (m : Mapping) (d e : Derived) (hb : Built d.cond) (hw : WellSorted d.cond)
    (h : d.inst m = .ok e) :
    TrueRule I e ↔ ∀ ρ : Str → D, I.pred d.pred.name (d.pred.terms.map (denoteWith I m ρ)) ↔ holdsWith I m d.cond ρ := by
  obtain ⟨h1, h2⟩ := (C66_result m d e).1 h
  obtain ⟨_, _, h3⟩ := inst_pred_ok.1 h1
  injection h3 with h3
  unfold TrueRule
  refine forall_congr' fun ρ => ?_
  rw [C11_exact I m d.cond e.cond ρ hb hw h2, h3]
  simp only [holds, List.map_map]
  rfl

/-- The variables get the terms beside them. -/
theorem zip_terms {vs : List Var} (hn : (vs.map Var.name).Nodup) {args : List Term} (hl : args.length = vs.length) :
    (vs.map Term.var).map (substTerm ((vs.map Term.var).zip args)) = args := by
  induction vs generalizing args with
  | nil =>
    rw [List.length_nil, List.length_eq_zero_iff] at hl
    simp [hl]
  | cons v vs ih =>
    cases args with
    | nil => simp at hl
    | cons t ts =>
      rw [List.map_cons, List.nodup_cons] at hn
      have hrest : (vs.map Term.var).map (substTerm (((v :: vs).map Term.var).zip (t :: ts))) =
          (vs.map Term.var).map (substTerm ((vs.map Term.var).zip ts)) := by
        refine List.map_congr_left fun x hx => ?_
        obtain ⟨w, hw, rfl⟩ := List.mem_map.1 hx
        have hne : (Term.var w).pyEq (.var v) = false := by
          by_contra hc
          rw [Bool.not_eq_false, Term.pyEq_iff] at hc
          simp [Term.norm] at hc
          exact hn.1 (List.mem_map.2 ⟨w, hw, congrArg Prod.fst hc⟩)
        simp [substTerm, Mapping.get, List.find?_cons, hne]
      have hfirst : substTerm (((v :: vs).map Term.var).zip (t :: ts)) (.var v) = t := by
        have he : (Term.var v).pyEq (.var v) = true := by rw [Term.pyEq_iff]
        simp [substTerm, Mapping.get, List.find?_cons, he]
      change substTerm (((v :: vs).map Term.var).zip (t :: ts)) (.var v) ::
        (vs.map Term.var).map (substTerm (((v :: vs).map Term.var).zip (t :: ts))) = _
      rw [hfirst, hrest, ih hn.2 (by simpa using hl)]

/-- What a derived predicate derives, in terms of its ground instances: for different variables in the head, a condition that can be
instantiated, and constants of the types of the variables, the instance has the head of these constants, its condition says of
them what the condition says, and it is true exactly if the head is derived. -/
theorem C66_ground_partial {D : Type} (I : Interp D) (ρ : Str → D) {x y : Derived} {vs : List Var} {args : List Term} (hb : Built x.cond)
    (hv : x.pred.terms = vs.map Term.var) (hn : (vs.map Var.name).Nodup) (hl : args.length = vs.length)
    (hc : ∀ t ∈ args, ∃ n tag, t = .const n tag) (hs : SafeFormula x.pred.terms args x.cond)
    (h : x.inst (x.pred.terms.zip args) = .ok y) :
    y.pred = ⟨x.pred.name, args⟩ ∧
    (holds I y.cond ρ ↔ ∃ ρ', Binds I x.pred.terms args ρ ρ' ∧ holds I x.cond ρ') ∧
    ((∀ q ∈ vs.zip args, InRange I q.1 (denote I ρ q.2)) →
      (Derives ρ [x] I x.pred.name (args.map (denote I ρ)) ↔ holds I y.cond ρ)) := by
  obtain ⟨h1, h2⟩ := (C66_result _ x y).1 h
  have h3 := (inst_pred_ok.1 h1).2.2
  injection h3 with h3
  have hconst : ToConstants (x.pred.terms.zip args) := fun p hp => hc p.2 (List.of_mem_zip hp).2
  have hcond : holds I y.cond ρ ↔ ∃ ρ', Binds I x.pred.terms args ρ ρ' ∧ holds I x.cond ρ' := by
    have key : ∀ ρ', Binds I x.pred.terms args ρ ρ' → (holds I y.cond ρ ↔ holds I x.cond ρ') := by
      intro ρ' hbd
      refine inst_holds hconst hs.sorted hb.good hs.distinct h2 hs.safe ?_
      rw [hv] at hbd ⊢
      exact binds_agree hl hbd
    constructor
    · intro hh
      obtain ⟨ρ', hbd⟩ := binds_some I x.pred.terms args (by rw [hv, List.map_map]; exact hn) ρ
      exact ⟨ρ', hbd, (key ρ' hbd).1 hh⟩
    · rintro ⟨ρ', hbd, hh⟩
      exact (key ρ' hbd).2 hh
  refine ⟨by rw [h3, hv, zip_terms hn hl], hcond, fun hr => ?_⟩
  rw [hcond]
  constructor
  · rintro ⟨z, hz, -, ρ', k1, k2, -, k4⟩
    rw [List.mem_singleton.1 hz] at k1 k2 k4
    refine ⟨ρ', ⟨?_, ?_⟩, k4⟩
    · intro p hp
      rw [hv] at hp k2
      rw [List.map_map] at k2
      clear k1 k4 hr hcond hconst h3 h1 h2 h hs hc
      clear hv hz
      induction vs generalizing args with
      | nil => simp at hp
      | cons v vs ih =>
        cases args with
        | nil => simp at hl
        | cons t ts =>
          rw [List.map_cons, List.map_cons] at k2
          injection k2 with e1 e2
          rw [List.map_cons, List.zip_cons_cons, List.mem_cons] at hp
          rcases hp with rfl | hp
          · exact e1.symm
          · exact ih (List.nodup_cons.1 hn).2 (by simpa using hl) e2 hp
    · intro n hne
      refine k1 n fun hc => ?_
      obtain ⟨t, ht, rfl⟩ := List.mem_map.1 hc
      exact hne t ht rfl
  · rintro ⟨ρ', hbd, hh⟩
    have hval : ∀ q ∈ vs.zip args, ρ' q.1.name = denote I ρ q.2 := by
      intro q hq
      refine hbd.param (.var q.1, q.2) ?_
      rw [hv, List.zip_map_left]
      exact List.mem_map.2 ⟨q, hq, rfl⟩
    refine ⟨x, List.mem_singleton.2 rfl, rfl, ρ', ?_, ?_, ?_, hh⟩
    · intro m hm
      exact hbd.other m fun t ht e => hm (List.mem_map.2 ⟨t, ht, e⟩)
    · rw [hv, List.map_map]
      clear hr hcond hconst h3 h1 h2 h hs hc hv hbd hn
      induction vs generalizing args with
      | nil => rw [List.length_nil, List.length_eq_zero_iff] at hl; simp [hl]
      | cons v vs ih =>
        cases args with
        | nil => simp at hl
        | cons t ts =>
          rw [List.map_cons, List.map_cons, ih (by simpa using hl) (fun q hq => hval q (by simp [hq]))]
          congr 1
          exact (hval (v, t) (by simp)).symm
    · intro v hvm
      rw [hv] at hvm
      obtain ⟨w, hw, e⟩ := List.mem_map.1 hvm
      injection e with e
      subst e
      obtain ⟨i, hi, e⟩ := List.mem_iff_getElem.1 hw
      have hmem : (w, args[i]'(by omega)) ∈ vs.zip args := by
        rw [List.mem_iff_getElem]
        exact ⟨i, by simp; omega, by simp [e]⟩
      rw [hval _ hmem]
      exact hr _ hmem

/-- `(p ?x)` if `(and (q ?x) (forall (?y) (q ?y)))`, for `a`. -/
example : Built demoRule.cond ∧ demoRule.pred.terms = [vx].map Term.var ∧ SafeFormula demoRule.pred.terms [ca] demoRule.cond ∧
    demoRule.inst (demoRule.pred.terms.zip [ca]) =
      .ok ⟨⟨s%"p", [ca]⟩, .bin .and [.pred ⟨s%"q", [ca]⟩, .quant .all [vy] (.pred ⟨s%"q", [.var vy]⟩)]⟩ ∧
    ∀ (D : Type) (I : Interp D) (ρ : Str → D), Derives ρ [demoRule] I s%"p" [I.const s%"a"] ↔
      I.pred s%"q" [I.const s%"a"] ∧ ∀ d, I.pred s%"q" [d] := by
  have hq : ∀ v ∈ [vx, vy], Built (.pred ⟨s%"q", [.var v]⟩) := by
    intro v hv
    refine .pred (n := s%"q") (ts := [.var v]) ?_
    revert v
    decide +kernel
  have h1 : Built (.quant .all [vy] (.pred ⟨s%"q", [.var vy]⟩)) := by
    have h := Built.quant .all [vy] (hq vy (by simp))
    rwa [mkQuant, show dedupBy Var.pyEq [vy] = [vy] by decide +kernel] at h
  have hb : Built demoRule.cond := by
    have h : construct (.bop .and) [.pred ⟨s%"q", [.var vx]⟩, .quant .all [vy] (.pred ⟨s%"q", [.var vy]⟩)] = demoRule.cond := by
      decide +kernel
    rw [← h]
    refine .op (.bop .and) ?_
    simp only [List.forall_mem_cons, List.not_mem_nil, false_imp_iff, implies_true, and_true]
    exact ⟨hq vx (by simp), h1⟩
  have hs : SafeFormula demoRule.pred.terms [ca] demoRule.cond := by
    refine ⟨by simp [demoRule, WellSorted, WellSorteds], ?_, by simp [demoRule, NoCollision, NoCollisions]⟩
    simp [Safe, SafeAll, demoRule, SafeTerm, Mapping.get, Term.pyEq, Var.pyEq, vx, vy, MapsName]
    decide
  have hi : demoRule.inst (demoRule.pred.terms.zip [ca]) =
      .ok ⟨⟨s%"p", [ca]⟩, .bin .and [.pred ⟨s%"q", [ca]⟩, .quant .all [vy] (.pred ⟨s%"q", [.var vy]⟩)]⟩ := by decide +kernel
  refine ⟨hb, rfl, hs, hi, fun D I ρ => ?_⟩
  have key := (C66_ground_partial I ρ hb (vs := [vx]) (args := [ca]) rfl (by simp) rfl (by simp [ca]) hs hi).2.2
    (by simp [InRange, vx])
  refine key.trans ⟨?_, ?_⟩
  · rintro ⟨k1, k2, -⟩
    refine ⟨k1, fun d => ?_⟩
    have := k2 (fun n => if n = s%"y" then d else ρ n) ⟨?_, ?_⟩
    · simpa [holds, denote, vy] using this
    · intro n hn
      exact if_neg fun e => hn vy (by simp) e.symm
    · simp [InRange, vy]
  · rintro ⟨k1, k2⟩
    exact ⟨k1, fun ρ' _ => k2 _, trivial⟩

end Pddl.Props
