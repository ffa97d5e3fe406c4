/-
Ground actions of plans may do what the actions of the plans may do.
-/
import Verif.Spec.GroundMay
import Verif.Proofs.GroundPlan
import Verif.Proofs.Outcome

namespace Pddl
open Spec

/-- Instances of effects that are no conjunctions are no conjunctions, and do what they do. -/
theorem leaf_outcome {m : Mapping} {D : Type} {I : Interp D} {a b : Expr} (hsh : Definite a) (hn : ∀ bs, a ≠ .bin .and bs) (hw : WellSorted a)
    (hc : NoCollision m a) (hg : a.Good) (h : a.inst m = .ok b) (hs : Safe m a []) {ρ ρ' : Str → D} (ha : AgreeB I m [] ρ ρ') :
    (∀ bs, b ≠ .bin .and bs) ∧ ∀ C, outcome I b ρ C ↔ outcome I a ρ' C := by
  have hm := fun c => inst_makes_all (c := c) hsh hw hc hg h hs ha
  cases hsh with
  | pred p =>
    obtain ⟨_, _, rfl⟩ := inst_pred_ok.mp h
    exact ⟨by simp, fun C => by simp only [outcome, hm]⟩
  | eq l r =>
    obtain ⟨_, rfl⟩ := inst_eq_ok.mp h
    exact ⟨by simp, fun C => by simp only [outcome, hm]⟩
  | not p =>
    obtain ⟨b, h1, rfl⟩ := inst_not_ok.mp h
    exact ⟨by simp, fun C => by simp only [outcome, hm]⟩
  | notEq l r =>
    obtain ⟨b, h1, rfl⟩ := inst_not_ok.mp h
    exact ⟨by simp, fun C => by simp only [outcome, hm]⟩
  | update o as =>
    obtain ⟨bs, h2, rfl⟩ := inst_bfun_ok.mp h
    have e := construct_fop_inst hg.1 hw.1 h2 (fun hm => hc.2 hm bs (insts_ok.mpr h2))
    rw [e] at hm ⊢
    exact ⟨by simp, fun C => by simp only [outcome, hm]⟩
  | and _ => exact absurd rfl (hn _)

theorem inst_outcome_all {m : Mapping} {D : Type} {I : Interp D} {a b : Expr} (hsh : Chosen a) (hw : WellSorted a)
    (hc : NoCollision m a) (hg : a.Good) (h : a.inst m = .ok b) (hs : Safe m a []) {ρ ρ' : Str → D} (ha : AgreeB I m [] ρ ρ') :
    ((∀ bs, a ≠ .bin .and bs) → ∀ bs, b ≠ .bin .and bs) ∧
    (∀ C, outcome I b ρ C → outcome I a ρ' C) ∧ (Apart m a → ∀ C, outcome I a ρ' C → outcome I b ρ C) := by
  induction hsh generalizing b with
  | leaf hd hn =>
    obtain ⟨h1, h2⟩ := leaf_outcome (I := I) hd hn hw hc hg h hs ha
    exact ⟨fun _ => h1, fun C => (h2 C).1, fun _ C => (h2 C).2⟩
  | @oneof as _ ih =>
    obtain ⟨bs, h2, rfl⟩ := inst_bin_ok.mp h
    have hs' := safeAll_iff.mp hs
    have hw' := wellSorteds_iff.1 hw
    have hc' := noCollisions_iff.1 hc
    have hg' := goods_iff.mp hg.2
    have e : construct (.bop .oneof) bs = .bin .oneof bs := by simp [construct, Cls.isMeta, Expr.ofCls]
    rw [e]
    refine ⟨fun _ => by simp, fun C => ?_, fun hap C => ?_⟩
    · simp only [outcome, outcomeSome_iff]
      rintro ⟨b, hb, hm⟩
      obtain ⟨a, haa, e⟩ := forall2_mem h2 b hb
      exact ⟨a, haa, (ih a haa (hw' a haa) (hc' a haa) (hg' a haa) e (hs' a haa)).2.1 C hm⟩
    · simp only [outcome, outcomeSome_iff]
      rintro ⟨a, haa, hm⟩
      obtain ⟨b, hb, e⟩ := forall2_mem' h2 a haa
      cases hap with
      | leaf hd _ => cases hd
      | oneof hap => exact ⟨b, hb, (ih a haa (hw' a haa) (hc' a haa) (hg' a haa) e (hs' a haa)).2.2 (hap a haa) C hm⟩
  | @and as _ hall ih =>
    obtain ⟨bs, h2, rfl⟩ := inst_bin_ok.mp h
    have hs' := safeAll_iff.mp hs
    have hw' := wellSorteds_iff.1 hw
    have hc' := noCollisions_iff.1 hc
    have hg' := goods_iff.mp hg.2
    have hflat : ∀ b ∈ bs, ∀ cs, b ≠ .bin .and cs := by
      intro b hb
      obtain ⟨a, haa, e⟩ := forall2_mem h2 b hb
      exact (ih a haa (hw' a haa) (hc' a haa) (hg' a haa) e (hs' a haa)).1 (hall a haa)
    have hpairs : ∀ {R : Expr → Expr → Prop}, (∀ a ∈ as, ∀ b, a.inst m = .ok b → R a b) → List.Forall₂ R as bs := by
      intro R hR
      clear * - h2 hR
      induction h2 with
      | nil => exact .nil
      | cons h _ ih => exact .cons (hR _ (by simp) _ h) (ih fun a ha b hb => hR a (List.mem_cons_of_mem _ ha) b hb)
    have hall2 : ∀ {xs ys : List Expr} {ρ ρ' : Str → D}, List.Forall₂ (fun a b => ∀ A, outcome I a ρ A → outcome I b ρ' A) xs ys → ∀ C,
        outcomeAll I xs ρ C → outcomeAll I ys ρ' C := by
      intro xs ys ρ ρ' hf
      induction hf with
      | nil => intro C h; exact h
      | cons h _ ih =>
        rintro C ⟨A, B, h1, h2, h3⟩
        exact ⟨A, B, h _ h1, ih _ h2, h3⟩
    refine ⟨fun hn => absurd rfl (hn _), fun C => ?_, fun hap C => ?_⟩
    · rw [show construct (.bop .and) bs = mkAnd bs from rfl, outcome_mkAnd_eq I hflat]
      intro ho
      simp only [outcome]
      refine hall2 (List.Forall₂.flip (hpairs ?_)) C (outcomeAll_dedup I ho)
      exact fun a haa b e A => (ih a haa (hw' a haa) (hc' a haa) (hg' a haa) e (hs' a haa)).2.1 A
    · rw [show construct (.bop .and) bs = mkAnd bs from rfl, outcome_mkAnd_eq I hflat]
      intro ho
      simp only [outcome] at ho
      cases hap with
      | leaf _ hn => exact absurd rfl (hn _)
      | and hap honce =>
        refine outcomeAll_to_dedup I (honce bs h2) (hall2 (hpairs ?_) C ho)
        exact fun a haa b e A => (ih a haa (hw' a haa) (hc' a haa) (hg' a haa) e (hs' a haa)).2.2 (hap a haa) A

/-- One ground action with choices. -/
theorem inst_mayAct {D : Type} {a g : Action} {args : List Term} (hb : BuiltAction a) (hs : SafeChoice a args) (hg : a.inst args = .ok g)
    (he : a.eff ≠ none) {I J : Interp D} {ρ : Str → D} :
    (MayAct ρ g I J → ∃ ρ', args.length = a.params.length ∧ Binds I a.params args ρ ρ' ∧
      (∀ e, a.pre = some e → holds I e ρ') ∧ ∃ e C, a.eff = some e ∧ outcome I e ρ' C ∧ Next C I J) ∧
    ((∀ e, a.eff = some e → Apart (a.params.zip args) e) → (∃ ρ', args.length = a.params.length ∧ Binds I a.params args ρ ρ' ∧
      (∀ e, a.pre = some e → holds I e ρ') ∧ ∃ e C, a.eff = some e ∧ outcome I e ρ' C ∧ Next C I J) → MayAct ρ g I J) := by
  obtain ⟨vs, hvs, hnd⟩ := hs.params
  obtain ⟨n, hn⟩ := hb.name
  obtain ⟨h1, h2, h3, h4, h5⟩ := (Props.C15_result a g args (by obtain ⟨e, hv⟩ := parseName_ok.1 hn; rw [e]; exact parseName_of_valid hv)).1 hg
  have hmap : Mapping.ofZip a.params args = a.params.zip args := by rw [hvs]; exact ofZip_different hnd args
  rw [hmap] at h4 h5
  have hlen : args.length = vs.length := by rw [h1, hvs, List.length_map]
  have hconst : ToConstants (a.params.zip args) := fun p hp => hs.consts p.2 (List.of_mem_zip hp).2
  obtain ⟨x, hx⟩ : ∃ x, a.eff = some x := by cases h : a.eff with
    | none => exact absurd h he
    | some x => exact ⟨x, rfl⟩
  rw [hx] at h5
  obtain ⟨y, hy⟩ : ∃ y, g.eff = some y := by cases h : g.eff with
    | none => rw [h] at h5; exact h5.elim
    | some y => exact ⟨y, rfl⟩
  rw [hy] at h5
  have hbe := hb.eff
  rw [hx] at hbe
  have hag : ∀ ρ', Binds I a.params args ρ ρ' → AgreeB I (a.params.zip args) [] ρ ρ' := by
    intro ρ' hbd
    rw [hvs] at hbd ⊢
    exact binds_agree hlen hbd
  have hpre : ∀ ρ', Binds I a.params args ρ ρ' → ((∀ e, g.pre = some e → holds I e ρ) ↔ ∀ e, a.pre = some e → holds I e ρ') := by
    intro ρ' hbd
    cases hp : a.pre with
    | none =>
      rw [hp] at h4
      cases hq : g.pre with
      | none => simp
      | some e => rw [hq] at h4; exact h4.elim
    | some e =>
      rw [hp] at h4
      have hbe := hb.pre
      rw [hp] at hbe
      cases hq : g.pre with
      | none => rw [hq] at h4; exact h4.elim
      | some e' =>
        rw [hq] at h4
        have hi := hs.pre e hp
        simp only [Option.some.injEq, forall_eq']
        exact inst_holds hconst hi.sorted hbe.good hi.distinct h4 hi.safe (hag ρ' hbd)
  obtain ⟨hi, hd⟩ := hs.eff x hx
  have hout := fun ρ' hbd => (inst_outcome_all (I := I) hd hi.sorted hi.distinct hbe.good h5 hi.safe (hag ρ' hbd)).2
  constructor
  · rintro ⟨hp, C, hC, _, hnx⟩
    obtain ⟨ρ', hbd⟩ := binds_some I a.params args (by rw [hvs, List.map_map]; exact hnd) ρ
    exact ⟨ρ', h1, hbd, (hpre ρ' hbd).1 hp, x, C, hx, (hout ρ' hbd).1 C (hC y hy), hnx⟩
  · rintro hap ⟨ρ', _, hbd, hp, e, C, he', hC, hnx⟩
    rw [hx] at he'
    cases he'
    refine ⟨(hpre ρ' hbd).2 hp, C, fun e he => ?_, fun h => ?_, hnx⟩
    · rw [hy] at he
      cases he
      exact (hout ρ' hbd).2 (hap x hx) C hC
    · rw [hy] at h; cases h

/-- Ground actions with choices one after the other. -/
theorem inst_mayRun {D : Type} {d : Domain} {steps : List (Str × List Term)} {gs : List Action} (hb : ∀ a ∈ d.actions, BuiltAction a)
    (he : ∀ a ∈ d.actions, a.eff ≠ none) (hs : ∀ st ∈ steps, ∀ a ∈ d.actions, a.name = st.1 → SafeChoice a st.2)
    (hg : List.Forall₂ (fun s g => ∃ a, lastNamed s.1 d.actions = some a ∧ a.inst s.2 = .ok g) steps gs)
    {I J : Interp D} {ρ : Str → D} : (MayRun ρ gs I J → StepByStep (MayPerform d ρ) steps I J) ∧
    (OneActionEach d → (∀ st ∈ steps, ∀ a ∈ d.actions, a.name = st.1 → ∀ e, a.eff = some e → Apart (a.params.zip st.2) e) →
      StepByStep (MayPerform d ρ) steps I J → MayRun ρ gs I J) := by
  induction hg generalizing I with
  | nil => exact ⟨fun h => by cases h; exact .nil, fun _ _ h => by cases h; exact .nil⟩
  | cons h _ ih =>
    obtain ⟨a, ha, hg⟩ := h
    obtain ⟨hm, hn⟩ := lastNamed_mem ha
    have ih := fun {I} => @ih (fun st hst => hs st (List.mem_cons_of_mem _ hst)) I
    constructor
    · intro hr
      cases hr with
      | cons k1 k2 =>
        obtain ⟨ρ', z1, z2, z3, z4⟩ := (inst_mayAct (hb a hm) (hs _ List.mem_cons_self a hm hn) hg (he a hm)).1 k1
        exact .cons ⟨a, hm, ρ', hn, z1, z2, z3, z4⟩ (ih.1 k2)
    · intro ho hap hr
      cases hr with
      | cons k1 k2 =>
        obtain ⟨b, hb', ρ', hn', z1, z2, z3, z4⟩ := k1
        have := ho b hb' a hm (hn'.trans hn.symm)
        subst this
        exact .cons ((inst_mayAct (hb b hm) (hs _ List.mem_cons_self b hm hn) hg (he b hm)).2 (hap _ List.mem_cons_self b hm hn)
          ⟨ρ', z1, z2, z3, z4⟩) (ih.2 ho (fun st hst => hap st (List.mem_cons_of_mem _ hst)) k2)

end Pddl
