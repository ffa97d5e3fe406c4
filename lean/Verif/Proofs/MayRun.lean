/-
Executing the objects read from texts with choices is executing the texts.
-/
import Verif.Spec.MayRun
import Verif.Props.Outcome
import Verif.Proofs.Execute

namespace Pddl
open Spec Spec.Grammar

theorem mayAct_text {F : FloatOf} {σ : PState} {text : Str} {d : Domain} {σ' : PState} {a g : Action} {ts : List Tree} {n : Str} {ns : List Str}
    (hσ : ParserState F σ) (h : parseDomain F σ text = .ok (d, σ')) (hts : readText text = .ok [.node ts]) (hp : UsualActions ts)
    {us : List Tree} (hk : OperandsStay F ts us) (hu : applied n ns ∈ us) (hvalid : ∀ m ∈ ns, ValidName m)
    (ha : a ∈ d.actions) (hn : a.name = n) (hg : a.inst (ns.map (.const · none)) = .ok g)
    {D : Type} {lit : Str → Option Rat} (hlit : LitOk lit F) (ρ : Str → D) (I J : Interp D) :
    (MayAct ρ g I J → TextMayAct lit ts ρ (applied n ns) I J) ∧
      (ChoicesStay F ts us → TextMayAct lit ts ρ (applied n ns) I J → MayAct ρ g I J) ∧
      ((∀ e, g.pre = some e → holds I e ρ) ↔ TextApplies lit ts ρ (applied n ns) I) := by
  have hargs : ∀ t ∈ ns.map (Term.const · none), ∃ n tag, t = .const n tag ∧ ValidName n := by
    intro t ht
    obtain ⟨m, hm, rfl⟩ := List.mem_map.1 ht
    exact ⟨m, none, rfl, hvalid m hm⟩
  obtain ⟨ts', n', ps, pre, eff, l, hr, hin, hv, hnd, hsub, hmem, hlen, rfl, _, _, gp, _, hgp, _, hall⟩ :=
    Props.C74_operands hσ h ha hargs hg
  rw [hts] at hr
  injection hr with hr
  injection hr with hr
  injection hr with hr
  subst hr
  subst hn
  obtain ⟨ts2, n2, ps2, pre2, eff2, ge, hr2, hin2, rfl, hge, hout⟩ := Props.C102_ground_partial hσ h ha hargs hg
  rw [hts] at hr2
  injection hr2 with hr2
  injection hr2 with hr2
  injection hr2 with hr2
  subst hr2
  obtain ⟨rfl, rfl, rfl⟩ := hp.names _ _ _ _ _ _ _ hin hin2
  have hpar := sublist_members hsub (hp.params _ _ _ _ l hin hv) hmem
  have hne := hp.pre _ _ _ _ hin
  obtain ⟨hkp, hke⟩ := hk _ _ _ _ _ l hu hin hv
  rw [← hpar, ← argumentOf_consts] at hkp hke
  have hb := hp.bound _ _ _ _ l hin hv
  rw [← hpar] at hb
  have hlen' : ns.length = l.vars.length := by
    have h1 := congrArg List.length hpar
    simp only [List.length_map] at h1 hlen
    omega
  have hzip : ∀ (ρ' : Str → D), Binds I a.params (ns.map (.const · none)) ρ ρ' ↔
      (∀ q ∈ (l.vars.map Prod.fst).zip ns, ρ' q.1 = I.const q.2) ∧ ∀ m, m ∉ l.vars.map Prod.fst → ρ' m = ρ m := by
    intro ρ'
    rw [← hpar]
    constructor
    · intro hb
      refine ⟨?_, fun m hm => hb.other m (fun t ht e => hm (List.mem_map.2 ⟨t, ht, e⟩))⟩
      intro q hq
      rw [List.zip_map_left] at hq
      obtain ⟨⟨t, m⟩, hq', rfl⟩ := List.mem_map.1 hq
      refine hb.param (t, .const m none) ?_
      rw [List.zip_map_right]
      exact List.mem_map.2 ⟨(t, m), hq', rfl⟩
    · rintro ⟨h1, h2⟩
      refine ⟨?_, fun m hm => h2 m (fun hx => by obtain ⟨t, ht, e⟩ := List.mem_map.1 hx; exact hm t ht e)⟩
      intro q hq
      rw [List.zip_map_right] at hq
      obtain ⟨⟨t, m⟩, hq', rfl⟩ := List.mem_map.1 hq
      refine h1 (t.name, m) ?_
      rw [List.zip_map_left]
      exact List.mem_map.2 ⟨(t, m), hq', rfl⟩
  refine ⟨?_, ?_, ?_⟩
  · rintro ⟨h1, C, h2, _, h3⟩
    obtain ⟨ρ', hb'⟩ := Props.C74_binds I a.params (ns.map (.const · none)) hnd ρ
    obtain ⟨k1, -⟩ := hall D I lit ρ ρ' hlit hb'
    obtain ⟨z1, z2⟩ := (hzip ρ').1 hb'
    exact ⟨_, ns, ps, pre, eff, l, ρ', rfl, hin, hv, hlen', z1, z2, (k1 ⟨hne, hb, hkp⟩).1 (h1 gp hgp), C,
      (hout hke D I lit ρ ρ' C hlit hb').1 (h2 ge hge), h3⟩
  · rintro hc ⟨n', ns', ps', pre', eff', l', ρ', e, hin', hv', _, z1, z2, h1, C, h2, h3⟩
    obtain ⟨e1, e2⟩ := applied_inj (n := a.name) (ns := ns) e
    subst e1 e2
    obtain ⟨rfl, rfl, rfl⟩ := hp.names _ _ _ _ _ _ _ hin hin'
    rw [hv'.names, ← hv.names] at z1 z2
    have hb' := (hzip ρ').2 ⟨z1, z2⟩
    obtain ⟨k1, -⟩ := hall D I lit ρ ρ' hlit hb'
    have hc' := hc _ _ _ _ _ l hu hin hv
    rw [← hpar, ← argumentOf_consts] at hc'
    refine ⟨?_, C, ?_, ?_, h3⟩
    · intro x hx
      rw [hgp] at hx
      injection hx with hx
      subst hx
      exact (k1 ⟨hne, hb, hkp⟩).2 h1
    · intro x hx
      rw [hge] at hx
      injection hx with hx
      subst hx
      exact ((hout hke D I lit ρ ρ' C hlit hb').2 hc').2 h2
    · intro hx
      rw [hge] at hx
      cases hx
  · constructor
    · intro h1
      obtain ⟨ρ', hb'⟩ := Props.C74_binds I a.params (ns.map (.const · none)) hnd ρ
      obtain ⟨k1, -⟩ := hall D I lit ρ ρ' hlit hb'
      obtain ⟨z1, z2⟩ := (hzip ρ').1 hb'
      exact ⟨_, ns, ps, pre, eff, l, ρ', rfl, hin, hv, hlen', z1, z2, (k1 ⟨hne, hb, hkp⟩).1 (h1 gp hgp)⟩
    · rintro ⟨n', ns', ps', pre', eff', l', ρ', e, hin', hv', _, z1, z2, h1⟩
      obtain ⟨e1, e2⟩ := applied_inj (n := a.name) (ns := ns) e
      subst e1 e2
      obtain ⟨rfl, rfl, rfl⟩ := hp.names _ _ _ _ _ _ _ hin hin'
      rw [hv'.names, ← hv.names] at z1 z2
      have hb' := (hzip ρ').2 ⟨z1, z2⟩
      obtain ⟨k1, -⟩ := hall D I lit ρ ρ' hlit hb'
      intro x hx
      rw [hgp] at hx
      injection hx with hx
      subst hx
      exact (k1 ⟨hne, hb, hkp⟩).2 h1

theorem mayRun_text {F : FloatOf} {σ : PState} {text : Str} {d : Domain} {σ' : PState} {ts : List Tree} {plan : Plan} {us : List Tree}
    {gs : List Action} (hσ : ParserState F σ) (h : parseDomain F σ text = .ok (d, σ')) (hts : readText text = .ok [.node ts])
    (hp : UsualActions ts) (hk : OperandsStay F ts us) (hw : List.Forall₂ StepWritten us plan.steps)
    (hvalid : ∀ s ∈ plan.steps, ∀ c ∈ s.2, ValidName c.name) (hg : plan.inst d = .ok gs)
    {D : Type} {lit : Str → Option Rat} (hlit : LitOk lit F) (ρ : Str → D) (I J : Interp D) :
    (MayRun ρ gs I J → TextMayRun lit ts ρ us I J) ∧
      (ChoicesStay F ts us → TextMayRun lit ts ρ us I J → MayRun ρ gs I J) := by
  have h1 := instSteps_ok.mp hg
  clear hg
  revert h1 hw hvalid
  generalize plan.steps = l
  intro hw hvalid h1
  induction hw generalizing gs I with
  | nil =>
    cases h1
    exact ⟨fun h => by cases h; exact .nil, fun _ h => by cases h; exact .nil⟩
  | @cons u s us l hu _ ih =>
    cases h1 with
    | @cons _ g _ gs h1 h2 =>
      obtain ⟨a, ha, hi⟩ := h1
      obtain ⟨hm, hn⟩ := lastNamed_mem ha
      obtain ⟨ns, rfl, hs⟩ := hu
      rw [hs] at hi
      have key := fun J => mayAct_text hσ h hts hp hk (n := s.1) (ns := ns) List.mem_cons_self (fun m hm => hvalid s List.mem_cons_self (.const m none) (by
        rw [hs]; exact List.mem_map.2 ⟨m, hm, rfl⟩)) hm hn hi hlit ρ I J
      have hk' : OperandsStay F ts us := fun n ns ps pre eff l hu => hk n ns ps pre eff l (List.mem_cons_of_mem _ hu)
      have ih := fun J => ih (gs := gs) hk' J (fun s hs => hvalid s (List.mem_cons_of_mem _ hs))
      constructor
      · intro h
        cases h with
        | cons k1 k2 => exact .cons ((key _).1 k1) ((ih _ h2).1 k2)
      · intro hc h
        have hc' : ChoicesStay F ts us := fun n ns ps pre eff l hu => hc n ns ps pre eff l (List.mem_cons_of_mem _ hu)
        cases h with
        | cons k1 k2 => exact .cons ((key _).2.1 hc k1) ((ih _ h2).2 hc' k2)

theorem surely_text {F : FloatOf} {σ : PState} {text : Str} {d : Domain} {σ' : PState} {ts : List Tree} {plan : Plan} {us : List Tree}
    {gs : List Action} (hσ : ParserState F σ) (h : parseDomain F σ text = .ok (d, σ')) (hts : readText text = .ok [.node ts])
    (hp : UsualActions ts) (hk : OperandsStay F ts us) (hw : List.Forall₂ StepWritten us plan.steps)
    (hvalid : ∀ s ∈ plan.steps, ∀ c ∈ s.2, ValidName c.name) (hg : plan.inst d = .ok gs)
    {D : Type} {lit : Str → Option Rat} (hlit : LitOk lit F) (ρ : Str → D) {P Q : Interp D → Prop} (hPQ : ∀ J, P J ↔ Q J)
    (I : Interp D) :
    (TextSurely lit ts ρ Q us I → Surely ρ P gs I) ∧
      (ChoicesStay F ts us → Surely ρ P gs I → TextSurely lit ts ρ Q us I) := by
  have h1 := instSteps_ok.mp hg
  clear hg
  revert h1 hw hvalid
  generalize plan.steps = l
  intro hw hvalid h1
  induction hw generalizing gs I with
  | nil =>
    cases h1
    exact ⟨(hPQ I).2, fun _ => (hPQ I).1⟩
  | @cons u s us l hu _ ih =>
    cases h1 with
    | @cons _ g _ gs h1 h2 =>
      obtain ⟨a, ha, hi⟩ := h1
      obtain ⟨hm, hn⟩ := lastNamed_mem ha
      obtain ⟨ns, rfl, hs⟩ := hu
      rw [hs] at hi
      have key := fun J => mayAct_text hσ h hts hp hk (n := s.1) (ns := ns) List.mem_cons_self (fun m hm => hvalid s List.mem_cons_self (.const m none) (by
        rw [hs]; exact List.mem_map.2 ⟨m, hm, rfl⟩)) hm hn hi hlit ρ I J
      have hk' : OperandsStay F ts us := fun n ns ps pre eff l hu => hk n ns ps pre eff l (List.mem_cons_of_mem _ hu)
      have ih := fun J => ih (gs := gs) hk' J (fun s hs => hvalid s (List.mem_cons_of_mem _ hs)) h2
      constructor
      · rintro ⟨k1, k2⟩
        exact ⟨(key I).2.2.2 k1, fun J hJ => (ih J).1 (k2 J ((key J).1 hJ))⟩
      · rintro hc ⟨k1, k2⟩
        have hc' : ChoicesStay F ts us := fun n ns ps pre eff l hu => hc n ns ps pre eff l (List.mem_cons_of_mem _ hu)
        exact ⟨(key I).2.2.1 k1, fun J hJ => (ih J).2 hc' (k2 J ((key J).2.1 hc hJ))⟩

end Pddl
