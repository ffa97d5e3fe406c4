/-
C120: derived predicates with positive conditions.
-/
import Verif.Spec.DerivedMore
import Verif.Proofs.DerivedSem
import Verif.Proofs.DomainReread
import Verif.Proofs.Monotone

namespace Pddl
open Spec Spec.Grammar

/-- More facts, more derived facts. -/
def Rising {D} (R : RuleSet D) : Prop := ∀ I I' : Interp D, Larger I I' → ∀ n ds, R I n ds → R I' n ds

/-- The conditions of derived predicates in a text with positive rules stay true with more facts. -/
theorem derived_rising {F : FloatOf} {σ : PState} {text : Str} {d : Domain} {σ' : PState} {ts : List Tree} (hσ : ParserState F σ)
    (h : parseDomain F σ text = .ok (d, σ')) (hts : readText text = .ok [.node ts]) (hp : PositiveRules ts) {D : Type} (ρ : Str → D) :
    Rising (Derives ρ d.derived) := by
  obtain ⟨ts', hr, h⟩ := parseDomain_ok h
  rw [hts] at hr
  simp only [Except.ok.injEq, List.cons.injEq, Tree.node.injEq, and_true] at hr
  subst hr
  obtain ⟨P⟩ := domainDef_ok h
  have hw : ∀ w, Inside (.atom (.name w)) (.node ts) → nameRegex w = true := fun w hw => readText_words hts (t := .node ts) (by simp) hw
  have h4 := constsOk_domain P hσ.constsOk
  have hp4 : ParamsOk P.σ4 := by unfold ParamsOk; rw [P.params4]; exact hσ.paramsOk
  obtain ⟨-, -, hder⟩ := structures_all P.hstruct hp4
  have htd : IsDict P.types := by
    rcases P.htypes with ⟨h, h', _⟩ | ⟨b, h, h'⟩
    · rw [h']; exact List.Pairwise.nil
    · refine (sectionTypes_written (fun w hi => hw w ?_) h').2
      exact Inside.trans (.node (.tail _ hi) .refl) (P.inside_section (t := section_ s%"types" b) (by simp [h, optText]))
  have hd : d.derived = dedupBy Derived.pyEq P.ds := congrArg Domain.derived ((mkDomain_ok (by exact htd)).1 P.hdomain).2.2.2.2.2.2.2.2
  have key : ∀ x ∈ d.derived, ∀ (I I' : Interp D) ρ, Larger I I' → holds I x.cond ρ → holds I' x.cond ρ := by
    intro x hx I I' ρ hl hh
    rw [hd] at hx
    obtain ⟨body, σ1, hb, hs, hp1, hdf⟩ := hder x (dedupBy_subset hx)
    obtain ⟨t, c, head, cond, rfl, _, h2, h3⟩ := derivedDef_ok hdf
    have hmem : section_ s%"derived" [t, c] ∈ ts := by
      obtain ⟨hd', _, e⟩ := P.sections_of
      simp only [Tree.node.injEq] at e
      rw [e]
      exact List.mem_cons_of_mem _ (List.mem_cons_of_mem _ (List.mem_append_right _ hb))
    obtain ⟨_, p, env, us, _, _, _, _, hct, _⟩ := derivedPredicate_ok h3
    have hc1 : ConstsOk σ1 := by
      unfold ConstsOk at *
      rw [hs.2.1]
      exact h4
    have hst := (gd_iff.1 h2).steady (env_plain hc1 hp1 F)
    rw [updateTags_holds I' hst ρ hct]
    exact holds_larger hl ((gd_iff.1 h2).positive (hp _ _ hmem)) ((updateTags_holds I hst ρ hct).1 hh)
  rintro I I' hl n ds ⟨x, hx, e, ρ', k1, k2, k3, k4⟩
  refine ⟨x, hx, e, ρ', k1, ?_, ?_, key x hx I I' ρ' hl k4⟩
  · rw [k2, denote_same hl.const]
  · intro v hv
    have := k3 v hv
    simpa only [InRange, hl.ty] using this

variable {D : Type} {R : RuleSet D}

/-- Every state has exactly one completion. -/
theorem least_unique (R : RuleSet D) (I : Interp D) : ∃ J, LeastClosed R I J ∧ ∀ J', LeastClosed R I J' → J' = J := by
  let J : Interp D := { I with pred := fun n ds => ∀ S : Str → List D → Prop, (∀ n ds, I.pred n ds → S n ds) →
    (∀ n ds, R { I with pred := S } n ds → S n ds) → S n ds }
  refine ⟨J, ⟨rfl, rfl, rfl, fun n ds => Iff.rfl⟩, fun J' h => ?_⟩
  obtain ⟨h1, h2, h3, h4⟩ := h
  cases J'
  simp only at h1 h2 h3 h4
  subst h1 h2 h3
  simp only [J, Interp.mk.injEq, true_and, and_true]
  funext n ds
  exact propext (h4 n ds)

/-- More facts, a larger completion. -/
theorem least_larger {I I' J J' : Interp D} (h : LeastClosed R I J) (h' : LeastClosed R I' J') (hl : Larger I I') : Larger J J' := by
  refine ⟨by rw [h'.const, h.const, hl.const], by rw [h'.ty, h.ty, hl.ty], by rw [h'.fn, h.fn, hl.fn], fun n ds hj => ?_⟩
  rw [h'.pred]
  intro S h1 h2
  rw [h.pred] at hj
  refine hj S (fun n ds hi => h1 n ds (hl.pred n ds hi)) (fun n ds hr => h2 n ds ?_)
  have : ({ I' with pred := S } : Interp D) = { I with pred := S } := by
    simp only [hl.const, hl.ty, hl.fn]
  rw [this]
  exact hr

/-- The facts of the completion are those of the state and what the rules derive from the completion. -/
theorem least_fixed (hR : Rising R) {I J : Interp D} (h : LeastClosed R I J) (n : Str) (ds : List D) :
    J.pred n ds ↔ I.pred n ds ∨ R J n ds := by
  have hJ : ∀ S : Str → List D → Prop, (∀ n ds, J.pred n ds → S n ds) → Larger J ({ I with pred := S } : Interp D) :=
    fun S hS => ⟨h.const.symm, h.ty.symm, h.fn.symm, hS⟩
  have hclosed : ∀ n ds, R J n ds → J.pred n ds := by
    intro n ds hr
    rw [h.pred]
    intro S h1 h2
    refine h2 n ds (hR J _ (hJ S fun n ds hj => ?_) n ds hr)
    exact (h.pred n ds).1 hj S h1 h2
  constructor
  · intro hj
    refine (h.pred n ds).1 hj (fun n ds => I.pred n ds ∨ R J n ds) (fun n ds => .inl) (fun n ds hr => .inr ?_)
    have hL : Larger ({ I with pred := fun n ds => I.pred n ds ∨ R J n ds } : Interp D) J := by
      refine ⟨h.const, h.ty, h.fn, ?_⟩
      rintro n ds (hi | hr)
      · exact (h.pred n ds).2 fun S h1 _ => h1 n ds hi
      · exact hclosed n ds hr
    exact hR _ J hL n ds hr
  · rintro (hi | hr)
    · exact (h.pred n ds).2 fun S h1 _ => h1 n ds hi
    · exact hclosed n ds hr

/-- For rules that more facts cannot stop, both ways to complete a state are the same. -/
theorem completed_iff (hR : Rising R) {I J : Interp D} : Completed R I J ↔ LeastClosed R I J := by
  have hto : ∀ J, LeastClosed R I J → Completed R I J := by
    intro J h
    refine ⟨h.const, h.ty, h.fn, least_fixed hR h, fun J' h1 h2 h3 h4 => ?_⟩
    refine ⟨by rw [h1, h.const], by rw [h2, h.ty], by rw [h3, h.fn], fun n ds hj => ?_⟩
    refine (h.pred n ds).1 hj J'.pred (fun n ds hi => (h4 n ds).2 (.inl hi)) (fun n ds hr => (h4 n ds).2 (.inr ?_))
    have e : ({ I with pred := J'.pred } : Interp D) = J' := by rw [← h1, ← h2, ← h3]
    rwa [e] at hr
  refine ⟨fun h => ?_, hto J⟩
  obtain ⟨K, hK, -⟩ := least_unique R I
  have hK' := hto K hK
  have h1 := h.least K hK.const hK.ty hK.fn hK'.pred
  have h2 := hK'.least J h.const h.ty h.fn h.pred
  refine ⟨h.const, h.ty, h.fn, fun n ds => ?_⟩
  rw [← hK.pred]
  exact ⟨h1.pred n ds, h2.pred n ds⟩

/-- Plans with derived predicates, from states with more facts. -/
theorem runsBy_larger {ρ : Str → D} {gs : List Action} (hg : ∀ g ∈ gs, Definite g) {I I' J : Interp D}
    (h : RunsBy (LeastClosed R) ρ gs I J) (hl : Larger I I') : ∃ J', Larger J J' ∧ RunsBy (LeastClosed R) ρ gs I' J' := by
  induction h generalizing I' with
  | nil => exact ⟨I', hl, .nil⟩
  | @cons g gs I A J K hE ha _ ih =>
    obtain ⟨A', hE', _⟩ := least_unique R I'
    have hA : Larger A A' := least_larger hE hE' hl
    have hd := hg g (by simp)
    have hsame : ∀ c, (∃ e, g.eff = some e ∧ makes A' c e ρ) ↔ ∃ e, g.eff = some e ∧ makes A c e ρ := fun c =>
      exists_congr fun e => and_congr_right fun he => makes_same hA.const hA.fn (hd.2 e he) c ρ
    let J' : Interp D := ⟨J.const, J.ty, fun n ds => (∃ e, g.eff = some e ∧ makes A (.add n ds) e ρ) ∨
      (I'.pred n ds ∧ ¬ ∃ e, g.eff = some e ∧ makes A (.del n ds) e ρ), J.fn⟩
    have hJ : Larger J J' := by
      refine ⟨rfl, rfl, rfl, fun n ds hj => ?_⟩
      rcases (ha.2.pred n ds).1 hj with h | ⟨h, h'⟩
      · exact .inl h
      · exact .inr ⟨hl.pred n ds h, h'⟩
    obtain ⟨K', hK, hr⟩ := ih (fun g hg' => hg g (List.mem_cons_of_mem _ hg')) hJ
    refine ⟨K', hK, .cons (J := J') hE' ⟨fun e he => holds_larger hA (hd.1 e he) (ha.1 e he), ?_⟩ hr⟩
    refine ⟨ha.2.const.trans hl.const.symm, ha.2.ty.trans hl.ty.symm, fun n ds => ?_, fun f ds hc => ?_, fun f ds op v hc hu => ?_⟩
    · rw [hsame, hsame]
    · rw [hl.fn]
      exact ha.2.same f ds (fun op v hc' => hc op v ((hsame _).2 hc'))
    · rw [hl.fn]
      exact ha.2.updated f ds op v ((hsame _).1 hc) (fun op' v' hc' => hu op' v' ((hsame _).2 hc'))

end Pddl
