/-
C121: easier actions and more rules.
-/
import Verif.Spec.EasierDerived
import Verif.Proofs.DerivedMore
import Verif.Proofs.Easier

namespace Pddl
open Spec Spec.Grammar

variable {D : Type} {R R' : RuleSet D}

/-- More rules and more facts, a larger completion. -/
theorem least_wider (hR : ∀ I n ds, R I n ds → R' I n ds) {I I' J J' : Interp D} (h : LeastClosed R I J) (h' : LeastClosed R' I' J')
    (hl : Larger I I') : Larger J J' := by
  refine ⟨by rw [h'.const, h.const, hl.const], by rw [h'.ty, h.ty, hl.ty], by rw [h'.fn, h.fn, hl.fn], fun n ds hj => ?_⟩
  rw [h'.pred]
  intro S h1 h2
  rw [h.pred] at hj
  refine hj S (fun n ds hi => h1 n ds (hl.pred n ds hi)) (fun n ds hr => h2 n ds ?_)
  have : ({ I' with pred := S } : Interp D) = { I with pred := S } := by
    simp only [hl.const, hl.ty, hl.fn]
  rw [this]
  exact hR _ _ _ hr

/-- Plans with easier actions and more rules. -/
theorem relaxed_runsBy (hW : ∀ I n ds, R I n ds → R' I n ds) {ρ : Str → D} {gs gs' : List Action} (hR : List.Forall₂ Relaxes gs gs')
    (hg : ∀ g ∈ gs', Definite g) {I I' J : Interp D} (h : RunsBy (LeastClosed R) ρ gs I J) (hl : Larger I I') :
    ∃ J', Larger J J' ∧ RunsBy (LeastClosed R') ρ gs' I' J' := by
  induction h generalizing I' gs' with
  | nil => cases hR; exact ⟨I', hl, .nil⟩
  | @cons g gs I A J K hE ha _ ih =>
    cases hR with
    | @cons _ g' _ gs' hr hR =>
    obtain ⟨A', hE', _⟩ := least_unique R' I'
    have hA : Larger A A' := least_wider hW hE hE' hl
    have hd := hg g' (by simp)
    have hsame : ∀ c, (∃ e, g'.eff = some e ∧ makes A' c e ρ) ↔ ∃ e, g'.eff = some e ∧ makes A c e ρ := fun c =>
      exists_congr fun e => and_congr_right fun he => makes_same hA.const hA.fn (hd.2 e he) c ρ
    let J' : Interp D := ⟨J.const, J.ty, fun n ds => (∃ e, g'.eff = some e ∧ makes A (.add n ds) e ρ) ∨
      (I'.pred n ds ∧ ¬ ∃ e, g'.eff = some e ∧ makes A (.del n ds) e ρ), J.fn⟩
    have hJ : Larger J J' := by
      refine ⟨rfl, rfl, rfl, fun n ds hj => ?_⟩
      rcases (ha.2.pred n ds).1 hj with h | ⟨h, h'⟩
      · exact .inl (hr.add _ _ _ _ _ h)
      · exact .inr ⟨hl.pred n ds h, fun hd => h' (hr.del _ _ _ _ _ hd)⟩
    obtain ⟨K', hK, hr'⟩ := ih hR (fun g hg' => hg g (List.mem_cons_of_mem _ hg')) hJ
    refine ⟨K', hK, .cons (J := J') hE' ⟨fun e he => holds_larger hA (hd.1 e he) (hr.pre _ _ _ ha.1 e he), ?_⟩ hr'⟩
    refine ⟨ha.2.const.trans hl.const.symm, ha.2.ty.trans hl.ty.symm, fun n ds => ?_, fun f ds hc => ?_, fun f ds op v hc hu => ?_⟩
    · rw [hsame, hsame]
    · rw [hl.fn]
      exact ha.2.same f ds (fun op v hc' => hc op v ((hsame _).2 ((hr.num _ _ _ _ _ _ _).2 hc')))
    · rw [hl.fn]
      exact ha.2.updated f ds op v ((hr.num _ _ _ _ _ _ _).1 ((hsame _).1 hc)) (fun op' v' hc' => hu op' v' ((hsame _).2 ((hr.num _ _ _ _ _ _ _).2 hc')))

end Pddl
