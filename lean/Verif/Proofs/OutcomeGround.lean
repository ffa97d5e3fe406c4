/-
What the written effect can do with arguments in place of the parameters.
-/
import Verif.Proofs.OutcomeRead
import Verif.Proofs.WriteGround

namespace Pddl
open Spec

variable {D : Type} {I : Interp D} {lit : Str → Option Rat} {r : Str → Option Str} {E : GEnv}

theorem treeOutcomeAll_iff {ts us : List Tree} {ρ ρ' : Str → D}
    (h : List.Forall₂ (fun t u => ∀ A, treeOutcome I lit t ρ A ↔ treeOutcome I lit u ρ' A) ts us) {C : Change D → Prop} :
    treeOutcomeAll I lit ts ρ C ↔ treeOutcomeAll I lit us ρ' C := by
  induction h generalizing C with
  | nil => simp [treeOutcomeAll]
  | cons h _ ih => simp only [treeOutcomeAll, h, ih]

theorem ERel.writes_outcome {ρ ρ' : Str → D} (hr : Writes I r ρ ρ') {top : Bool} {t : Tree} {e : Expr} (h : ERel E top t e)
    (hn : ¬ e.effy) {C : Change D → Prop} (hc : Covers r E) :
    treeOutcome I lit (writeIn r t) ρ C ↔ treeOutcome I lit t ρ' C := by
  induction h generalizing C with
  | @and args es hl hall ih =>
    rw [effy_mkAnd] at hn
    rw [writeIn, writeIns_cons (by simp), writeIn, writeIns_map (zip_notMark (R := ERel E false) ERel.notMark hl hall),
      treeOutcome_name, treeOutcome_name, if_neg (by decide), if_pos rfl, if_neg (by decide), if_pos rfl]
    refine treeOutcomeAll_iff ?_
    rw [List.forall₂_map_left_iff, List.forall₂_same]
    intro t ht A
    obtain ⟨e, _, he⟩ := Pairs.mem_left (R := fun t e => (t, e) ∈ args.zip es) ⟨hl, fun p hp => hp⟩ ht
    exact ih (t, e) he (fun h => hn ⟨e, (List.of_mem_zip he).2, h⟩)
  | fall => exact absurd trivial hn
  | when => exact absurd trivial hn
  | @oneof top args es hne hl hall _ ih =>
    simp only [construct, Cls.isMeta, Expr.ofCls, Bool.false_eq_true, if_false, Expr.effy, effies_iff] at hn
    rw [writeIn, writeIns_cons (by simp), writeIn, writeIns_map (zip_notMark (R := ERel E true) ERel.notMark hl hall),
      treeOutcome_name, treeOutcome_name, if_pos rfl, if_pos rfl, treeOutcomeSome_iff, treeOutcomeSome_iff]
    simp only [List.mem_map, exists_exists_and_eq_and]
    refine exists_congr (fun t => and_congr_right (fun ht => ?_))
    obtain ⟨e, _, he⟩ := Pairs.mem_left (R := fun t e => (t, e) ∈ args.zip es) ⟨hl, fun p hp => hp⟩ ht
    exact ih (t, e) he (fun h => hn ⟨e, (List.of_mem_zip he).2, h⟩)
  | @lit top t e hw h =>
    obtain ⟨e', k⟩ := (pEffect_iff.1 h).ground hc
    rw [k.tree_free I lit, (pEffect_iff.1 h).tree_free I lit]
    simp only [(pEffect_iff.1 h).writes hr]

end Pddl
