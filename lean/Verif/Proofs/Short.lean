/-
Plans that come back to a state.
-/
import Verif.Spec.Short
import Verif.Proofs.Interfere
import Verif.Proofs.Monotone
import Mathlib.Data.Fintype.Pi
import Mathlib.Data.Fintype.Pigeonhole
import Mathlib.Data.Fintype.BigOperators

namespace Pddl
open Spec

variable {D : Type} {ρ : Str → D}

/-- The state after each number of steps. -/
theorem runs_states {gs : List Action} {I J : Interp D} (h : Runs ρ gs I J) :
    ∃ K : Nat → Interp D, ∀ i, i ≤ gs.length → Runs ρ (gs.take i) I (K i) ∧ Runs ρ (gs.drop i) (K i) J := by
  induction h with
  | nil =>
    rename_i I
    refine ⟨fun _ => I, fun i hi => ?_⟩
    rw [List.take_nil, List.drop_nil]
    exact ⟨.nil, .nil⟩
  | @cons g gs I I1 J ha hr ih =>
    obtain ⟨K, hK⟩ := ih
    refine ⟨fun i => match i with | 0 => I | i + 1 => K i, fun i hi => ?_⟩
    cases i with
    | zero => exact ⟨.nil, .cons ha hr⟩
    | succ i =>
      obtain ⟨h1, h2⟩ := hK i (by simpa using hi)
      exact ⟨.cons ha h1, h2⟩

theorem runs_join {gs hs : List Action} {I J K : Interp D} (h : Runs ρ gs I J) (h' : Runs ρ hs J K) : Runs ρ (gs ++ hs) I K := by
  induction h with
  | nil => exact h'
  | cons ha _ ih => exact .cons ha (ih h')

/-- With these objects for the constants, the actions change nothing but whether the atoms of the list hold. -/
def OnlyChange (ρ k : Str → D) (A : List (Str × List D)) (gs : List Action) : Prop :=
  ∀ g ∈ gs, ∀ I : Interp D, I.const = k → ∀ c, Does ρ g I c → ∃ n ds, (n, ds) ∈ A ∧ (c = .add n ds ∨ c = .del n ds)

theorem runs_same_consts {gs : List Action} {I J : Interp D} (h : Runs ρ gs I J) : J.const = I.const := by
  induction h with
  | nil => rfl
  | cons h1 _ ih => rw [ih, h1.2.const]

theorem runs_outside {A : List (Str × List D)} {gs : List Action} {I J : Interp D} (h : Runs ρ gs I J) (ho : OnlyChange ρ I.const A gs) :
    J.ty = I.ty ∧ J.fn = I.fn ∧ ∀ n ds, (n, ds) ∉ A → (J.pred n ds ↔ I.pred n ds) := by
  induction h with
  | nil => exact ⟨rfl, rfl, fun _ _ _ => Iff.rfl⟩
  | @cons g gs I I1 J ha hr ih =>
    have hn : Next (Does ρ g I) I I1 := ha.2
    have hg := ho g (by simp) I rfl
    obtain ⟨h1, h2, h3⟩ := ih (by rw [hn.const]; exact fun g' hg' => ho g' (List.mem_cons_of_mem _ hg'))
    refine ⟨h1.trans hn.ty, h2.trans ?_, fun n ds hm => (h3 n ds hm).trans ?_⟩
    · funext f ds
      refine hn.same f ds fun op v hc => ?_
      obtain ⟨_, _, _, h | h⟩ := hg _ hc <;> cases h
    · rw [hn.pred]
      have h1 : ¬ Does ρ g I (.add n ds) := by
        intro hc
        obtain ⟨_, _, h, h' | h'⟩ := hg _ hc <;> cases h'
        exact hm h
      have h2 : ¬ Does ρ g I (.del n ds) := by
        intro hc
        obtain ⟨_, _, h, h' | h'⟩ := hg _ hc <;> cases h'
        exact hm h
      simp only [h1, h2, false_or, not_false_eq_true, and_true]

theorem interp_ext {I J : Interp D} (h1 : J.const = I.const) (h2 : J.ty = I.ty) (h3 : J.fn = I.fn) (h4 : ∀ n ds, J.pred n ds ↔ I.pred n ds) : J = I := by
  cases I; cases J
  simp only at h1 h2 h3 h4
  subst h1 h2 h3
  have := funext fun n => funext fun ds => propext (h4 n ds)
  subst this
  rfl

/-- A plan that changes only the atoms of a list can be cut to one with fewer steps than there are sets of these atoms. -/
theorem runs_short {A : List (Str × List D)} {gs : List Action} {I J : Interp D} (h : Runs ρ gs I J) (ho : OnlyChange ρ I.const A gs)
    {α : Type} {R : α → Action → Prop} {l : List α} (hl : List.Forall₂ R l gs) :
    ∃ l' gs', l'.Sublist l ∧ List.Forall₂ R l' gs' ∧ gs'.length < 2 ^ A.length ∧ Runs ρ gs' I J := by
  classical
  generalize hn : gs.length = n
  induction n using Nat.strong_induction_on generalizing gs l with
  | _ n ih =>
    by_cases hlt : n < 2 ^ A.length
    · exact ⟨l, gs, .refl _, hl, hn ▸ hlt, h⟩
    · obtain ⟨K, hK⟩ := runs_states h
      let sig : Fin (n + 1) → (Fin A.length → Bool) := fun i j => decide ((K i).pred (A.get j).1 (A.get j).2)
      obtain ⟨i, j, hij, hs⟩ : ∃ i j, i < j ∧ sig i = sig j := by
        obtain ⟨i, j, hne, he⟩ := Fintype.exists_ne_map_eq_of_card_lt sig (by simp; omega)
        rcases lt_or_gt_of_ne hne with h | h
        · exact ⟨i, j, h, he⟩
        · exact ⟨j, i, h, he.symm⟩
      have hi : (i : Nat) ≤ gs.length := by omega
      have hj : (j : Nat) ≤ gs.length := by omega
      have hij' : (i : Nat) < j := hij
      have oi := runs_outside (hK i hi).1 (fun g hg => ho g (List.mem_of_mem_take hg))
      have oj := runs_outside (hK j hj).1 (fun g hg => ho g (List.mem_of_mem_take hg))
      have heq : K j = K i := by
        refine interp_ext ((runs_same_consts (hK j hj).1).trans (runs_same_consts (hK i hi).1).symm) (oj.1.trans oi.1.symm) (oj.2.1.trans oi.2.1.symm) ?_
        intro n ds
        by_cases hm : (n, ds) ∈ A
        · obtain ⟨k, hk⟩ := List.get_of_mem hm
          have := congrFun hs k
          simp only [sig, hk, decide_eq_decide] at this
          exact this.symm
        · rw [oj.2.2 n ds hm, oi.2.2 n ds hm]
      have hr : Runs ρ (gs.take i ++ gs.drop j) I J := runs_join (hK i hi).1 (heq ▸ (hK j hj).2)
      have hsub : (gs.take i ++ gs.drop j).length < n := by
        rw [List.length_append, List.length_take, List.length_drop]; omega
      have hmem : ∀ g ∈ gs.take i ++ gs.drop j, g ∈ gs := by
        intro g hg
        rcases List.mem_append.1 hg with hg | hg
        · exact List.mem_of_mem_take hg
        · exact List.mem_of_mem_drop hg
      obtain ⟨l', gs', h1, h2, h3, h4⟩ := ih _ hsub hr (fun g hg => ho g (hmem g hg))
        (List.rel_append (List.forall₂_take i hl) (List.forall₂_drop j hl)) rfl
      refine ⟨l', gs', h1.trans ?_, h2, h3, h4⟩
      calc (l.take i ++ l.drop j).Sublist (l.take i ++ l.drop i) := (List.Sublist.refl _).append (List.drop_sublist_drop_left l (le_of_lt hij'))
        _ = l := List.take_append_drop _ _

/-- What an effect without conditions and quantifiers changes are its atoms, with the objects of their terms. -/
theorem makes_exact {e : Expr} {c : Change D} {I : Interp D} (hn : NoEffect e) (h : makes I c e ρ) : ∃ t, Changes e t ∧
    ((∃ p, t = .add p ∧ c = .add p.name (p.terms.map (denote I ρ))) ∨ (∃ p, t = .del p ∧ c = .del p.name (p.terms.map (denote I ρ))) ∨
      ∃ o f, t = .num o f) := by
  have hs : ∀ (as : List Expr), NoEffects as → makesSome I c as ρ → ∃ a ∈ as, NoEffect a ∧ makes I c a ρ := by
    intro as hn h
    induction as with
    | nil => simp [makesSome] at h
    | cons a as ih =>
      rcases h with h | h
      · exact ⟨a, by simp, hn.1, h⟩
      · obtain ⟨b, hb, h⟩ := ih hn.2 h; exact ⟨b, List.mem_cons_of_mem _ hb, h⟩
  induction e using Expr.ind with
  | hpred p => simp only [makes] at h; subst h; exact ⟨_, .add, .inl ⟨_, rfl, rfl⟩⟩
  | hbfun o as ih =>
    simp only [makes] at h
    unfold updated at h
    split at h
    · obtain ⟨hu, v, _, rfl⟩ := h
      exact ⟨_, .num hu, .inr (.inr ⟨_, _, rfl⟩)⟩
    · exact h.elim
  | hbin o as ih =>
    cases o <;> simp only [makes] at h
    obtain ⟨a, ha, hna, h⟩ := hs _ hn h
    obtain ⟨t, h1, h2⟩ := ih a ha hna h
    exact ⟨t, .part ha h1, h2⟩
  | hnot a ih =>
    simp only [makes] at h
    unfold deletes at h
    split at h
    · subst h; exact ⟨_, .del, .inr (.inl ⟨_, rfl, rfl⟩)⟩
    · exact h.elim
  | hwhen c e _ ih => exact hn.elim
  | hfall vs e ih => exact hn.elim
  | _ => simp only [makes] at h

theorem onlyChange_of {facts : List Pred} {gs : List Action} (h : OnlyFacts facts gs) (hn : ∀ g ∈ gs, ∀ e, g.eff = some e → NoEffect e)
    (I : Interp D) : OnlyChange ρ I.const (facts.map fun p => (p.name, p.terms.map (denote I ρ))) gs := by
  rintro g hg J hJ c ⟨e, he, hc⟩
  have hden : denote J ρ = denote I ρ := by
    funext t; cases t <;> simp [denote, hJ]
  obtain ⟨t, h1, h2⟩ := makes_exact (hn g hg e he) hc
  obtain ⟨p, hp, h3⟩ := h g hg t ⟨e, he, h1⟩
  refine ⟨p.name, p.terms.map (denote I ρ), List.mem_map.2 ⟨p, hp, rfl⟩, ?_⟩
  rw [← hden]
  rcases h2 with ⟨q, rfl, rfl⟩ | ⟨q, rfl, rfl⟩ | ⟨o, f, rfl⟩ <;> rcases h3 with h3 | h3 <;> cases h3 <;> simp

end Pddl
