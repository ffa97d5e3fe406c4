/-
C110: printing a type hierarchy takes few rounds and fails exactly for cycles.
-/
import Verif.Spec.TypeRounds
import Verif.Proofs.TypeTable
import Verif.Proofs.CycleSteps
import Verif.Proofs.Order
import Verif.Proofs.DomainRead

namespace Pddl.Props
open Pddl Spec

variable {d : TypeDict}

/-- The rounds have one outcome. -/
theorem C110_unique {ks : List Str} {i n m : Nat} {r r' : Bool} (h : Rounds d ks i n r) (h' : Rounds d ks i m r') : n = m ∧ r = r' := by
  induction h generalizing m r' with
  | done => cases h' <;> simp_all
  | stuck hne hl =>
    cases h' with
    | done => exact absurd rfl hne
    | stuck => exact ⟨rfl, rfl⟩
    | next hk => rw [List.getElem?_eq_none (by omega)] at hk; cases hk
    | line hk => rw [List.getElem?_eq_none (by omega)] at hk; cases hk
  | next hk hs _ ih =>
    cases h' with
    | done => simp at hk
    | stuck _ hl => rw [List.getElem?_eq_none (by omega)] at hk; cases hk
    | next _ _ h => obtain ⟨rfl, rfl⟩ := ih h; exact ⟨rfl, rfl⟩
    | line hk' hn _ =>
      rw [hk] at hk'; cases hk'
      obtain ⟨q, hq, hs⟩ := hs
      exact absurd hs (hn q hq)
  | line hk hn _ ih =>
    cases h' with
    | done => simp at hk
    | stuck _ hl => rw [List.getElem?_eq_none (by omega)] at hk; cases hk
    | next hk' hs _ =>
      rw [hk] at hk'; cases hk'
      obtain ⟨q, hq, hs⟩ := hs
      exact absurd hs (hn q hq)
    | line hk' _ h => rw [hk] at hk'; cases hk'; obtain ⟨rfl, rfl⟩ := ih h; exact ⟨rfl, rfl⟩

theorem loop_rounds (hd : IsDict d) : ∀ (fuel : Nat) (ks : List Str) (i : Nat), i ≤ ks.length →
    ks.length * (ks.length + 1) + 1 ≤ fuel + i →
    ∃ n r, Rounds d ks i n r ∧ 2 * n ≤ 2 * (ks.length - i) + ks.length * (ks.length - 1) + (if r then 0 else 2) ∧
      (if r then ∃ ls, typesLoop (groupTypes d) fuel ks i = .ok ls else typesLoop (groupTypes d) fuel ks i = .error .value) := by
  intro fuel
  induction fuel with
  | zero =>
    intro ks i hi hf
    have : ks.length ≤ ks.length * (ks.length + 1) := Nat.le_mul_of_pos_right _ (by omega)
    omega
  | succ fuel ih =>
    intro ks i hi hf
    unfold typesLoop
    by_cases hr : ks = []
    · subst hr
      exact ⟨0, true, .done, by simp, by simp [pure, Except.pure]⟩
    · rw [if_neg hr]
      by_cases hlt : i < ks.length
      · rw [List.getElem?_eq_getElem hlt]
        set k := ks[i] with hk
        have hki : ks[i]? = some k := List.getElem?_eq_getElem hlt
        have hiff : k ∈ (ks.map (fun k => (groupTypes d).get (some k))).flatten ↔ ∃ q ∈ ks, Super d k q := by
          simp only [List.mem_flatten, List.mem_map]
          constructor
          · rintro ⟨_, ⟨q, hq, rfl⟩, hm⟩; exact ⟨q, hq, (mem_groupTypes hd).1 hm⟩
          · rintro ⟨q, hq, hs⟩; exact ⟨_, ⟨q, hq, rfl⟩, (mem_groupTypes hd).2 hs⟩
        simp only
        split
        · next hin =>
          obtain ⟨n, r, h1, h2, h3⟩ := ih ks (i + 1) hlt (by omega)
          exact ⟨n + 1, r, .next hki (hiff.1 hin) h1, by omega, h3⟩
        · next hnot =>
          have hlen : (ks.erase k).length = ks.length - 1 := List.length_erase_of_mem (List.getElem_mem hlt)
          obtain ⟨m, hm⟩ : ∃ m, ks.length = m + 1 := ⟨ks.length - 1, by omega⟩
          rw [hm] at hf hlt hlen
          simp only [Nat.add_sub_cancel] at hlen
          obtain ⟨n, r, h1, h2, h3⟩ := ih (ks.erase k) 0 (by omega) (by
            rw [hlen]
            have e1 : (m + 1) * (m + 1 + 1) = m * (m + 1) + (2 * m + 2) := by ring
            omega)
          refine ⟨n + 1, r, .line hki (fun q hq hs => hnot (hiff.2 ⟨q, hq, hs⟩)) h1, ?_, ?_⟩
          · rw [hlen] at h2
            rw [hm]
            simp only [Nat.add_sub_cancel]
            cases m with
            | zero => simp at h2 ⊢; omega
            | succ m =>
              simp only [Nat.add_sub_cancel, Nat.sub_zero] at h2
              have e1 : (m + 1 + 1) * (m + 1) = (m + 1) * m + 2 * (m + 1) := by ring
              rw [e1]
              omega
          · cases r
            · simp only [Bool.false_eq_true, if_false] at h3 ⊢; rw [h3]; rfl
            · simp only [if_true] at h3 ⊢; obtain ⟨ls, h3⟩ := h3; rw [h3]; exact ⟨_, rfl⟩
      · refine ⟨1, false, .stuck hr (by omega), ?_, ?_⟩
        · simp only [Bool.false_eq_true, if_false]; omega
        · rw [List.getElem?_eq_none (by omega)]; simp

theorem supers_eq (hd : IsDict d) {ks : List Str} (h : Supers d ks) : parentKeys (groupTypes d) = ks := by
  have hle : ks.Pairwise fun a b => strLe a b = true := h.order.imp (fun {a b} hab => by
    simp only [strLt, Bool.not_eq_true'] at hab
    rcases strLe_total a b with h | h
    · exact h
    · rw [h] at hab; cases hab)
  have hnd : ks.Nodup := h.order.imp (fun {a b} hab => by rintro rfl; rw [strLt_irrefl] at hab; cases hab)
  refine List.Perm.eq_of_pairwise (le := fun a b => strLe a b = true) (fun x y _ _ h1 h2 => strLe_antisymm h1 h2) ?_ hle ?_
  · unfold parentKeys; exact sortedStr_pairwise _
  · refine (List.perm_ext_iff_of_nodup (parentKeys_nodup (NamesBy.nodup_of _)) hnd).2 (fun k => ?_)
    rw [mem_parentKeys hd, h.mem]
    rfl

/-- Printing a dictionary of types (whatever its hierarchy): with `k` supertypes other than `object` the loop ends after
at most `k (k + 1) / 2` rounds with the text, or after at most one more with a `ValueError`. -/
theorem C110_rounds (hd : IsDict d) (hne : d ≠ []) {ks : List Str} (hk : Supers d ks) :
    ∃ n r, Rounds d ks 0 n r ∧ 2 * n ≤ ks.length * (ks.length + 1) + (if r then 0 else 2) ∧
      (if r then ∃ s, typesSection d = .ok s else typesSection d = .error .value) := by
  obtain ⟨n, r, h1, h2, h3⟩ := loop_rounds hd ((ks.length + 1) * (ks.length + 1)) ks 0 (by omega) (by nlinarith)
  refine ⟨n, r, h1, ?_, ?_⟩
  · have : 2 * (ks.length - 0) + ks.length * (ks.length - 1) = ks.length * (ks.length + 1) := by
      cases ks.length with
      | zero => rfl
      | succ m => simp only [Nat.add_sub_cancel, Nat.sub_zero]; ring
    omega
  · unfold typesSection
    rw [if_neg hne]
    unfold printTypes typesLines
    change if r then ∃ s, (typesLoop (groupTypes d) _ (parentKeys (groupTypes d)) 0 >>= _) = .ok s else
      (typesLoop (groupTypes d) _ (parentKeys (groupTypes d)) 0 >>= _) = .error .value
    rw [supers_eq hd hk]
    cases r
    · simp only [Bool.false_eq_true, if_false] at h3 ⊢; rw [h3]; rfl
    · simp only [if_true] at h3 ⊢; obtain ⟨ls, h3⟩ := h3; rw [h3]; exact ⟨_, rfl⟩

/-- The rounds fail exactly if there is a cycle of supertypes. -/
theorem rounds_cycle {ks : List Str} {i n : Nat} {r : Bool} (h : Rounds d ks i n r) (hi : ∀ j < i, ∀ k, ks[j]? = some k → ∃ q ∈ ks, Super d k q)
    (ho : ∀ k ∈ ks, k ≠ s%"object") : r = false ↔ ∃ S : List Str, S ≠ [] ∧ S ⊆ ks ∧ ∀ k ∈ S, ∃ q ∈ S, Super d k q := by
  induction h with
  | done =>
    simp only [Bool.true_eq_false, false_iff]
    rintro ⟨S, hne, hs, _⟩
    exact hne (List.eq_nil_of_subset_nil hs)
  | @stuck ks i hne hl =>
    simp only [true_iff]
    refine ⟨ks, hne, fun _ h => h, fun k hk => ?_⟩
    obtain ⟨j, hj, e⟩ := List.mem_iff_getElem.1 hk
    exact hi j (by omega) k (by rw [List.getElem?_eq_getElem hj, e])
  | @next ks i k n r hk hs _ ih =>
    refine ih (fun j hj k' hk' => ?_) ho
    rcases Nat.lt_or_ge j i with h | h
    · exact hi j h k' hk'
    · have : j = i := by omega
      subst this
      rw [hk] at hk'; cases hk'; exact hs
  | @line ks i k n r hk hn _ ih =>
    rw [ih (by simp) (fun k' hk' => ho k' (List.mem_of_mem_erase hk'))]
    constructor
    · rintro ⟨S, h1, h2, h3⟩; exact ⟨S, h1, fun x hx => List.mem_of_mem_erase (h2 hx), h3⟩
    · rintro ⟨S, h1, h2, h3⟩
      refine ⟨S, h1, fun x hx => ?_, h3⟩
      have hxk : x ≠ k := by
        rintro rfl
        obtain ⟨q, hq, hs⟩ := h3 x hx
        exact hn q (h2 hq) hs
      exact (List.mem_erase_of_ne hxk).2 (h2 hx)

/-- A finite set in which each element has a successor has a cycle. -/
theorem cycle_of_closed {α : Type} {R : α → α → Prop} {S : List α} (hne : S ≠ []) (h : ∀ k ∈ S, ∃ q ∈ S, R k q) :
    ∃ k ∈ S, Relation.TransGen R k k := by
  by_contra hc
  obtain ⟨k₀, hk₀⟩ := List.exists_mem_of_ne_nil _ hne
  choose! nxt hn1 hn2 using h
  have hmem : ∀ i, nxt^[i] k₀ ∈ S := by
    intro i
    induction i with
    | zero => exact hk₀
    | succ i ihi => rw [Function.iterate_succ_apply']; exact hn1 _ ihi
  have hr : ∀ i k, Relation.TransGen R (nxt^[i] k₀) (nxt^[i + k + 1] k₀) := by
    intro i k
    induction k with
    | zero => rw [show i + 0 + 1 = i + 1 by omega, Function.iterate_succ_apply']; exact .single (hn2 _ (hmem i))
    | succ k ih =>
      refine ih.tail ?_
      rw [show i + (k + 1) + 1 = (i + k + 1) + 1 by omega, Function.iterate_succ_apply' nxt (i + k + 1)]
      exact hn2 _ (hmem _)
  let f : Nat → {x // x ∈ S} := fun i => ⟨nxt^[i] k₀, hmem i⟩
  have hfin : Finite {x // x ∈ S} := List.finite_toSet _
  have hinj := not_injective_infinite_finite f
  simp only [Function.Injective, not_forall] at hinj
  obtain ⟨i, j, he, hne⟩ := hinj
  have he : nxt^[i] k₀ = nxt^[j] k₀ := congrArg Subtype.val he
  rcases Nat.lt_or_gt_of_ne hne with hlt | hlt
  · obtain ⟨k, rfl⟩ := Nat.exists_eq_add_of_lt hlt
    have := hr i k
    rw [← he] at this
    exact hc ⟨_, hmem i, this⟩
  · obtain ⟨k, rfl⟩ := Nat.exists_eq_add_of_lt hlt
    have := hr j k
    rw [he] at this
    exact hc ⟨_, hmem j, this⟩

theorem supers_exists (hd : IsDict d) : ∃ ks, Supers d ks := by
  refine ⟨parentKeys (groupTypes d), ?_, fun k => by rw [mem_parentKeys hd]; rfl⟩
  have h1 : (parentKeys (groupTypes d)).Pairwise fun a b => strLe a b = true := by unfold parentKeys; exact sortedStr_pairwise _
  have h2 : (parentKeys (groupTypes d)).Nodup := parentKeys_nodup (NamesBy.nodup_of _)
  refine (h1.and h2).imp (fun {a b} hab => ?_)
  simp only [strLt, Bool.not_eq_true']
  cases h : strLe b a with
  | false => rfl
  | true => exact absurd (strLe_antisymm hab.1 h) hab.2

/-- Printing a dictionary of types raises a `ValueError` exactly if there is a cycle of types other than `object`, and
otherwise returns a text. -/
theorem C110_cycle (hd : IsDict d) (hne : d ≠ []) :
    (typesSection d = .error .value ↔ ∃ k, Relation.TransGen (Under d) k k) ∧
      ((∃ s, typesSection d = .ok s) ↔ ¬ ∃ k, Relation.TransGen (Under d) k k) := by
  obtain ⟨ks, hk⟩ := supers_exists hd
  obtain ⟨n, r, h1, _, h3⟩ := C110_rounds hd hne hk
  have hc := rounds_cycle h1 (by simp) (fun k hm => ((hk.mem k).1 hm).1)
  have hiff : (∃ S : List Str, S ≠ [] ∧ S ⊆ ks ∧ ∀ k ∈ S, ∃ q ∈ S, Super d k q) ↔ ∃ k, Relation.TransGen (Under d) k k := by
    constructor
    · rintro ⟨S, s1, s2, s3⟩
      have ho : ∀ k ∈ S, k ≠ s%"object" := fun k hm => ((hk.mem k).1 (s2 hm)).1
      obtain ⟨k, _, h⟩ := cycle_of_closed (R := Under d) s1 (fun k hm => by
        obtain ⟨q, hq, hs⟩ := s3 k hm; exact ⟨q, hq, hs, ho k hm, ho q hq⟩)
      exact ⟨k, h⟩
    · rintro ⟨k, h⟩
      classical
      have hmem : ∀ q, Relation.TransGen (Under d) k q → q ∈ ks := by
        intro q hq
        obtain ⟨b, _, hb⟩ := Relation.TransGen.tail'_iff.1 hq
        exact (hk.mem q).2 ⟨hb.2.2, b, hb.1⟩
      refine ⟨ks.filter fun q => decide (Relation.TransGen (Under d) k q ∧ Relation.TransGen (Under d) q k), ?_, List.filter_subset' _, ?_⟩
      · exact List.ne_nil_of_mem (List.mem_filter.2 ⟨hmem k h, by simpa using h⟩)
      · intro q hq
        simp only [List.mem_filter, decide_eq_true_eq] at hq ⊢
        obtain ⟨_, h4, h5⟩ := hq
        obtain ⟨q', h6, h7⟩ := Relation.TransGen.head'_iff.1 h5
        have h8 : Relation.TransGen (Under d) k q' := h4.tail h6
        exact ⟨q', ⟨hmem _ h8, h8, Relation.TransGen.trans_right h7 h⟩, h6.1⟩
  rw [← hiff, ← hc]
  cases r
  · simp only [Bool.false_eq_true, if_false] at h3
    simp [h3]
  · simp only [if_true] at h3
    obtain ⟨s, h3⟩ := h3
    simp [h3]

/-- Types that the constructor of domains accepts are always printed, after at most `k (k + 1) / 2` rounds. -/
theorem C110_accepted {d' : TypeDict} {rs : List Req} (hd : IsDict d) (h : mkTypes d rs = .ok d') (hne : d' ≠ []) {ks : List Str}
    (hk : Supers d' ks) : ∃ n, Rounds d' ks 0 n true ∧ 2 * n ≤ ks.length * (ks.length + 1) ∧ ∃ s, typesSection d' = .ok s := by
  obtain ⟨h1, h2, rfl⟩ := (mkTypes_ok hd).1 h
  have hd' : IsDict (cleanDict d) := by simpa [IsDict, cleanDict, List.map_map, Function.comp_def] using hd
  obtain ⟨n, r, h3, h4, h5⟩ := C110_rounds hd' hne hk
  obtain ⟨s, hs⟩ : ∃ s, typesSection (cleanDict d) = .ok s := by
    refine (C110_cycle hd' hne).2.2 ?_
    rintro ⟨k, hc⟩
    refine h2.acyclic k (Relation.TransGen.mono (fun a b hab => ?_) k k hc)
    rw [← parent_of_clean d]
    refine ⟨hab.1, ?_⟩
    rintro rfl
    exact clean_ne _ (lookup_mem hab.1) rfl
  cases r
  · simp [hs] at h5
  · exact ⟨n, h3, by simpa using h4, s, hs⟩

/-! ### The bound is reached -/

/-- Type `i` is a subtype of type `i + 1`. -/
def upTypes (n : Nat) : TypeDict := (List.range n).map (fun i => (aName i, some (aName (i + 1))))

theorem upTypes_dict (n : Nat) : IsDict (upTypes n) := by
  simp only [IsDict, upTypes, List.map_map]
  exact List.nodup_range.map (fun i j h => aName_inj.mp h)

theorem upTypes_super {n : Nat} {a b : Str} : Super (upTypes n) a b ↔ ∃ i < n, a = aName i ∧ b = aName (i + 1) := by
  unfold Super
  constructor
  · intro h
    have := lookup_mem h
    simp only [upTypes, List.mem_map, List.mem_range, Prod.mk.injEq, Option.some.injEq] at this
    obtain ⟨i, hi, rfl, rfl⟩ := this
    exact ⟨i, hi, rfl, rfl⟩
  · rintro ⟨i, hi, rfl, rfl⟩
    exact lookup_map_range (fun i => some (aName (i + 1))) hi

theorem aName_object (i : Nat) : aName i ≠ s%"object" := by
  intro h
  have : 'o' ∈ aName i := by rw [h]; decide
  simp [aName] at this

theorem aName_lt {i j : Nat} (h : i < j) : strLt (aName i) (aName j) = true := by
  have : ∀ m k : Nat, strLe (List.replicate (m + k + 1) 'a') (List.replicate m 'a') = false := by
    intro m k
    induction m with
    | zero => simp [List.replicate_succ, strLe]
    | succ m ih =>
      rw [show m + 1 + k + 1 = (m + k + 1) + 1 by omega, List.replicate_succ, List.replicate_succ (n := m)]
      change (if _ then _ else if _ then _ else strLe _ _) = false
      rw [if_neg (by simp), if_neg (by simp)]
      exact ih
  obtain ⟨k, rfl⟩ := Nat.exists_eq_add_of_lt h
  simp only [strLt, aName, Bool.not_eq_true']
  have := this (i + 1) k
  rwa [show i + 1 + k + 1 = i + k + 1 + 1 by omega] at this

theorem upTypes_supers (n : Nat) : Supers (upTypes n) ((List.range n).map fun i => aName (i + 1)) := by
  refine ⟨?_, fun k => ?_⟩
  · rw [List.pairwise_map]
    exact List.pairwise_lt_range.imp (fun {a b} h => aName_lt (by omega))
  · simp only [List.mem_map, List.mem_range, upTypes_super]
    constructor
    · rintro ⟨i, hi, rfl⟩; exact ⟨aName_object _, _, i, hi, rfl, rfl⟩
    · rintro ⟨_, _, i, hi, _, rfl⟩; exact ⟨i, hi, rfl⟩

theorem upTypes_ok (n : Nat) : mkTypes (upTypes n) [.typing] = .ok (upTypes n) := by
  refine (mkTypes_ok (upTypes_dict n)).mpr ⟨?_, ⟨fun _ => by simp, ?_, ?_⟩, ?_⟩
  · intro p hp
    simp only [upTypes, List.mem_map] at hp
    obtain ⟨i, _, rfl⟩ := hp
    refine ⟨aName_valid i, ?_⟩
    rintro b ⟨rfl⟩ _
    exact aName_valid _
  · rintro b ⟨h, _⟩
    obtain ⟨i, _, h, _⟩ := upTypes_super.1 h
    exact aName_object i h.symm
  · have trans : ∀ a b, Relation.TransGen (Parent (upTypes n)) a b → ∃ i j, i < j ∧ a = aName i ∧ b = aName j := by
      intro a b h
      induction h with
      | single h => obtain ⟨i, _, rfl, rfl⟩ := upTypes_super.1 h.1; exact ⟨i, i + 1, by omega, rfl, rfl⟩
      | tail _ h ih =>
        obtain ⟨i, j, hij, rfl, rfl⟩ := ih
        obtain ⟨i', _, e, rfl⟩ := upTypes_super.1 h.1
        rw [aName_inj] at e
        exact ⟨i, i' + 1, by omega, rfl, rfl⟩
    intro v hv
    obtain ⟨i, j, hij, rfl, e⟩ := trans _ _ hv
    rw [aName_inj] at e
    omega
  · simp only [upTypes, cleanDict, List.map_map]
    refine List.map_congr_left (fun i _ => ?_)
    simp [cleanParent, aName]

theorem upTypes_rounds (n : Nat) : ∀ m ≤ n, ∃ c, 2 * c = m * (m + 1) ∧
    Rounds (upTypes n) ((List.range m).map fun i => aName (i + 1)) 0 c true := by
  intro m
  induction m with
  | zero => exact fun _ => ⟨0, by simp, .done⟩
  | succ m ih =>
    intro hm
    have hlast : ∃ c, 2 * c = 2 + (m + 1) * m ∧ Rounds (upTypes n) ((List.range (m + 1)).map fun i => aName (i + 1)) m c true := by
      obtain ⟨c, h1, h2⟩ := ih (by omega)
      refine ⟨c + 1, ?_, .line (k := aName (m + 1)) (by simp) ?_ ?_⟩
      · have : m * (m + 1) = (m + 1) * m := by ring
        omega
      · intro q hq hs
        obtain ⟨i, _, h3, rfl⟩ := upTypes_super.1 hs
        rw [aName_inj] at h3
        subst h3
        simp only [List.mem_map, List.mem_range, aName_inj] at hq
        omega
      · rw [List.range_succ, List.map_append, List.map_singleton, List.erase_append_right]
        · simpa using h2
        · simp only [List.mem_map, List.mem_range, aName_inj]; omega
    have hback : ∀ k ≤ m, ∃ c, 2 * c = 2 * (k + 1) + (m + 1) * m ∧
        Rounds (upTypes n) ((List.range (m + 1)).map fun i => aName (i + 1)) (m - k) c true := by
      intro k
      induction k with
      | zero => intro _; simpa using hlast
      | succ k ihk =>
        intro hk
        obtain ⟨c, h1, h2⟩ := ihk (by omega)
        refine ⟨c + 1, by omega, .next (k := aName (m - (k + 1) + 1)) ?_ ⟨aName (m - k + 1), ?_, ?_⟩ ?_⟩
        · rw [List.getElem?_map, List.getElem?_range (by omega)]; rfl
        · exact List.mem_map.2 ⟨m - k, List.mem_range.2 (by omega), rfl⟩
        · exact upTypes_super.2 ⟨m - (k + 1) + 1, by omega, rfl, by rw [show m - (k + 1) + 1 = m - k by omega]⟩
        · rw [show m - (k + 1) + 1 = m - k by omega]; exact h2
    obtain ⟨c, h1, h2⟩ := hback m (by omega)
    rw [Nat.sub_self] at h2
    exact ⟨c, by have : (m + 1) * (m + 1 + 1) = (m + 1) * m + 2 * (m + 1) := by ring
                 omega, h2⟩

/-- The bound is reached: for every `n` there is an accepted hierarchy with `n` supertypes that takes exactly
`n (n + 1) / 2` rounds. -/
theorem C110_quadratic (n : Nat) : ∃ (d : TypeDict) (ks : List Str), IsDict d ∧ mkTypes d [.typing] = .ok d ∧ Supers d ks ∧
    ks.length = n ∧ Rounds d ks 0 (n * (n + 1) / 2) true := by
  obtain ⟨c, h1, h2⟩ := upTypes_rounds n n (Nat.le_refl n)
  refine ⟨upTypes n, _, upTypes_dict n, upTypes_ok n, upTypes_supers n, by simp, ?_⟩
  rw [show n * (n + 1) / 2 = c by omega]
  exact h2

/-- Three supertypes: six rounds. -/
example : Rounds (upTypes 3) [s%"aa", s%"aaa", s%"aaaa"] 0 6 true ∧ typesSection (upTypes 3) =
    .ok s%"(:types\n    aaaa - object\n    aaa - aaaa\n    aa - aaa\n    a - aa\n)\n" := by
  refine ⟨?_, by decide +kernel⟩
  obtain ⟨c, h1, h2⟩ := upTypes_rounds 3 3 (Nat.le_refl 3)
  obtain rfl : c = 6 := by omega
  exact h2

/-- A cycle, which no constructor accepts: `ValueError` in the third round. -/
example : Rounds [(s%"a", some s%"b"), (s%"b", some s%"a"), (s%"c", some s%"a")] [s%"a", s%"b"] 0 3 false ∧
    typesSection [(s%"a", some s%"b"), (s%"b", some s%"a"), (s%"c", some s%"a")] = .error .value := by
  refine ⟨.next rfl ⟨s%"b", by decide, rfl⟩ (.next rfl ⟨s%"a", by decide, rfl⟩ (.stuck (by decide) (by decide))), by decide +kernel⟩

end Pddl.Props
