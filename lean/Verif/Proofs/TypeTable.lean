/-
The loop that prints the `:types` section (pddl/formatter.py:135-189).
-/
import Verif.Spec.TypeTable
import Verif.Proofs.NamesBy
import Verif.Proofs.Types
import Mathlib.Data.Fintype.EquivFin
import Mathlib.Data.Set.Finite.List

namespace Pddl
open Spec

/-- The order in which the loop lists the parents. -/
structure Listed (d : NamesBy) (remaining : List Str) (ls : List TypeLine) : Prop where
  perm : (ls.map Prod.snd).Perm remaining
  subs : ∀ l ∈ ls, l.1 = sortedStr (d.get (some l.2))
  order : ∀ A l B, ls = A ++ l :: B → ∀ l' ∈ l :: B, l.2 ∉ d.get (some l'.2)

theorem typesLoop_ok (d : NamesBy)
    (hd : ¬ ∃ c : Nat → Str, ∀ i, c i ∈ d.get (some (c (i + 1)))) :
    ∀ (fuel : Nat) (remaining : List Str) (ind : Nat), remaining.Nodup →
    (∀ j < ind, ∀ k, remaining[j]? = some k → k ∈ (remaining.map (fun k => d.get (some k))).flatten) →
    ind ≤ remaining.length →
    remaining.length * (remaining.length + 1) + 1 ≤ fuel + ind →
    ∃ ls, typesLoop d fuel remaining ind = .ok ls ∧ Listed d remaining ls := by
  intro fuel
  induction fuel with
  | zero =>
    intro remaining ind _ _ hi hf
    have : remaining.length ≤ remaining.length * (remaining.length + 1) := Nat.le_mul_of_pos_right _ (by omega)
    omega
  | succ fuel ih =>
    intro remaining ind hn hsome hi hf
    unfold typesLoop
    by_cases hr : remaining = []
    · subst hr
      refine ⟨[], by simp [pure, Except.pure], ⟨by simp, by simp, ?_⟩⟩
      intro A l B h; simp at h
    · rw [if_neg hr]
      have hlt : ind < remaining.length := by
        rcases Nat.lt_or_ge ind remaining.length with h | h
        · exact h
        · exfalso
          have hall : ∀ k ∈ remaining, ∃ q ∈ remaining, k ∈ d.get (some q) := by
            intro k hk
            obtain ⟨j, hj, e⟩ := List.mem_iff_getElem.1 hk
            have := hsome j (by omega) k (by rw [List.getElem?_eq_getElem hj, e])
            simp only [List.mem_flatten, List.mem_map] at this
            obtain ⟨_, ⟨q, hq, rfl⟩, hm⟩ := this
            exact ⟨q, hq, hm⟩
          obtain ⟨k₀, hk₀⟩ := List.exists_mem_of_ne_nil _ hr
          choose! nxt hn1 hn2 using hall
          have hmem : ∀ i, nxt^[i] k₀ ∈ remaining := by
            intro i
            induction i with
            | zero => exact hk₀
            | succ i ihi => rw [Function.iterate_succ_apply']; exact hn1 _ ihi
          refine hd ⟨fun i => nxt^[i] k₀, fun i => ?_⟩
          simp only [Function.iterate_succ_apply']
          exact hn2 _ (hmem i)
      rw [List.getElem?_eq_getElem hlt]
      set parent := remaining[ind] with hp
      have hpm : parent ∈ remaining := List.getElem_mem hlt
      simp only
      split
      · next hin =>
        refine ih remaining (ind + 1) hn ?_ (by omega) (by omega)
        intro j hj k hk
        rcases Nat.lt_or_ge j ind with h | h
        · exact hsome j h k hk
        · have : j = ind := by omega
          subst this
          rw [List.getElem?_eq_getElem hlt] at hk
          simp only [Option.some.injEq] at hk
          subst hk; exact hin
      · next hnot =>
        have hlen : (remaining.erase parent).length = remaining.length - 1 := List.length_erase_of_mem hpm
        obtain ⟨n, hnn⟩ : ∃ n, remaining.length = n + 1 := ⟨remaining.length - 1, by omega⟩
        obtain ⟨ls, hls, hL⟩ := ih (remaining.erase parent) 0 (hn.erase _) (by simp) (by omega) (by
          rw [hlen, hnn] 
          rw [hnn] at hf hlt
          have e1 : (n + 1) * (n + 1 + 1) = n * (n + 1) + (2 * n + 2) := by ring
          simp only [Nat.add_sub_cancel]
          omega)
        rw [hls]
        refine ⟨(sortedStr (d.get (some parent)), parent) :: ls, rfl, ⟨?_, ?_, ?_⟩⟩
        · simp only [List.map_cons]
          exact (hL.perm.cons parent).trans (List.perm_cons_erase hpm).symm
        · intro l hl
          rcases List.mem_cons.1 hl with rfl | hl
          · rfl
          · exact hL.subs l hl
        · intro A l B h l' hl'
          cases A with
          | nil =>
            simp only [List.nil_append, List.cons.injEq] at h
            obtain ⟨rfl, rfl⟩ := h
            intro hm
            apply hnot
            simp only [List.mem_flatten, List.mem_map]
            refine ⟨_, ⟨l'.2, ?_, rfl⟩, hm⟩
            rcases List.mem_cons.1 hl' with rfl | hl'
            · exact hpm
            · exact List.mem_of_mem_erase (hL.perm.mem_iff.1 (List.mem_map.2 ⟨l', hl', rfl⟩))
          | cons a A =>
            simp only [List.cons_append, List.cons.injEq] at h
            exact hL.order A l B h.2 l' hl'

theorem mem_of_lookup {d : TypeDict} (hd : IsDict d) {k : Str} {v : Option Str} :
    (k, v) ∈ d ↔ d.lookup k = some v := by
  constructor
  · exact fun h => dictGet_of_mem hd h
  · exact lookup_mem

theorem no_chain {d : TypeDict} (hac : ∀ a, ¬ Relation.TransGen (Parent d) a a) :
    ¬ ∃ chain : Nat → Str, ∀ i, Parent d (chain i) (chain (i + 1)) := by
  rintro ⟨s, hs⟩
  have hk : ∀ i, s i ∈ d.map Prod.fst := fun i =>
    List.mem_map.mpr ⟨_, lookup_mem (hs i).1, rfl⟩
  have hr : ∀ i k, Relation.TransGen (Parent d) (s i) (s (i + k + 1)) := by
    intro i k
    induction k with
    | zero => exact .single (hs i)
    | succ k ih => exact ih.tail (hs (i + k + 1))
  let f : Nat → {x // x ∈ d.map Prod.fst} := fun i => ⟨s i, hk i⟩
  have hfin : Finite {x // x ∈ d.map Prod.fst} := List.finite_toSet _
  have hinj := not_injective_infinite_finite f
  simp only [Function.Injective, not_forall] at hinj
  obtain ⟨i, j, he, hne⟩ := hinj
  have he : s i = s j := congrArg Subtype.val he
  rcases Nat.lt_or_gt_of_ne hne with hlt | hlt
  · obtain ⟨k, rfl⟩ := Nat.exists_eq_add_of_lt hlt
    have := hr i k
    rw [← he] at this
    exact hac _ this
  · obtain ⟨k, rfl⟩ := Nat.exists_eq_add_of_lt hlt
    have := hr j k
    rw [he] at this
    exact hac _ this

/-- The types grouped by supertype (formatter.py:66-68). -/
abbrev groupTypes (d : TypeDict) : NamesBy := NamesBy.of (d.map (fun p => (p.2, p.1)))

theorem mem_groupTypes {d : TypeDict} (hd : IsDict d) {t : Str} {p : Option Str} :
    t ∈ (groupTypes d).get p ↔ d.lookup t = some p := by
  rw [NamesBy.get_mem, ← mem_of_lookup hd]
  simp only [List.mem_map, Prod.mk.injEq]
  constructor
  · rintro ⟨⟨a, b⟩, h, rfl, rfl⟩; exact h
  · intro h; exact ⟨_, h, rfl, rfl⟩

theorem groupTypes_nodup {d : TypeDict} (hd : IsDict d) (p : Option Str) :
    ((groupTypes d).get p).Nodup := by
  rw [NamesBy.get_of, List.filter_map, List.map_map]
  have : ((fun x : Option Str × Str => x.2) ∘ fun p : Str × Option Str => (p.2, p.1)) = Prod.fst := by
    funext ⟨a, b⟩; rfl
  have h2 : (Prod.snd ∘ fun p : Str × Option Str => (p.2, p.1)) = Prod.fst := by
    funext ⟨a, b⟩; rfl
  rw [h2]
  exact List.Nodup.sublist (List.filter_sublist.map _) hd

theorem mem_keys_group {d : TypeDict} {p : Option Str} :
    p ∈ (groupTypes d).map Prod.fst ↔ ∃ t, (t, p) ∈ d := by
  rw [NamesBy.mem_keys_of]
  simp only [List.mem_map, Prod.mk.injEq]
  constructor
  · rintro ⟨x, ⟨a, b⟩, h, rfl, rfl⟩; exact ⟨_, h⟩
  · rintro ⟨t, h⟩; exact ⟨t, _, h, rfl, rfl⟩

theorem mem_parentKeys {d : TypeDict} (hd : IsDict d) {p : Str} :
    p ∈ parentKeys (groupTypes d) ↔ p ≠ s%"object" ∧ ∃ t, d.lookup t = some (some p) := by
  unfold parentKeys
  rw [mem_sortedStr]
  simp only [List.mem_filter, List.mem_filterMap, decide_eq_true_eq]
  rw [and_comm]
  refine and_congr_right fun _ => ?_
  have : (∃ a ∈ groupTypes d, a.1 = some p) ↔ some p ∈ (groupTypes d).map Prod.fst := by
    simp [List.mem_map]
  rw [this, mem_keys_group]
  simp only [mem_of_lookup hd]

theorem parentKeys_nodup {d : NamesBy} (hd : (d.map Prod.fst).Nodup) : (parentKeys d).Nodup := by
  unfold parentKeys
  refine (sortedStr_perm _).nodup_iff.2 (List.Nodup.filter _ ?_)
  have : d.filterMap Prod.fst = (d.map Prod.fst).filterMap id := by rw [List.filterMap_map]; rfl
  rw [this]
  exact hd.filterMap (by intro a a' b h h'; simp at h h'; rw [h, h'])

theorem mem_noParents {d : TypeDict} (hd : IsDict d) (hne : ∀ t, d.lookup t ≠ some (some [])) {t : Str} :
    t ∈ noParents (groupTypes d) ↔ ListedUnder d t s%"object" := by
  unfold noParents strSet
  simp only [List.mem_filter, decide_eq_true_eq, mem_dedup, List.mem_append, mem_groupTypes hd]
  have hkey : t ∈ (groupTypes d).filterMap Prod.fst ↔ ∃ a, d.lookup a = some (some t) := by
    have : t ∈ (groupTypes d).filterMap Prod.fst ↔ some t ∈ (groupTypes d).map Prod.fst := by
      simp [List.mem_filterMap, List.mem_map]
    rw [this, mem_keys_group]
    simp only [mem_of_lookup hd]
  have hsub : t ∈ ((groupTypes d).map Prod.snd).flatten ↔ ∃ p, d.lookup t = some p := by
    simp only [List.mem_flatten, List.mem_map]
    constructor
    · rintro ⟨_, ⟨q, hq, rfl⟩, ht⟩
      refine ⟨q.1, ?_⟩
      rw [← mem_groupTypes hd, NamesBy.get_of_mem (NamesBy.nodup_of _) hq]
      exact ht
    · rintro ⟨p, hp⟩
      have hk : p ∈ (groupTypes d).map Prod.fst := mem_keys_group.2 ⟨t, lookup_mem hp⟩
      obtain ⟨q, hq, rfl⟩ := List.mem_map.1 hk
      refine ⟨_, ⟨q, hq, rfl⟩, ?_⟩
      rw [← NamesBy.get_of_mem (NamesBy.nodup_of _) hq]
      exact (mem_groupTypes hd).2 hp
  rw [hkey, hsub]
  constructor
  · rintro ⟨h, hobj⟩
    refine .top ?_ ?_ hobj
    · rcases h with (⟨⟨a, ha⟩, _⟩ | h) | h
      · refine ⟨_, lookup_mem ha, Or.inr ⟨rfl, ?_⟩⟩
        rintro rfl; exact hne _ ha
      · exact ⟨_, lookup_mem h, Or.inl rfl⟩
      · exact ⟨_, lookup_mem h, Or.inl rfl⟩
    · rintro p ⟨hp, _⟩
      rcases h with (⟨_, h⟩ | h) | h
      · exact absurd ⟨_, hp⟩ h
      · rw [h] at hp; simp at hp
      · rw [h] at hp; simpa [eq_comm] using hp
  · intro h
    cases h with
    | given _ h => exact absurd rfl h
    | top hdec hp hobj =>
      refine ⟨?_, hobj⟩
      cases hl : d.lookup t with
      | none =>
        left; left
        refine ⟨?_, by simp⟩
        obtain ⟨⟨a, b⟩, hm, e | ⟨e, _⟩⟩ := hdec
        · simp only at e; subst e
          rw [(mem_of_lookup hd).1 hm] at hl; simp at hl
        · simp only at e; subst e
          exact ⟨a, (mem_of_lookup hd).1 hm⟩
      | some q =>
        cases q with
        | none => left; right; rfl
        | some q =>
          right
          rw [hp q ⟨hl, fun e => hne t (e ▸ hl)⟩]

theorem noParents_nodup (d : NamesBy) : (noParents d).Nodup :=
  List.Nodup.filter _ (dedup_nodup _)

theorem Spec.ListedUnder.unique {d : TypeDict} {t p q : Str} (h : ListedUnder d t p) (h' : ListedUnder d t q) :
    p = q := by
  cases h with
  | given hp hpo =>
    cases h' with
    | given hq _ => have := hp.1.symm.trans hq.1; simpa using this
    | top _ hq _ => exact absurd (hq _ hp) hpo
  | top _ hp _ =>
    cases h' with
    | given hq hqo => exact absurd (hp _ hq) hqo
    | top => rfl

/-- The table that is printed. -/
theorem typesLines_ok {d : TypeDict} (hd : IsDict d) (hne : ∀ t, d.lookup t ≠ some (some []))
    (hac : ∀ a, ¬ Relation.TransGen (Parent d) a a) :
    ∃ ls, typesLines (groupTypes d) = .ok ls ∧
      TypeTable d ((sortedStr (noParents (groupTypes d)), s%"object") :: ls) ∧
      ∀ l ∈ ls, l.1 = sortedStr ((groupTypes d).get (some l.2)) := by
  have hpar : ∀ {a b}, Parent d a b ↔ d.lookup a = some (some b) :=
    ⟨fun h => h.1, fun h => ⟨h, fun e => hne _ (e ▸ h)⟩⟩
  have hch : ¬ ∃ c : Nat → Str, ∀ i, c i ∈ (groupTypes d).get (some (c (i + 1))) := by
    rintro ⟨c, hc⟩
    exact no_chain hac ⟨c, fun i => hpar.2 ((mem_groupTypes hd).1 (hc i))⟩
  obtain ⟨ls, hls, hL⟩ := typesLoop_ok (groupTypes d) hch
    ((parentKeys (groupTypes d)).length.succ * (parentKeys (groupTypes d)).length.succ)
    (parentKeys (groupTypes d)) 0
    (parentKeys_nodup (NamesBy.nodup_of _)) (by simp) (by omega) (by
      rw [Nat.succ_eq_add_one, Nat.add_mul]; omega)
  have hsnd : ∀ {p}, p ∈ ls.map Prod.snd ↔ p ≠ s%"object" ∧ ∃ t, d.lookup t = some (some p) := by
    intro p; rw [hL.perm.mem_iff, mem_parentKeys hd]
  have hunder : ∀ l ∈ (sortedStr (noParents (groupTypes d)), s%"object") :: ls, ∀ t, t ∈ l.1 → ListedUnder d t l.2 := by
    intro l hl t ht
    rcases List.mem_cons.1 hl with rfl | hl
    · exact (mem_noParents hd hne).1 (mem_sortedStr.1 ht)
    · rw [hL.subs l hl, mem_sortedStr, mem_groupTypes hd] at ht
      exact .given (hpar.2 ht) (hsnd.1 (List.mem_map.2 ⟨l, hl, rfl⟩)).1
  have hgroups : (((sortedStr (noParents (groupTypes d)), s%"object") :: ls).map Prod.snd).Nodup := by
    simp only [List.map_cons, List.nodup_cons]
    exact ⟨fun h => (hsnd.1 h).1 rfl, hL.perm.nodup_iff.2 (parentKeys_nodup (NamesBy.nodup_of _))⟩
  refine ⟨ls, hls, ⟨?_, ?_, hgroups, ?_⟩, hL.subs⟩
  · intro t p
    constructor
    · rintro ⟨l, hl, rfl, ht⟩; exact hunder l hl t ht
    · intro h
      cases h with
      | top h1 h2 h3 =>
        exact ⟨_, List.mem_cons_self, rfl, mem_sortedStr.2 ((mem_noParents hd hne).2 (.top h1 h2 h3))⟩
      | given hp hpo =>
        obtain ⟨l, hl, rfl⟩ := List.mem_map.1 (hsnd.2 ⟨hpo, t, hp.1⟩)
        refine ⟨l, List.mem_cons_of_mem _ hl, rfl, ?_⟩
        rw [hL.subs l hl, mem_sortedStr, mem_groupTypes hd]
        exact hp.1
  · rw [List.nodup_flatMap]
    constructor
    · intro l hl
      rcases List.mem_cons.1 hl with rfl | hl
      · exact (sortedStr_perm _).nodup_iff.2 (noParents_nodup _)
      · rw [hL.subs l hl]
        exact (sortedStr_perm _).nodup_iff.2 (groupTypes_nodup hd _)
    · have hpw := hgroups
      rw [List.Nodup, List.pairwise_map] at hpw
      refine hpw.imp_of_mem ?_
      intro a b ha hb hab x hxa hxb
      exact hab ((hunder a ha x hxa).unique (hunder b hb x hxb))
  · intro A l B h
    cases A with
    | nil =>
      simp only [List.nil_append, List.cons.injEq] at h
      obtain ⟨rfl, _⟩ := h
      left; rfl
    | cons a A =>
      simp only [List.cons_append, List.cons.injEq] at h
      obtain ⟨rfl, h⟩ := h
      right
      have hl : l ∈ ls := by rw [h]; simp
      obtain ⟨hlo, t, ht⟩ := hsnd.1 (List.mem_map.2 ⟨l, hl, rfl⟩)
      have hdec : Declared d l.2 := ⟨_, lookup_mem ht, Or.inr ⟨rfl, fun e => hne _ (e ▸ ht)⟩⟩
      by_cases hq : ∃ q, Parent d l.2 q ∧ q ≠ s%"object"
      · obtain ⟨q, hq, hqo⟩ := hq
        have hq' := hsnd.2 ⟨hqo, l.2, hq.1⟩
        obtain ⟨m, hm, rfl⟩ := List.mem_map.1 hq'
        have hin : l.2 ∈ (groupTypes d).get (some m.2) := (mem_groupTypes hd).2 hq.1
        rw [h, List.mem_append] at hm
        rcases hm with hm | hm
        · refine ⟨m, List.mem_cons_of_mem _ hm, ?_⟩
          rw [hL.subs m (by rw [h]; simp [hm]), mem_sortedStr]
          exact hin
        · exact absurd hin (hL.order A l B h m hm)
      · push Not at hq
        exact ⟨_, List.mem_cons_self, mem_sortedStr.2 ((mem_noParents hd hne).2 (.top hdec hq hlo))⟩

end Pddl
