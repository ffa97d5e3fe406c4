/-
Grouping names by type (pddl/formatter.py:66-68, 78-80).
-/
import Verif.Model.Print
import Verif.Proofs.Basic
import Verif.Proofs.Order

namespace Pddl

theorem NamesBy.any_iff {d : NamesBy} {k : Option Str} :
    d.any (fun p => decide (p.1 = k)) = true ↔ k ∈ d.map Prod.fst := by
  simp [List.any_eq_true]

/-- What a group holds. -/
theorem NamesBy.get_of_mem {d : NamesBy} (hd : (d.map Prod.fst).Nodup) {p : Option Str × List Str} (hp : p ∈ d) :
    d.get p.1 = p.2 := by
  unfold NamesBy.get
  induction d with
  | nil => simp at hp
  | cons q d ih =>
    simp only [List.map_cons, List.nodup_cons] at hd
    rcases List.mem_cons.1 hp with rfl | hp
    · simp
    · have : ¬ q.1 = p.1 := fun e => hd.1 (e ▸ List.mem_map.2 ⟨p, hp, rfl⟩)
      rw [List.find?_cons_of_neg (by simpa using this)]
      exact ih hd.2 hp

theorem NamesBy.get_none {d : NamesBy} {k : Option Str} (h : k ∉ d.map Prod.fst) : d.get k = [] := by
  unfold NamesBy.get
  rw [List.find?_eq_none.2]
  intro p hp e
  exact h (by rw [← (by simpa using e : p.1 = k)]; exact List.mem_map.2 ⟨p, hp, rfl⟩)

theorem NamesBy.keys_add {d : NamesBy} {k : Option Str} {x : Str} :
    (d.add k x).map Prod.fst = if k ∈ d.map Prod.fst then d.map Prod.fst else d.map Prod.fst ++ [k] := by
  unfold NamesBy.add
  by_cases h : d.any (fun p => decide (p.1 = k)) = true
  · rw [if_pos h, if_pos (NamesBy.any_iff.1 h), List.map_map]
    apply List.map_congr_left
    intro p _
    simp only [Function.comp]
    split <;> rfl
  · rw [if_neg h, if_neg (fun h' => h (NamesBy.any_iff.2 h'))]
    simp

theorem NamesBy.nodup_add {d : NamesBy} (hd : (d.map Prod.fst).Nodup) {k : Option Str} {x : Str} :
    ((d.add k x).map Prod.fst).Nodup := by
  rw [NamesBy.keys_add]
  split
  · exact hd
  · rename_i h
    rw [List.nodup_append]
    refine ⟨hd, by simp, ?_⟩
    intro a ha b hb e
    simp at hb; subst hb; subst e; exact h ha

theorem NamesBy.get_add {d : NamesBy} {k k' : Option Str} {x : Str} :
    (d.add k x).get k' = if k' = k then d.get k ++ [x] else d.get k' := by
  unfold NamesBy.add
  by_cases h : d.any (fun p => decide (p.1 = k)) = true
  · rw [if_pos h]
    have hm := NamesBy.any_iff.1 h
    clear h
    induction d with
    | nil => simp at hm
    | cons q d ih =>
      by_cases hq : q.1 = k
      · subst hq
        by_cases hk : k' = q.1
        · subst hk; simp [NamesBy.get]
        · have h1 : ¬ q.1 = k' := fun e => hk e.symm
          simp only [NamesBy.get, List.map_cons, if_true, if_neg hk]
          rw [List.find?_cons_of_neg (by simpa using h1), List.find?_cons_of_neg (by simpa using h1)]
          by_cases hm2 : q.1 ∈ d.map Prod.fst
          · have := ih hm2
            rw [if_neg hk] at this
            simpa [NamesBy.get] using this
          · have : d.map (fun p => if p.1 = q.1 then (p.1, p.2 ++ [x]) else p) = d := by
              conv_rhs => rw [← List.map_id d]
              apply List.map_congr_left
              intro p hp
              have h2 : ¬ p.1 = q.1 := fun e => hm2 (e ▸ List.mem_map.2 ⟨p, hp, rfl⟩)
              rw [if_neg h2]; rfl
            rw [this]
      · have hm2 : k ∈ d.map Prod.fst := by
          simp only [List.map_cons, List.mem_cons] at hm
          exact hm.resolve_left (fun e => hq e.symm)
        have := ih hm2
        by_cases hk : k' = q.1
        · subst hk
          simp [NamesBy.get, hq]
        · have h1 : ¬ q.1 = k' := fun e => hk e.symm
          simp only [NamesBy.get, List.map_cons, if_neg hq] at this ⊢
          simp only [List.find?_cons, decide_eq_false h1, decide_eq_false hq] at this ⊢
          exact this
  · rw [if_neg h]
    have hm : k ∉ d.map Prod.fst := fun h' => h (NamesBy.any_iff.2 h')
    by_cases hk : k' = k
    · subst hk
      rw [if_pos rfl, NamesBy.get_none hm]
      unfold NamesBy.get
      have : d.find? (fun p => decide (p.1 = k')) = none := by
        rw [List.find?_eq_none]
        intro p hp e
        exact hm (by rw [← (by simpa using e : p.1 = k')]; exact List.mem_map.2 ⟨p, hp, rfl⟩)
      rw [List.find?_append, this]
      simp
    · rw [if_neg hk]
      have h1 : ¬ k = k' := fun e => hk e.symm
      unfold NamesBy.get
      rw [List.find?_append]
      have : [(k, [x])].find? (fun p => decide (p.1 = k')) = none := by
        simp [h1]
      rw [this]; simp

theorem NamesBy.of_snoc (l : List (Option Str × Str)) (p : Option Str × Str) :
    NamesBy.of (l ++ [p]) = (NamesBy.of l).add p.1 p.2 := by
  simp [NamesBy.of, List.foldl_append]

theorem NamesBy.get_of (l : List (Option Str × Str)) (k : Option Str) :
    (NamesBy.of l).get k = (l.filter (fun p => decide (p.1 = k))).map Prod.snd := by
  induction l using List.reverseRecOn with
  | nil => rfl
  | append_singleton l p ih =>
    rw [NamesBy.of_snoc, NamesBy.get_add, List.filter_append, List.map_append, ← ih]
    by_cases h : k = p.1
    · subst h; simp
    · have h1 : ¬ p.1 = k := fun e => h e.symm
      simp [h, h1]

theorem NamesBy.nodup_of (l : List (Option Str × Str)) : ((NamesBy.of l).map Prod.fst).Nodup := by
  induction l using List.reverseRecOn with
  | nil => simp [NamesBy.of]
  | append_singleton l p ih => rw [NamesBy.of_snoc]; exact NamesBy.nodup_add ih

theorem NamesBy.mem_keys_of (l : List (Option Str × Str)) (k : Option Str) :
    k ∈ (NamesBy.of l).map Prod.fst ↔ ∃ x, (k, x) ∈ l := by
  induction l using List.reverseRecOn with
  | nil => simp [NamesBy.of]
  | append_singleton l p ih =>
    rw [NamesBy.of_snoc, NamesBy.keys_add]
    obtain ⟨k', x'⟩ := p
    simp only [List.mem_append, List.mem_cons, Prod.mk.injEq, List.not_mem_nil, or_false]
    by_cases hk : k' ∈ (NamesBy.of l).map Prod.fst
    · rw [if_pos hk, ih]
      constructor
      · rintro ⟨x, hx⟩; exact ⟨x, Or.inl hx⟩
      · rintro ⟨x, hx | ⟨rfl, rfl⟩⟩
        · exact ⟨x, hx⟩
        · exact ih.1 hk
    · rw [if_neg hk, List.mem_append, ih]
      constructor
      · rintro (⟨x, hx⟩ | h)
        · exact ⟨x, Or.inl hx⟩
        · simp at h; subst h; exact ⟨x', Or.inr ⟨rfl, rfl⟩⟩
      · rintro ⟨x, hx | ⟨rfl, rfl⟩⟩
        · exact Or.inl ⟨x, hx⟩
        · right; simp

theorem NamesBy.get_mem {l : List (Option Str × Str)} {k : Option Str} {x : Str} :
    x ∈ (NamesBy.of l).get k ↔ (k, x) ∈ l := by
  rw [NamesBy.get_of]
  simp only [List.mem_map, List.mem_filter, decide_eq_true_eq]
  constructor
  · rintro ⟨⟨a, b⟩, ⟨h1, rfl⟩, rfl⟩; exact h1
  · intro h; exact ⟨_, ⟨h, rfl⟩, rfl⟩

theorem NamesBy.mem_of {l : List (Option Str × Str)} {p : Option Str × List Str} (h : p ∈ NamesBy.of l) :
    p.2 = (l.filter (fun q => decide (q.1 = p.1))).map Prod.snd := by
  rw [← NamesBy.get_of, NamesBy.get_of_mem (NamesBy.nodup_of l) h]

end Pddl
