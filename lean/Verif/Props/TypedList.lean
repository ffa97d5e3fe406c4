/- C30, C31: typed lists. -/
import Verif.Proofs.TypedList

namespace Pddl.Props
open Pddl Spec

/-- A result entry carries the item and the set of types that were written for it. -/
def Carries (p : TTok × List Str) (q : Item × List Str) : Prop :=
  Denotes p.1 q.1 ∧ SameTypes q.2 p.2 ∧ q.2.Nodup

theorem carries_items {l : TypedList} (ok : l.Ok) : List.Forall₂ Carries l.assigned l.itemsOf := by
  have hi : ∀ p ∈ l.assigned, IsItem p.1 := by
    intro p hp
    simp only [TypedList.assigned, List.mem_append, List.mem_flatMap, List.mem_map] at hp
    rcases hp with ⟨g, hg, t, ht, rfl⟩ | ⟨t, ht, rfl⟩
    · exact ok.items g hg t ht
    · exact ok.rest t ht
  unfold TypedList.itemsOf
  generalize l.assigned = L at hi
  induction L with
  | nil => exact .nil
  | cons p L ih =>
    refine .cons ⟨?_, ?_, dedup_nodup _⟩ (ih (fun q hq => hi q (List.mem_cons_of_mem _ hq)))
    · have := hi p (by simp)
      cases h : p.1 with
      | str s => simp [toItem, Denotes, h]
      | fn f => simp [toItem, Denotes, h]
      | list l => rw [h] at this; exact absurd this (by simp [IsItem])
    · exact fun t => mem_dedup

theorem assigned_item {l : TypedList} (ok : l.Ok) {p} (hp : p ∈ l.assigned) : IsItem p.1 := by
  simp only [TypedList.assigned, List.mem_append, List.mem_flatMap, List.mem_map] at hp
  rcases hp with ⟨g, hg, t, ht, rfl⟩ | ⟨t, ht, rfl⟩
  · exact ok.items g hg t ht
  · exact ok.rest t ht

/-- Lists of variables: each occurrence, in order, with the types written after the next `-`. -/
theorem C30_variables (l : TypedList) (ok : l.Ok) (x : TIndex)
    (h : parseTypedList true l.tokens = .ok x) :
    List.Forall₂ Carries l.assigned x.variables := by
  rw [parseTypedList_eq true l ok] at h
  have hv : VInv ⟨[], []⟩ [] := ⟨rfl, by simp, by simp [TIndex.get], by simp [TIndex.get]⟩
  obtain ⟨h1, h2⟩ := addAll_true (L := l.itemsOf) hv
  by_cases hc : Compatible ([] ++ l.itemsOf)
  · obtain ⟨y, hy, hi⟩ := h1 hc
    rw [hy] at h; cases h
    rw [TIndex.variables, hi.seq]
    exact carries_items ok
  · rw [h2 hc] at h; simp at h

/-- Lists of names (and of functions): each item, in order, with the type written after
the next `-`, or none. -/
theorem C30_names (l : TypedList) (ok : l.Ok) (x : TIndex) (r : List (Item × Option Str))
    (h : parseTypedList false l.tokens = .ok x) (hr : x.names = .ok r) :
    List.Forall₂ (fun p q => Denotes p.1 q.1 ∧ SameTypes q.2.toList p.2) l.assigned r := by
  rw [parseTypedList_eq false l ok] at h
  obtain ⟨h1, h2⟩ := addAll_false (M := []) (L := l.itemsOf) List.Pairwise.nil
  by_cases hc : Unequal ([] ++ l.itemsOf)
  · rw [h1 hc] at h; cases h
    rw [TIndex.names, namesOf_eq] at hr
    split at hr
    · next hl =>
      simp only [Except.ok.injEq] at hr
      subst hr
      have hcar := carries_items ok
      simp only [List.nil_append] at hl ⊢
      generalize l.assigned = A at hcar
      generalize l.itemsOf = B at hcar hl
      induction hcar with
      | nil => exact .nil
      | @cons a b _ _ hab _ ih =>
        refine .cons ⟨hab.1, ?_⟩ (ih (fun p hp => hl p (List.mem_cons_of_mem _ hp)))
        have h1 := hl _ (List.mem_cons_self ..)
        intro t
        rw [← hab.2.1 t]
        revert h1
        match b with
        | (i, []) => simp
        | (i, [a]) => simp
        | (i, a :: b :: c) => simp
    · simp at hr
  · rw [h2 hc] at h; simp at h

/-- A list of variables is rejected (`ValueError`) iff a variable occurs with two different
type sets. -/
theorem C31_variables (l : TypedList) (ok : l.Ok) :
    parseTypedList true l.tokens = .error .value ↔
      ∃ p ∈ l.assigned, ∃ q ∈ l.assigned, SameItem p.1 q.1 ∧ ¬ SameTypes p.2 q.2 := by
  rw [parseTypedList_eq true l ok]
  have hv : VInv ⟨[], []⟩ [] := ⟨rfl, by simp, by simp [TIndex.get], by simp [TIndex.get]⟩
  obtain ⟨h1, h2⟩ := addAll_true (L := l.itemsOf) hv
  have hdd : ∀ a b : List Str, SameTypes (dd a) (dd b) ↔ SameTypes a b := by
    intro a b
    unfold SameTypes
    simp only [dd, mem_dedup]
  have key : Compatible ([] ++ l.itemsOf) ↔
      ¬ ∃ p ∈ l.assigned, ∃ q ∈ l.assigned, SameItem p.1 q.1 ∧ ¬ SameTypes p.2 q.2 := by
    unfold Compatible TypedList.itemsOf
    push Not
    simp only [List.nil_append, List.mem_map, forall_exists_index, and_imp, forall_apply_eq_imp_iff₂, hdd]
    constructor
    · intro h p hp q hq e
      exact h p hp q hq ((sameItem_iff (assigned_item ok hp) (assigned_item ok hq)).mp e)
    · intro h p hp q hq e
      exact h p hp q hq ((sameItem_iff (assigned_item ok hp) (assigned_item ok hq)).mpr e)
  constructor
  · intro h
    by_contra hc
    obtain ⟨y, hy, _⟩ := h1 (key.mpr hc)
    rw [hy] at h; simp at h
  · intro h
    exact h2 (fun hc => key.mp hc h)

/-- Otherwise it is accepted. -/
theorem C31_variables_accepted (l : TypedList) (ok : l.Ok) :
    (∃ x, parseTypedList true l.tokens = .ok x) ↔
      ∀ p ∈ l.assigned, ∀ q ∈ l.assigned, SameItem p.1 q.1 → SameTypes p.2 q.2 := by
  have h := C31_variables l ok
  have hv : VInv ⟨[], []⟩ [] := ⟨rfl, by simp, by simp [TIndex.get], by simp [TIndex.get]⟩
  constructor
  · rintro ⟨x, hx⟩ p hp q hq e
    by_contra hn
    rw [h.mpr ⟨p, hp, q, hq, e, hn⟩] at hx
    simp at hx
  · intro hc
    cases hx : parseTypedList true l.tokens with
    | ok x => exact ⟨x, rfl⟩
    | error e =>
      have he : e = .value := by
        rw [parseTypedList_eq true l ok] at hx
        obtain ⟨h1, h2⟩ := addAll_true (L := l.itemsOf) hv
        by_cases hcomp : Compatible ([] ++ l.itemsOf)
        · obtain ⟨y, hy, _⟩ := h1 hcomp; rw [hy] at hx; simp at hx
        · rw [h2 hcomp] at hx; simpa using hx.symm
      subst he
      obtain ⟨p, hp, q, hq, e, hn⟩ := h.mp hx
      exact absurd (hc p hp q hq e) hn

/-- A list of names is accepted iff no item occurs twice and none has two different types;
otherwise `ValueError`. -/
theorem C31_names (l : TypedList) (ok : l.Ok) :
    ((∃ r, (parseTypedList false l.tokens >>= TIndex.names) = .ok r) ↔
      l.assigned.Pairwise (fun p q => ¬ SameItem p.1 q.1) ∧
      ∀ p ∈ l.assigned, ∀ a ∈ p.2, ∀ b ∈ p.2, a = b) ∧
    ((parseTypedList false l.tokens >>= TIndex.names) = .error .value ↔
      ¬ (l.assigned.Pairwise (fun p q => ¬ SameItem p.1 q.1) ∧
      ∀ p ∈ l.assigned, ∀ a ∈ p.2, ∀ b ∈ p.2, a = b)) := by
  rw [parseTypedList_eq false l ok]
  obtain ⟨h1, h2⟩ := addAll_false (M := []) (L := l.itemsOf) List.Pairwise.nil
  have key : Unequal ([] ++ l.itemsOf) ↔ l.assigned.Pairwise (fun p q => ¬ SameItem p.1 q.1) := by
    unfold Unequal TypedList.itemsOf
    rw [List.nil_append, List.pairwise_map]
    constructor
    · intro h
      refine (List.pairwise_iff_forall_sublist.mpr fun {p q} hs => ?_)
      have := (List.pairwise_iff_forall_sublist.mp h) hs
      have hp : p ∈ l.assigned := hs.subset (by simp)
      have hq : q ∈ l.assigned := hs.subset (by simp)
      rw [sameItem_iff (assigned_item ok hp) (assigned_item ok hq), Item.pyEq_comm]
      simp only at this
      simp [this]
    · intro h
      refine (List.pairwise_iff_forall_sublist.mpr fun {p q} hs => ?_)
      have := (List.pairwise_iff_forall_sublist.mp h) hs
      have hp : p ∈ l.assigned := hs.subset (by simp)
      have hq : q ∈ l.assigned := hs.subset (by simp)
      rw [sameItem_iff (assigned_item ok hp) (assigned_item ok hq), Item.pyEq_comm] at this
      simpa using this
  have key2 : (∀ p ∈ l.itemsOf, p.2.length ≤ 1) ↔ ∀ p ∈ l.assigned, ∀ a ∈ p.2, ∀ b ∈ p.2, a = b := by
    unfold TypedList.itemsOf
    simp only [List.mem_map, forall_exists_index, and_imp, forall_apply_eq_imp_iff₂]
    refine forall_congr' fun p => imp_congr_right fun _ => ?_
    constructor
    · intro h a ha b hb
      have ha' : a ∈ dd p.2 := mem_dedup.mpr ha
      have hb' : b ∈ dd p.2 := mem_dedup.mpr hb
      match dd p.2, h, ha', hb' with
      | [x], _, ha, hb => simp at ha hb; rw [ha, hb]
    · intro h
      have hn : (dd p.2).Nodup := dedup_nodup _
      have hm : ∀ a ∈ dd p.2, ∀ b ∈ dd p.2, a = b := fun a ha b hb =>
        h a (mem_dedup.mp ha) b (mem_dedup.mp hb)
      match dd p.2, hn, hm with
      | [], _, _ => simp
      | [x], _, _ => simp
      | x :: y :: r, hn, hm =>
        have := hm x (by simp) y (by simp)
        subst this
        simp at hn
  rw [← key, ← key2]
  by_cases hc : Unequal ([] ++ l.itemsOf)
  · rw [h1 hc]
    simp only [ok_bind, TIndex.names, namesOf_eq, List.nil_append] at hc ⊢
    by_cases hl : ∀ p ∈ l.itemsOf, p.2.length ≤ 1
    · rw [if_pos hl]; simp only [hc, true_and]; exact ⟨by simpa using hl, by simpa using hl⟩
    · rw [if_neg hl]; simp only [hc, true_and]
      exact ⟨⟨by simp, fun h => absurd h hl⟩, ⟨fun _ => hl, fun _ => trivial⟩⟩
  · rw [h2 hc]
    simp only [List.nil_append] at hc
    simp [hc]

/-- `?x ?y - truck ?z`. -/
def demoVars : TypedList :=
  ⟨[([.str (s%"x"), .str (s%"y")], .list [s%"truck", s%"car"]), ([.str (s%"x")], .list [s%"car", s%"truck"])],
   [.str (s%"z")]⟩
theorem demoVars_ok : demoVars.Ok := by
  have hx : ∀ s ∈ [s%"x", s%"y", s%"z", s%"truck", s%"car"], ValidName s := by
    intro s hs
    rw [valid_iff]
    revert s
    decide +kernel
  refine ⟨?_, ?_, ?_⟩ <;> intro a ha
  · simp [demoVars] at ha
    rcases ha with rfl | rfl <;> intro t ht <;> simp at ht
    · rcases ht with rfl | rfl <;> exact hx _ (by simp)
    · subst ht; exact hx _ (by simp)
  · simp [demoVars] at ha; subst ha; exact hx _ (by simp)
  · simp [demoVars] at ha
    rcases ha with rfl | rfl <;> intro t ht <;> simp at ht <;> rcases ht with rfl | rfl <;>
      exact .inl (hx _ (by simp))
example : ∃ x, parseTypedList true demoVars.tokens = .ok x ∧ x.variables.length = 4 := ⟨_, rfl, rfl⟩
example : parseTypedList true [.str (s%"x"), .str (s%"x"), .str (s%"-"), .list [s%"t"], .str (s%"x")]
    = .error .value := by rfl
example : parseTypedList false demoVars.tokens = .error .value := by rfl

end Pddl.Props
