/- The typed list parser: index arithmetic, duplicates. -/
import Verif.Spec.TypedList
import Verif.Proofs.Names
import Verif.Proofs.EqDomain

namespace Pddl
open Spec

/-! ### Items -/

def toItem : TTok → Item
  | .str s => .name s
  | .fn f => .fn f
  | .list _ => .name []

abbrev dd (l : List Str) : List Str := dedupBy (fun a b => decide (a = b)) l

theorem Item.pyEq_refl (i : Item) : i.pyEq i = true := by
  cases i <;> simp [Item.pyEq, NFun.pyEq_refl]
theorem Item.pyEq_symm {i j : Item} (h : i.pyEq j = true) : j.pyEq i = true := by
  cases i <;> cases j <;> simp [Item.pyEq] at h ⊢
  · exact h.symm
  · exact NFun.pyEq_symm h
theorem Item.pyEq_trans {i j k : Item} (h : i.pyEq j = true) (h' : j.pyEq k = true) :
    i.pyEq k = true := by
  cases i <;> cases j <;> simp [Item.pyEq] at h <;> cases k <;> simp [Item.pyEq] at h' ⊢
  · exact h.trans h'
  · exact NFun.pyEq_trans h h'
theorem Item.pyEq_congr {i j k : Item} (h : i.pyEq j = true) : i.pyEq k = j.pyEq k := by
  rw [Bool.eq_iff_iff]
  exact ⟨fun h' => pyEq_trans (pyEq_symm h) h', fun h' => pyEq_trans h h'⟩
theorem Item.pyEq_comm {i j : Item} : i.pyEq j = j.pyEq i := by
  rw [Bool.eq_iff_iff]; exact ⟨pyEq_symm, pyEq_symm⟩

theorem sameItem_iff {a b : TTok} (ha : IsItem a) (hb : IsItem b) :
    SameItem a b ↔ (toItem a).pyEq (toItem b) = true := by
  cases a <;> cases b <;> simp_all [SameItem, toItem, Item.pyEq, IsItem]

theorem item_ok {t : TTok} (h : IsItem t) : t.item = .ok (toItem t) := by
  cases t with
  | str s => simp [TTok.item, parseName_of_valid h, toItem]
  | fn f => rfl
  | list l => exact absurd h (by simp [IsItem])

theorem not_sep_of_item {t : TTok} (h : IsItem t) : t.isSep = false := by
  cases t with
  | str s =>
    simp only [TTok.isSep, decide_eq_false_iff_not]
    rintro rfl
    have := (valid_iff _).mp h
    revert this
    decide
  | fn f => rfl
  | list l => rfl

/-! ### The loop -/

def addAll (ad : Bool) : TIndex → List (Item × List Str) → Except Exc TIndex
  | x, [] => pure x
  | x, p :: l => do
    let x' ← x.addItem ad p.1 p.2
    addAll ad x' l

theorem addAll_append (ad : Bool) (x : TIndex) (a b : List (Item × List Str)) :
    addAll ad x (a ++ b) = (do let y ← addAll ad x a; addAll ad y b) := by
  induction a generalizing x with
  | nil => simp [addAll]
  | cons p a ih =>
    simp only [List.cons_append, addAll]
    cases x.addItem ad p.1 p.2 with
    | error e => rfl
    | ok y => simp only [ok_bind]; exact ih y

theorem addTypedLists_eq {ad : Bool} {tags : List Str} {ts : List TTok} (hi : ∀ t ∈ ts, IsItem t)
    (ht : ∀ t ∈ tags, ValidType t) (x : TIndex) :
    addTypedLists ad tags x ts = addAll ad x (ts.map (fun t => (toItem t, dd tags))) := by
  induction ts generalizing x with
  | nil => rfl
  | cons t ts ih =>
    have h1 := item_ok (hi t (by simp))
    have h2 : tags.mapM parseType = .ok tags := toType_ok.mpr ⟨rfl, ht⟩
    simp only [addTypedLists, h1, ok_bind, h2, List.map_cons, addAll]
    cases x.addItem ad (toItem t) (dd tags) with
    | error e => rfl
    | ok y => simp only [ok_bind]; exact ih (fun t h => hi t (List.mem_cons_of_mem _ h)) y

theorem sepIndex_append (pre items : List TTok) (t : TTok) (more : List TTok)
    (hi : ∀ t ∈ items, t.isSep = false) :
    sepIndex (pre ++ (items ++ [.str (s%"-"), t] ++ more)) pre.length
      = some (pre.length + items.length) := by
  have : (items ++ [TTok.str (s%"-"), t] ++ more).findIdx? TTok.isSep = some items.length := by
    rw [List.append_assoc, List.findIdx?_append]
    have h0 : items.findIdx? TTok.isSep = none := by
      rw [List.findIdx?_eq_none_iff]; exact hi
    rw [h0]
    simp [List.findIdx?_cons, TTok.isSep]
  rw [sepIndex, List.drop_left, this]
  simp [Nat.add_comm]

theorem sepIndex_none (pre items : List TTok) (hi : ∀ t ∈ items, t.isSep = false) :
    sepIndex (pre ++ items) pre.length = none := by
  rw [sepIndex, List.drop_left]
  have h0 : items.findIdx? TTok.isSep = none := by
    rw [List.findIdx?_eq_none_iff]; exact hi
  rw [h0]; rfl

def Spec.TypedList.itemsOf (l : TypedList) : List (Item × List Str) :=
  l.assigned.map (fun p => (toItem p.1, dd p.2))

theorem dd_idem (l : List Str) : dd (dd l) = dd l := dedupBy_idem l

theorem dd_nil : dd [] = [] := rfl

theorem parents_ok {t : TTok} (h : IsTypes t) :
    ∃ ps, t.parents = .ok ps ∧ dd ps = dd (typesOf t) ∧ ∀ x ∈ ps, ValidType x := by
  cases t with
  | str s => exact ⟨[s], rfl, rfl, by intro x hx; simp at hx; subst hx; exact h⟩
  | list l => exact ⟨dd l, rfl, dd_idem l, fun x hx => h x (mem_dedup.mp hx)⟩
  | fn f => exact absurd h (by simp [IsTypes])

theorem typedLoop_eq (ad : Bool) (l : TypedList) (ok : l.Ok) (pre : List TTok) (x : TIndex)
    (fuel : Nat) (hf : l.groups.length < fuel) :
    typedLoop ad (pre ++ l.tokens) fuel pre.length x = addAll ad x (TypedList.itemsOf l) := by
  obtain ⟨gs, rest⟩ := l
  induction gs generalizing pre x fuel with
  | nil =>
    obtain ⟨n, rfl⟩ : ∃ n, fuel = n + 1 := ⟨fuel - 1, by simp at hf; omega⟩
    have hr : ∀ t ∈ rest, IsItem t := ok.rest
    simp only [TypedList.tokens, List.flatMap_nil, List.nil_append, typedLoop,
      sepIndex_none pre rest (fun t h => not_sep_of_item (hr t h)), TypedList.itemsOf,
      TypedList.assigned, List.map_map]
    by_cases he : rest = []
    · subst he; simp [addAll]
    · rw [if_pos (by
        simp only [List.length_append, ne_eq]
        have : rest.length ≠ 0 := by simpa using he
        omega)]
      have : slice (pre ++ rest) pre.length (pre ++ rest).length = rest := by
        unfold slice
        rw [List.take_of_length_le (by omega), List.drop_left]
      rw [this, addTypedLists_eq hr (by simp)]
      rfl
  | cons g gs ih =>
    obtain ⟨items, t⟩ := g
    obtain ⟨n, rfl⟩ : ∃ n, fuel = n + 1 := ⟨fuel - 1, by simp at hf; omega⟩
    have hi : ∀ t ∈ items, IsItem t := ok.items (items, t) (by simp)
    obtain ⟨ps, hp, hd, hv⟩ := parents_ok (ok.types (items, t) (by simp))
    have htok : TypedList.tokens ⟨(items, t) :: gs, rest⟩
        = items ++ [.str (s%"-"), t] ++ TypedList.tokens ⟨gs, rest⟩ := by
      simp [TypedList.tokens, List.append_assoc]
    rw [htok, typedLoop, sepIndex_append _ _ _ _ (fun t h => not_sep_of_item (hi t h))]
    have hget : (pre ++ (items ++ [TTok.str (s%"-"), t] ++ TypedList.tokens ⟨gs, rest⟩))[pre.length + items.length + 1]? = some t := by
      rw [List.getElem?_append_right (by omega)]
      rw [List.append_assoc, List.getElem?_append_right (by omega)]
      have : pre.length + items.length + 1 - pre.length - items.length = 1 := by omega
      rw [this]; rfl
    have hslice : slice (pre ++ (items ++ [TTok.str (s%"-"), t] ++ TypedList.tokens ⟨gs, rest⟩)) pre.length
        (pre.length + items.length) = items := by
      unfold slice
      rw [List.take_append, List.take_of_length_le (by omega), List.drop_left]
      have : pre.length + items.length - pre.length = items.length := by omega
      rw [this, List.append_assoc, List.take_left]
    simp only [hget, hp, ok_bind, hslice]
    rw [addTypedLists_eq hi hv]
    have hitems : TypedList.itemsOf ⟨(items, t) :: gs, rest⟩
        = items.map (fun u => (toItem u, dd (typesOf t))) ++ TypedList.itemsOf ⟨gs, rest⟩ := by
      simp [TypedList.itemsOf, TypedList.assigned, Function.comp_def]
    rw [hitems, addAll_append, hd]
    cases addAll ad x (items.map (fun u => (toItem u, dd (typesOf t)))) with
    | error e => rfl
    | ok y =>
      simp only [ok_bind]
      have ok' : TypedList.Ok ⟨gs, rest⟩ := ⟨fun g hg => ok.items g (List.mem_cons_of_mem _ hg), ok.rest,
        fun g hg => ok.types g (List.mem_cons_of_mem _ hg)⟩
      have := ih (pre := pre ++ items ++ [.str (s%"-"), t]) (x := y) (fuel := n) ok' (by simp at hf ⊢; omega)
      have hlen : (pre ++ items ++ [TTok.str (s%"-"), t]).length = pre.length + items.length + 2 := by
        simp; omega
      rw [hlen] at this
      rw [← this]
      simp [List.append_assoc]

theorem groups_le (l : TypedList) : l.groups.length ≤ l.tokens.length := by
  obtain ⟨gs, rest⟩ := l
  induction gs with
  | nil => simp
  | cons g gs ih =>
    simp only [TypedList.tokens, List.flatMap_cons, List.length_cons, List.length_append] at ih ⊢
    simp at ih ⊢
    omega

theorem parseTypedList_eq (ad : Bool) (l : TypedList) (ok : l.Ok) :
    parseTypedList ad l.tokens = addAll ad ⟨[], []⟩ (TypedList.itemsOf l) := by
  have := typedLoop_eq ad l ok [] ⟨[], []⟩ (l.tokens.length + 1) (by have := groups_le l; omega)
  simpa [parseTypedList] using this

/-! ### Adding items -/

theorem get_add (x : TIndex) (i j : Item) (tags : List Str) :
    (x.add i tags).get j = if j.pyEq i = true
      then some (match x.get i with
        | none => tags
        | some old => old ++ tags.filter (fun t => decide (t ∉ old)))
      else x.get j := by
  obtain ⟨m, s⟩ := x
  simp only [TIndex.get, TIndex.add]
  induction m with
  | nil =>
    cases h : j.pyEq i <;> simp [h]
  | cons p m ih =>
    by_cases hp : i.pyEq p.1 = true
    · by_cases hj : j.pyEq i = true
      · have := Item.pyEq_trans hj hp
        simp [hp, hj, this]
      · have hjp : j.pyEq p.1 = false := by
          by_contra h
          simp only [Bool.not_eq_false] at h
          exact hj (Item.pyEq_trans h (Item.pyEq_symm hp))
        simp only [hj, List.any_cons, hp, Bool.true_or, if_true, List.map_cons, List.find?_cons, hjp,
          if_false, Bool.false_eq_true]
        clear ih
        have key : ∀ m : List (Item × List Str), List.find? (fun p => j.pyEq p.1)
            (m.map (fun p => if i.pyEq p.1 = true then (p.1, p.2 ++ tags.filter (fun t => decide (t ∉ p.2))) else p))
            = List.find? (fun p => j.pyEq p.1) m := by
          intro m
          induction m with
          | nil => rfl
          | cons q m ih =>
            simp only [List.map_cons, List.find?_cons]
            cases hq : i.pyEq q.1 with
            | true =>
              have hjq : j.pyEq q.1 = false := by
                by_contra h
                simp only [Bool.not_eq_false] at h
                exact hj (Item.pyEq_trans h (Item.pyEq_symm hq))
              simp only [if_true, hjq]
              exact ih
            | false =>
              simp only [Bool.false_eq_true, if_false]
              rw [ih]
        rw [key]
    · simp only [Bool.not_eq_true] at hp
      by_cases hany : m.any (fun p => i.pyEq p.1) = true
      · simp only [hany, if_true] at ih
        simp only [List.any_cons, hp, hany, Bool.false_or, if_true, List.map_cons, Bool.false_eq_true,
          if_false, List.find?_cons]
        cases hjp : j.pyEq p.1 with
        | false => simpa using ih
        | true =>
          have hj : j.pyEq i = false := by
            by_contra h
            simp only [Bool.not_eq_false] at h
            have := Item.pyEq_trans (Item.pyEq_symm h) hjp
            simp [hp] at this
          simp [hj]
      · simp only [hany, if_false] at ih
        simp only [List.any_cons, hp, hany, Bool.false_or, Bool.false_eq_true,
          if_false, List.find?_cons, List.cons_append]
        cases hjp : j.pyEq p.1 with
        | false => simpa using ih
        | true =>
          have hj : j.pyEq i = false := by
            by_contra h
            simp only [Bool.not_eq_false] at h
            have := Item.pyEq_trans (Item.pyEq_symm h) hjp
            simp [hp] at this
          simp [hj]

/-- What the index knows after the items `L` were added (variables). -/
structure VInv (x : TIndex) (L : List (Item × List Str)) : Prop where
  seq : x.sequence = L
  hnone : ∀ i, x.get i = none → ∀ p ∈ L, i.pyEq p.1 = false
  hsome : ∀ i old, x.get i = some old → ∀ p ∈ L, i.pyEq p.1 = true → SameTypes old p.2
  ex : ∀ i old, x.get i = some old → ∃ p ∈ L, i.pyEq p.1 = true

/-- Equal items have equal types. -/
def Compatible (L : List (Item × List Str)) : Prop :=
  ∀ p ∈ L, ∀ q ∈ L, p.1.pyEq q.1 = true → SameTypes p.2 q.2

theorem vinv_compatible {x L} (h : VInv x L) : Compatible L := by
  intro p hp q hq e
  cases hg : x.get p.1 with
  | none => have := h.hnone _ hg p hp; simp [Item.pyEq_refl] at this
  | some old =>
    have h1 := h.hsome _ _ hg p hp (Item.pyEq_refl _)
    have h2 := h.hsome _ _ hg q hq e
    exact fun t => (h1 t).symm.trans (h2 t)

theorem vinv_add {x L i tags} (h : VInv x L) (ok : ∀ old, x.get i = some old → SameTypes old tags) :
    VInv (x.add i tags) (L ++ [(i, tags)]) := by
  refine ⟨by simp [TIndex.add, h.seq], ?_, ?_, ?_⟩
  · intro j hj p hp
    rw [get_add] at hj
    split at hj
    · simp at hj
    · next hji =>
      rcases List.mem_append.mp hp with hp | hp
      · exact h.hnone j hj p hp
      · simp at hp; subst hp; simpa using hji
  · intro j old hj p hp e
    rw [get_add] at hj
    split at hj
    · next hji =>
      simp only [Option.some.injEq] at hj
      have hip : i.pyEq p.1 = true := Item.pyEq_trans (Item.pyEq_symm hji) e
      cases hg : x.get i with
      | none =>
        rw [hg] at hj; simp only at hj; subst hj
        rcases List.mem_append.mp hp with hp | hp
        · have := h.hnone i hg p hp; simp [hip] at this
        · simp at hp; subst hp; exact fun _ => Iff.rfl
      | some o =>
        rw [hg] at hj; simp only at hj
        have hs := ok o hg
        have : SameTypes old o := by
          subst hj
          intro t
          simp only [List.mem_append, List.mem_filter, decide_eq_true_eq]
          constructor
          · rintro (h | ⟨h, _⟩)
            · exact h
            · exact (hs t).mpr h
          · exact Or.inl
        rcases List.mem_append.mp hp with hp | hp
        · exact fun t => (this t).trans (h.hsome i o hg p hp hip t)
        · simp at hp; subst hp; exact fun t => (this t).trans (hs t)
    · next hji =>
      rcases List.mem_append.mp hp with hp | hp
      · exact h.hsome j old hj p hp e
      · simp at hp; subst hp; exact absurd e hji
  · intro j old hj
    rw [get_add] at hj
    split at hj
    · next hji => exact ⟨(i, tags), by simp, hji⟩
    · obtain ⟨p, hp, e⟩ := h.ex j old hj
      exact ⟨p, by simp [hp], e⟩

open Classical in
theorem addItem_true (x : TIndex) (i : Item) (tags : List Str) :
    x.addItem true i tags = if (∀ old, x.get i = some old → SameTypes old tags)
      then .ok (x.add i tags) else .error .value := by
  unfold TIndex.addItem
  cases hg : x.get i with
  | none => simp
  | some old =>
    by_cases hs : SameTypes old tags
    · have : setEq old tags = true := setEq_iff.mpr hs
      simp [this, hs]
    · have : setEq old tags = false := by
        cases h : setEq old tags with
        | false => rfl
        | true => exact absurd (setEq_iff.mp h) hs
      simp [this, hs]

theorem addAll_true {x : TIndex} {L M : List (Item × List Str)} (h : VInv x M) :
    (Compatible (M ++ L) → ∃ y, addAll true x L = .ok y ∧ VInv y (M ++ L)) ∧
    (¬ Compatible (M ++ L) → addAll true x L = .error .value) := by
  induction L generalizing x M with
  | nil =>
    refine ⟨fun _ => ⟨x, rfl, by simpa using h⟩, fun hc => ?_⟩
    simp only [List.append_nil] at hc
    exact absurd (vinv_compatible h) hc
  | cons p L ih =>
    rw [addAll, addItem_true]
    have happ : M ++ p :: L = (M ++ [p]) ++ L := by simp
    by_cases hok : ∀ old, x.get p.1 = some old → SameTypes old p.2
    · rw [if_pos hok]
      simp only [ok_bind]
      rw [happ]
      exact ih (vinv_add h hok)
    · rw [if_neg hok]
      refine ⟨fun hc => ?_, fun _ => rfl⟩
      exfalso
      push Not at hok
      obtain ⟨old, hg, hn⟩ := hok
      obtain ⟨q, hq, e⟩ := h.ex _ _ hg
      have h1 := h.hsome _ _ hg q hq e
      have h2 := hc p (by simp) q (by simp [hq]) e
      exact hn (fun t => (h1 t).trans (h2 t).symm)

/-! ### Lists of names -/

theorem get_none_iff (x : TIndex) (i : Item) :
    x.get i = none ↔ ∀ p ∈ x.itemToTypes, i.pyEq p.1 = false := by
  unfold TIndex.get
  cases h : x.itemToTypes.find? (fun p => i.pyEq p.1) with
  | none => simpa using h
  | some p =>
    simp only [reduceCtorEq, false_iff, not_forall]
    exact ⟨p, List.mem_of_find?_eq_some h, by have := List.find?_some h; simpa using this⟩

theorem addItem_false (x : TIndex) (i : Item) (tags : List Str) :
    x.addItem false i tags = if (∀ p ∈ x.itemToTypes, i.pyEq p.1 = false)
      then .ok ⟨x.itemToTypes ++ [(i, tags)], x.sequence ++ [(i, tags)]⟩ else .error .value := by
  unfold TIndex.addItem
  by_cases h : ∀ p ∈ x.itemToTypes, i.pyEq p.1 = false
  · rw [if_pos h]
    have hg := (get_none_iff x i).mpr h
    have ha : x.itemToTypes.any (fun p => i.pyEq p.1) = false := by
      rw [List.any_eq_false]; intro p hp; simp [h p hp]
    have hall : (tags.all fun _ => true) = true := by rw [List.all_eq_true]; simp
    simp [hg, TIndex.add, ha, hall]
  · rw [if_neg h]
    have hg : x.get i ≠ none := fun e => h ((get_none_iff x i).mp e)
    cases hx : x.get i with
    | none => exact absurd hx hg
    | some o => simp

/-- No two items are equal. -/
def Unequal (L : List (Item × List Str)) : Prop := L.Pairwise (fun p q => q.1.pyEq p.1 = false)

theorem addAll_false {M L : List (Item × List Str)} (h : Unequal M) :
    (Unequal (M ++ L) → addAll false ⟨M, M⟩ L = .ok ⟨M ++ L, M ++ L⟩) ∧
    (¬ Unequal (M ++ L) → addAll false ⟨M, M⟩ L = .error .value) := by
  induction L generalizing M with
  | nil => exact ⟨fun _ => by simp [addAll], fun hc => absurd (by simpa using h) hc⟩
  | cons p L ih =>
    rw [addAll, addItem_false]
    have happ : M ++ p :: L = (M ++ [p]) ++ L := by simp
    by_cases hok : ∀ q ∈ M, p.1.pyEq q.1 = false
    · rw [if_pos hok]
      simp only [ok_bind]
      rw [happ]
      refine ih ?_
      unfold Unequal
      rw [List.pairwise_append]
      exact ⟨h, List.pairwise_singleton _ _, fun a ha b hb => by simp at hb; subst hb; exact hok a ha⟩
    · rw [if_neg hok]
      refine ⟨fun hc => ?_, fun _ => rfl⟩
      exfalso
      unfold Unequal at hc
      rw [List.pairwise_append] at hc
      exact hok (fun q hq => hc.2.2 q hq p (by simp))

theorem namesOf_eq (L : List (Item × List Str)) :
    namesOf L = if (∀ p ∈ L, p.2.length ≤ 1) then .ok (L.map (fun p => (p.1, p.2.head?)))
      else .error .value := by
  induction L with
  | nil => rfl
  | cons p L ih =>
    obtain ⟨i, tags⟩ := p
    rw [namesOf]
    by_cases h : tags.length ≤ 1
    · simp only [h, decide_true, check_true, ok_bind, ih]
      by_cases h2 : ∀ p ∈ L, p.2.length ≤ 1
      · rw [if_pos h2, if_pos (by simpa [h] using h2)]; rfl
      · rw [if_neg h2, if_neg (by simpa [h] using h2)]; rfl
    · rw [if_neg (by simp [h])]
      simp [h]

end Pddl
