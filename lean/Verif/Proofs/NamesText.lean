/-
Typed lists of names as text.
-/
import Verif.Proofs.TypedText

namespace Pddl
open Spec

/-- As a list of items. -/
def Spec.NameList.toTyped (l : NameList) : TypedList :=
  ⟨l.groups.map (fun g => (g.1.map .str, .str g.2)), l.rest.map .str⟩

theorem typedNameToks_names (ns : List Str) (b : Bool) (ts : List Tree) :
    typedNameToks b (ns.map word ++ ts) =
      (typedNameToks (b || !ns.isEmpty) ts).map (ns.map TTok.str ++ ·) := by
  induction ns generalizing b with
  | nil => simp
  | cons n ns ih =>
    have e : typedNameToks b ((n :: ns).map word ++ ts) = (typedNameToks true (ns.map word ++ ts)).map (.str n :: ·) := rfl
    rw [e, ih true]
    simp [Function.comp_def]

theorem typedNameToks_text (l : NameList) (h : ∀ g ∈ l.groups, g.1 ≠ []) :
    typedNameToks false l.text = some l.toTyped.tokens := by
  obtain ⟨gs, rest⟩ := l
  induction gs with
  | nil =>
    have := typedNameToks_names rest false []
    rw [List.append_nil] at this
    simp [NameList.text, NameList.toTyped, TypedList.tokens, this, typedNameToks]
  | cons g gs ih =>
    obtain ⟨ns, t⟩ := g
    have ih := ih (fun g hg => h g (List.mem_cons_of_mem _ hg))
    have hne : ns ≠ [] := h (ns, t) (by simp)
    have e : NameList.text ⟨(ns, t) :: gs, rest⟩ =
        ns.map word ++ (.atom .minus :: word t :: NameList.text ⟨gs, rest⟩) := by
      simp [NameList.text]
    rw [e, typedNameToks_names]
    have : (false || !ns.isEmpty) = true := by cases ns <;> simp_all
    rw [this]
    simp only [word, typedNameToks, ih, Option.map_some]
    simp [NameList.toTyped, TypedList.tokens]

theorem typedNameToks_split {b : Bool} {ts : List Tree} : ∀ {toks}, typedNameToks b ts = some toks →
    ∃ ns : List Str, (ts = ns.map word ∧ toks = ns.map .str) ∨
      ∃ t ts' toks', ts = ns.map word ++ .atom .minus :: word t :: ts' ∧
        typedNameToks false ts' = some toks' ∧ toks = ns.map .str ++ .str s%"-" :: .str t :: toks' ∧
        (b = false → ns ≠ []) := by
  fun_induction typedNameToks b ts with
  | case1 => intro toks h; simp at h; subst h; exact ⟨[], Or.inl ⟨rfl, rfl⟩⟩
  | case2 b n ts ih =>
    intro toks h
    rw [Option.map_eq_some_iff] at h
    obtain ⟨r, h, rfl⟩ := h
    obtain ⟨ns, ⟨rfl, rfl⟩ | ⟨t, ts', toks', rfl, h2, rfl, _⟩⟩ := ih h
    · exact ⟨n :: ns, Or.inl ⟨rfl, rfl⟩⟩
    · exact ⟨n :: ns, Or.inr ⟨t, ts', toks', rfl, h2, rfl, by simp⟩⟩
  | case3 t ts ih =>
    intro toks h
    rw [Option.map_eq_some_iff] at h
    obtain ⟨r, h, rfl⟩ := h
    exact ⟨[], Or.inr ⟨t, ts, r, rfl, h, rfl, by simp⟩⟩
  | case4 => simp

/-- The tokens of the lists of names that the grammar accepts. -/
theorem typedNameToks_iff {ts : List Tree} {toks : List TTok} : typedNameToks false ts = some toks ↔
    ∃ l : NameList, (∀ g ∈ l.groups, g.1 ≠ []) ∧ ts = l.text ∧ toks = l.toTyped.tokens := by
  constructor
  · have key : ∀ k (ts : List Tree) (toks : List TTok), ts.length = k → typedNameToks false ts = some toks →
        ∃ l : NameList, (∀ g ∈ l.groups, g.1 ≠ []) ∧ ts = l.text ∧ toks = l.toTyped.tokens := by
      intro k
      induction k using Nat.strongRecOn with
      | _ k ih =>
        intro ts toks hk h
        obtain ⟨ns, ⟨rfl, rfl⟩ | ⟨t, ts', toks', rfl, h2, rfl, hne⟩⟩ := typedNameToks_split h
        · exact ⟨⟨[], ns⟩, by simp, by simp [NameList.text], by simp [NameList.toTyped, TypedList.tokens]⟩
        · obtain ⟨l, hl, rfl, rfl⟩ := ih ts'.length (by rw [← hk]; simp; omega) ts' toks' rfl h2
          refine ⟨⟨(ns, t) :: l.groups, l.rest⟩, ?_, by simp [NameList.text], by simp [NameList.toTyped, TypedList.tokens]⟩
          intro g hg
          rcases List.mem_cons.1 hg with rfl | hg
          · exact hne rfl
          · exact hl g hg
    exact fun h => key _ ts toks rfl h
  · rintro ⟨l, h, rfl, rfl⟩
    exact typedNameToks_text l h

theorem Spec.NameList.Ok.typed {l : NameList} (h : l.Ok) : l.toTyped.Ok where
  items g hg t ht := by
    simp only [NameList.toTyped, List.mem_map] at hg
    obtain ⟨g', hg', rfl⟩ := hg
    simp only [List.mem_map] at ht
    obtain ⟨n, hn, rfl⟩ := ht
    exact h.names (n, some g'.2) (List.mem_append_left _ (List.mem_flatMap.2 ⟨g', hg', List.mem_map.2 ⟨n, hn, rfl⟩⟩))
  rest t ht := by
    simp only [NameList.toTyped, List.mem_map] at ht
    obtain ⟨n, hn, rfl⟩ := ht
    exact h.names (n, none) (List.mem_append_right _ (List.mem_map.2 ⟨n, hn, rfl⟩))
  types g hg := by
    simp only [NameList.toTyped, List.mem_map] at hg
    obtain ⟨g', hg', rfl⟩ := hg
    exact h.types g' hg'

/-- The items of a list of names. -/
theorem toTyped_items (l : NameList) :
    l.toTyped.itemsOf = l.pairs.map (fun p => (Item.name p.1, p.2.toList)) := by
  obtain ⟨gs, rest⟩ := l
  have h1 : ∀ s : Str, dd [s] = [s] := fun s => rfl
  simp only [TypedList.itemsOf, TypedList.assigned, NameList.toTyped, NameList.pairs, List.map_append, List.map_flatMap,
    List.flatMap_map, List.map_map, Function.comp_def, toItem, typesOf, h1, dd_nil, Option.toList]

theorem unequal_names {L : List (Str × Option Str)} :
    Unequal (L.map (fun p => (Item.name p.1, p.2.toList))) ↔ (L.map Prod.fst).Nodup := by
  unfold Unequal List.Nodup
  rw [List.pairwise_map, List.pairwise_map]
  constructor <;> intro h <;> refine h.imp ?_ <;> intro a b h' <;> simp_all [Item.pyEq, eq_comm]

theorem names_filterMap (L : List (Str × Option Str)) :
    (L.map (fun p => (Item.name p.1, p.2.toList.head?))).filterMap
      (fun p => match p.1 with | .name n => some (n, p.2) | .fn _ => none) = L := by
  induction L with
  | nil => rfl
  | cons p L ih =>
    obtain ⟨n, t⟩ := p
    simp only [List.map_cons, List.filterMap_cons, ih]
    cases t <;> rfl

/-- What a typed list of names gives. -/
theorem parseTypedNames_text {l : NameList} (h : l.Ok) : parseTypedNames l.text = .ok l.pairs := by
  unfold parseTypedNames
  rw [typedNameToks_text l h.nonempty]
  simp only [typedListName]
  rw [parseTypedList_eq false _ h.typed, toTyped_items]
  have := (addAll_false (M := []) (L := l.pairs.map (fun p => (Item.name p.1, p.2.toList))) List.Pairwise.nil).1
    (by simpa using unequal_names.2 h.nodup)
  simp only [List.nil_append] at this
  rw [this]
  simp only [ok_bind, TIndex.names, namesOf_eq]
  rw [if_pos]
  · simp only [ok_bind, pure_ok, typedListError, List.map_map, Function.comp_def]
    exact congrArg Except.ok (names_filterMap l.pairs)
  · intro p hp
    simp only [List.mem_map] at hp
    obtain ⟨q, _, rfl⟩ := hp
    cases q.2 <;> simp

theorem typedListError_ok {α} {toks : List TTok} {x : Except Exc α} {a : α} :
    typedListError toks x = .ok a ↔ x = .ok a := by
  unfold typedListError
  split <;> simp

/-- When a typed list of names is accepted. -/
theorem parseTypedNames_iff {ts : List Tree} (hw : ∀ w, .atom (.name w) ∈ ts → nameRegex w = true)
    {r : List (Str × Option Str)} :
    parseTypedNames ts = .ok r ↔ ∃ l : NameList, l.Ok ∧ ts = l.text ∧ r = l.pairs := by
  constructor
  · intro h
    unfold parseTypedNames at h
    split at h
    · rename_i toks ht
      obtain ⟨l, hne, rfl, rfl⟩ := typedNameToks_iff.1 ht
      have hok : l.toTyped.Ok := by
        unfold typedListName at h
        rw [typedListError_ok] at h
        obtain ⟨x, hx, _⟩ := bind_ok_iff.1 h
        refine typedLoop_valid (pre := []) ?_ ?_ ?_ hx
        · intro g hg
          simp only [NameList.toTyped, List.mem_map] at hg
          obtain ⟨g', hg', rfl⟩ := hg
          exact ⟨by simpa using hne g' hg', .inr ⟨_, rfl⟩⟩
        · intro g hg t ht
          simp only [NameList.toTyped, List.mem_map] at hg
          obtain ⟨g', hg', rfl⟩ := hg
          simp only [List.mem_map] at ht
          obtain ⟨n, hn, rfl⟩ := ht
          refine nameRegex_not_sep (hw n ?_)
          exact List.mem_append_left _ (List.mem_flatMap.2 ⟨g', hg', List.mem_append_left _ (List.mem_map.2 ⟨n, hn, rfl⟩)⟩)
        · intro t ht
          simp only [NameList.toTyped, List.mem_map] at ht
          obtain ⟨n, hn, rfl⟩ := ht
          refine nameRegex_not_sep (hw n ?_)
          exact List.mem_append_right _ (List.mem_map.2 ⟨n, hn, rfl⟩)
      have hnd : (l.pairs.map Prod.fst).Nodup := by
        unfold typedListName at h
        rw [typedListError_ok] at h
        obtain ⟨x, hx, _⟩ := bind_ok_iff.1 h
        rw [parseTypedList_eq false _ hok, toTyped_items] at hx
        by_contra hc
        have := (addAll_false (M := []) (L := l.pairs.map (fun p => (Item.name p.1, p.2.toList))) List.Pairwise.nil).2
          (by simpa using fun h' => hc (unequal_names.1 h'))
        rw [this] at hx
        cases hx
      have hl : l.Ok := by
        refine ⟨hne, ?_, ?_, hnd⟩
        · intro p hp
          simp only [NameList.pairs, List.mem_append, List.mem_flatMap, List.mem_map] at hp
          rcases hp with ⟨g, hg, n, hn, rfl⟩ | ⟨n, hn, rfl⟩
          · exact hok.items (g.1.map .str, .str g.2) (List.mem_map.2 ⟨g, hg, rfl⟩) (.str n) (List.mem_map.2 ⟨n, hn, rfl⟩)
          · exact hok.rest (.str n) (List.mem_map.2 ⟨n, hn, rfl⟩)
        · intro g hg
          exact hok.types (g.1.map .str, .str g.2) (List.mem_map.2 ⟨g, hg, rfl⟩)
      refine ⟨l, hl, rfl, ?_⟩
      have := parseTypedNames_text hl
      unfold parseTypedNames at this
      rw [ht] at this
      simp only at this
      rw [h] at this
      injection this
    · simp at h
  · rintro ⟨l, hl, rfl, rfl⟩
    exact parseTypedNames_text hl

end Pddl
