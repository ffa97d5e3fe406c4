/-
The texts of the sections of domains and problems as trees.
-/
import Verif.Proofs.FormulaText
import Verif.Proofs.Layout
import Verif.Proofs.NamesText
import Verif.Proofs.Reorder
import Verif.Proofs.NamesBy

namespace Pddl
open Spec

/-- Blanks at the end do not matter. -/
theorem Prints.unspace {e t : Str} {ts : List Tree} (he : ∀ c ∈ e, IsSpace c) (h : Prints (t ++ e) ts) :
    Prints t ts :=
  ⟨fun c hc => h.noSemi c (by simp [hc]), by rw [← lex_spaces_end t he]; exact h.reads⟩

theorem Prints.newline_end {t : Str} {ts : List Tree} (h : Prints t ts) : Prints (t ++ s%"\n") ts :=
  h.spaces_end (by decide)

theorem lex_lpar (h : Str) : lex ('(' :: h) = .lpar :: lex h := by
  rw [lex_cons]
  have : lexBegin '(' = ([.lpar], .start) := by decide
  rw [this]; rfl

/-- The whole text of a domain or problem. -/
theorem readText_layout {h body : Str} {hs bs : List Tree} (hh : Prints h hs) (hb : Prints body bs) :
    readText (layout ('(' :: h) body) = .ok [.node (hs ++ bs)] := by
  have hsem : ∀ c ∈ '(' :: h, c ≠ ';' := by
    intro c hc
    rcases List.mem_cons.1 hc with rfl | hc
    · decide
    · exact hh.noSemi c hc
  have r : Reads (lex (layout ('(' :: h) body)) [.node (hs ++ bs)] := by
    rw [lex_layout hsem hb.noSemi, lex_lpar]
    have := (hh.reads.append hb.reads).node
    simpa using this
  simp [readText, r.readTrees]

/-- A section that ends with a newline, and what follows. -/
theorem Prints.line {a b : Str} {ts us : List Tree} (ha : Prints a ts) (hb : Prints b us) :
    Prints (a ++ s%"\n" ++ b) (ts ++ us) := by
  have := ha.sep (c := '\n') (by decide) hb
  simpa using this

/-! ### Sorted texts -/

theorem sortedStr_map {α} (f : α → Str) (l : List α) :
    ∃ l' : List α, l'.Perm l ∧ sortedStr (l.map f) = l'.map f :=
  ⟨_, sortBy_perm _ _, sortBy_map f strLe l⟩

/-- The elements of a collection in the order in which they are printed. -/
def inOrder {α} (f : α → Str) (l : List α) : List α := sortBy (fun x y => strLe (f x) (f y)) l

theorem inOrder_perm {α} (f : α → Str) (l : List α) : (inOrder f l).Perm l := sortBy_perm _ _

theorem inOrder_map {α} (f : α → Str) (l : List α) : sortedStr (l.map f) = (inOrder f l).map f :=
  sortBy_map f strLe l

/-! ### Requirements -/

/-- The token of a requirement. -/
def Req.tree (r : Req) : Tree := .atom (.kw r.value)

theorem Prints.req {r : Req} (h : r ≠ .objectFluents) : Prints r.str [r.tree] := by
  cases r <;> first
    | exact absurd rfl h
    | exact Prints.tok (by decide +kernel) (by decide) (by decide) (by decide +kernel)

theorem requireKey_tree {r : Req} (h : r ≠ .objectFluents) : requireKey r.tree = some r := by
  cases r <;> first
    | exact absurd rfl h
    | decide +kernel

theorem Prints.kw {k : Str} (hl : lex (':' :: k) = [.kw k]) (hs : ∀ c ∈ ':' :: k, c ≠ ';') :
    Prints (':' :: k) [.atom (.kw k)] := Prints.tok hl (by simp) (by simp) hs

/-- The requirements section. -/
theorem Prints.requirements {rs : List Req} (h : .objectFluents ∉ rs) :
    Prints (sortAndPrint s%"(:requirements " (rs.map Req.str) s%")\n" false)
      (if rs = [] then [] else
        [.node (.atom (.kw s%"requirements") :: (inOrder Req.str rs).map Req.tree)]) := by
  unfold sortAndPrint
  by_cases h0 : rs = []
  · subst h0; simpa using Prints.nil
  · have hl : 0 < (rs.map Req.str).length := by
      rw [List.length_map]; exact List.length_pos_iff.2 h0
    rw [if_pos hl, if_neg h0, inOrder_map]
    have h1 : Prints (joinStr s%" " ((inOrder Req.str rs).map Req.str)) ((inOrder Req.str rs).flatMap (fun r => [r.tree])) :=
      Prints.join_map isSpace_blank (fun r hr => Prints.req (by
        rintro rfl; exact h ((inOrder_perm _ _).mem_iff.1 hr)))
    rw [flatMap_single] at h1
    have h2 := (Prints.op (Prints.kw (k := s%"requirements") (by decide +kernel) (by decide +kernel)) h1).newline_end
    simpa using h2

theorem parseRequirements_trees {rs : List Req} (h : .objectFluents ∉ rs) (hne : rs ≠ []) :
    parseRequirements (rs.map Req.tree) = .ok (reqSet rs) := by
  have hm : (rs.map Req.tree).mapM requireKey = some rs := by
    clear hne
    induction rs with
    | nil => rfl
    | cons r rs ih =>
      simp only [List.mem_cons, not_or] at h
      simp [requireKey_tree (Ne.symm h.1), ih h.2]
  unfold parseRequirements
  split
  · rename_i e; exact absurd (List.map_eq_nil_iff.1 e) hne
  · rw [hm]; rfl

/-! ### Typed lists -/

theorem flatMap_filter_perm {α κ} [DecidableEq κ] (key : α → κ) {ks : List κ} (hn : ks.Nodup) (l : List α)
    (h : ∀ a ∈ l, key a ∈ ks) : (ks.flatMap (fun k => l.filter (fun a => decide (key a = k)))).Perm l := by
  induction ks generalizing l with
  | nil =>
    cases l with
    | nil => simp
    | cons a l => exact absurd (h a (by simp)) (by simp)
  | cons k ks ih =>
    simp only [List.nodup_cons] at hn
    rw [List.flatMap_cons]
    have e : ks.flatMap (fun k' => l.filter (fun a => decide (key a = k'))) =
        ks.flatMap (fun k' => (l.filter (fun a => !decide (key a = k))).filter (fun a => decide (key a = k'))) := by
      apply List.flatMap_congr
      intro k' hk'
      rw [List.filter_filter]
      apply List.filter_congr
      intro a _
      by_cases hak : key a = k'
      · have : key a ≠ k := by rintro rfl; subst hak; exact hn.1 hk'
        simp [hak]; rintro rfl; exact hn.1 hk'
      · simp [hak]
    rw [e]
    have h1 := ih hn.2 (l.filter (fun a => !decide (key a = k))) (by
      intro a ha
      obtain ⟨ha, hk⟩ := List.mem_filter.1 ha
      have := h a ha
      simp only [List.mem_cons] at this
      rcases this with rfl | this
      · simp at hk
      · exact this)
    exact (List.Perm.append_left _ h1).trans (List.filter_append_perm (fun a => decide (key a = k)) l)

/-- A typed list of elements: groups with a type, then elements without. -/
structure Groups (α : Type) where
  groups : List (Str × List α)
  rest : List α

/-- Each element with its type. -/
def Groups.pairs {α} (g : Groups α) : List (Option Str × α) :=
  g.groups.flatMap (fun p => p.2.map (fun a => (some p.1, a))) ++ g.rest.map (fun a => (none, a))

/-- The trees of it. -/
def Groups.trees {α} (tr : α → List Tree) (g : Groups α) : List Tree :=
  g.groups.flatMap (fun p => p.2.flatMap tr ++ [.atom .minus, word p.1]) ++ g.rest.flatMap tr

/-- The groups in which elements are printed. -/
def groupsOf {α} (f : α → Str) (items : List (Option Str × α)) : Groups α :=
  ⟨(sortedStr ((NamesBy.of (items.map (fun p => (p.1, f p.2)))).filterMap Prod.fst)).map (fun k =>
      (k, inOrder f ((items.filter (fun p => decide (p.1 = some k))).map Prod.snd))),
   inOrder f ((items.filter (fun p => decide (p.1 = none))).map Prod.snd)⟩

theorem get_items {α} (f : α → Str) (items : List (Option Str × α)) (k : Option Str) :
    (NamesBy.of (items.map (fun p => (p.1, f p.2)))).get k =
      ((items.filter (fun p => decide (p.1 = k))).map Prod.snd).map f := by
  rw [NamesBy.get_of, List.filter_map, List.map_map, List.map_map]
  rfl

theorem mem_typeKeys {α} (f : α → Str) (items : List (Option Str × α)) (k : Str) :
    k ∈ (NamesBy.of (items.map (fun p => (p.1, f p.2)))).filterMap Prod.fst ↔ ∃ a, (some k, a) ∈ items := by
  have := NamesBy.mem_keys_of (items.map (fun p => (p.1, f p.2))) (some k)
  have e : k ∈ (NamesBy.of (items.map (fun p => (p.1, f p.2)))).filterMap Prod.fst ↔
      some k ∈ (NamesBy.of (items.map (fun p => (p.1, f p.2)))).map Prod.fst := by
    simp [List.mem_filterMap]
  rw [e, this]
  constructor
  · rintro ⟨x, hx⟩
    obtain ⟨⟨a, b⟩, h1, h2⟩ := List.mem_map.1 hx
    simp only [Prod.mk.injEq] at h2
    exact ⟨b, by rw [← h2.1]; exact h1⟩
  · rintro ⟨a, ha⟩
    exact ⟨f a, List.mem_map.2 ⟨_, ha, rfl⟩⟩

theorem groupsOf_nonempty {α} (f : α → Str) (items : List (Option Str × α)) :
    ∀ g ∈ (groupsOf f items).groups, g.2 ≠ [] ∧ ∃ a, (some g.1, a) ∈ items := by
  intro g hg
  obtain ⟨k, hk, rfl⟩ := List.mem_map.1 hg
  rw [mem_sortedStr, mem_typeKeys] at hk
  refine ⟨?_, hk⟩
  obtain ⟨a, ha⟩ := hk
  intro e
  have : a ∈ inOrder f ((items.filter (fun p => decide (p.1 = some k))).map Prod.snd) :=
    (inOrder_perm _ _).mem_iff.2 (List.mem_map.2 ⟨_, List.mem_filter.2 ⟨ha, by simp⟩, rfl⟩)
  simp only at e
  rw [e] at this; simp at this

theorem map_filter_key {α} (items : List (Option Str × α)) (k : Option Str) :
    ((items.filter (fun p => decide (p.1 = k))).map Prod.snd).map (fun a => (k, a)) =
      items.filter (fun p => decide (p.1 = k)) := by
  rw [List.map_map]
  conv_rhs => rw [← List.map_id (items.filter _)]
  apply List.map_congr_left
  intro p hp
  have := (List.mem_filter.1 hp).2
  simp only [decide_eq_true_eq] at this
  subst this; rfl

theorem groupsOf_perm {α} (f : α → Str) (items : List (Option Str × α)) :
    (groupsOf f items).pairs.Perm items := by
  let ks := sortedStr ((NamesBy.of (items.map (fun p => (p.1, f p.2)))).filterMap Prod.fst)
  have hk : ks.Nodup := by
    apply (sortedStr_perm _).nodup_iff.2
    have := NamesBy.nodup_of (items.map (fun p => (p.1, f p.2)))
    generalize NamesBy.of (items.map (fun p => (p.1, f p.2))) = d at this
    induction d with
    | nil => simp
    | cons p d ih =>
      simp only [List.map_cons, List.nodup_cons] at this
      rcases p with ⟨_ | k, l⟩
      · simpa using ih this.2
      · simp only [List.filterMap_cons, List.nodup_cons]
        refine ⟨?_, ih this.2⟩
        intro hm
        obtain ⟨q, hq, e⟩ := List.mem_filterMap.1 hm
        exact this.1 (List.mem_map.2 ⟨q, hq, e⟩)
  have h1 := flatMap_filter_perm (fun p : Option Str × α => p.1) (ks := ks.map some ++ [none])
    (by
      rw [List.nodup_append]
      refine ⟨hk.map (Option.some_injective _), by simp, ?_⟩
      intro a ha b hb
      simp only [List.mem_singleton] at hb
      obtain ⟨k, _, rfl⟩ := List.mem_map.1 ha
      subst hb; simp) items
    (by
      rintro ⟨k, a⟩ ha
      cases k with
      | none => simp
      | some k =>
        simp only [List.mem_append, List.mem_map, Option.some.injEq, exists_eq_right, List.mem_singleton, reduceCtorEq, or_false]
        rw [mem_sortedStr, mem_typeKeys]
        exact ⟨a, ha⟩)
  refine List.Perm.trans ?_ h1
  rw [List.flatMap_append]
  unfold Groups.pairs groupsOf
  apply List.Perm.append
  · rw [List.flatMap_map, List.flatMap_map]
    apply List.Perm.flatMap_left
    intro k _
    have := ((inOrder_perm f ((items.filter (fun p => decide (p.1 = some k))).map Prod.snd)).map
      (fun a => (some k, a)))
    rw [map_filter_key] at this
    exact this
  · have := ((inOrder_perm f ((items.filter (fun p => decide (p.1 = none))).map Prod.snd)).map
      (fun a => ((none : Option Str), a)))
    rw [map_filter_key] at this
    simpa using this

theorem strip_paren (x : Str) : ∃ y q, strip ('(' :: x) = '(' :: y ∧ x = y ++ q ∧ ∀ c ∈ q, IsSpace c := by
  have hl : lstrip ('(' :: x) = '(' :: x := by
    rw [lstrip, List.dropWhile_cons_of_neg (by decide)]
  obtain ⟨q, hq, e⟩ := rstrip_decomp ('(' :: x)
  rw [strip, hl]
  cases hr : rstrip ('(' :: x) with
  | nil =>
    rw [hr, List.nil_append] at e
    exact absurd (hq '(' (by rw [← e]; simp)) (by decide)
  | cons c y =>
    rw [hr, List.cons_append] at e
    injection e with e1 e2
    exact ⟨y, q, by rw [e1], e2, fun c hc => (isSpaceC_iff c).1 (hq c hc)⟩

/-- The text of the groups. -/
theorem Prints.groups {α} {f : α → Str} {tr : α → List Tree} {gs : List (Str × List α)}
    (h : ∀ g ∈ gs, NameShape g.1 ∧ ∀ a ∈ g.2, Prints (f a) (tr a)) {t : Str} {ts : List Tree} (ht : Prints t ts) :
    Prints ((gs.map (fun g => joinStr s%" " (g.2.map f) ++ s%" - " ++ g.1 ++ s%" ")).flatten ++ t)
      (gs.flatMap (fun p => p.2.flatMap tr ++ [.atom .minus, word p.1]) ++ ts) := by
  induction gs with
  | nil => simpa using ht
  | cons g gs ih =>
    have ih := ih (fun x hx => h x (by simp [hx]))
    obtain ⟨h1, h2⟩ := h g (by simp)
    have p1 : Prints (joinStr s%" " (g.2.map f)) (g.2.flatMap tr) := Prints.join_map isSpace_blank h2
    have p2 : Prints s%"-" [.atom .minus] := Prints.tok (by decide +kernel) (by decide) (by decide) (by decide)
    have := (p1.sep isSpace_blank (p2.sep isSpace_blank ((Prints.name h1).sep isSpace_blank ih)))
    simpa [word, List.append_assoc] using this

/-- A typed list as printed by `print_typed_lists`. -/
theorem Prints.typed {α} {f : α → Str} {tr : α → List Tree} {kw : Str} {kts : List Tree} {items : List (Option Str × α)}
    (hk : Prints kw kts) (ht : ∀ p ∈ items, ∀ t, p.1 = some t → NameShape t)
    (hp : ∀ p ∈ items, Prints (f p.2) (tr p.2)) :
    Prints (printTyped ('(' :: kw) (NamesBy.of (items.map (fun p => (p.1, f p.2)))) s%")\n")
      [.node (kts ++ (groupsOf f items).trees tr)] := by
  have hmem : ∀ p ∈ (groupsOf f items).pairs, p ∈ items := fun p hp => (groupsOf_perm f items).mem_iff.1 hp
  have hrest : Prints (joinStr s%" " ((groupsOf f items).rest.map f)) ((groupsOf f items).rest.flatMap tr) :=
    Prints.join_map isSpace_blank (fun a ha => hp (none, a) (hmem _ (by
      unfold Groups.pairs
      exact List.mem_append_right _ (List.mem_map.2 ⟨a, ha, rfl⟩))))
  have hgs : ∀ g ∈ (groupsOf f items).groups, NameShape g.1 ∧ ∀ a ∈ g.2, Prints (f a) (tr a) := by
    intro g hg
    refine ⟨?_, ?_⟩
    · obtain ⟨_, a, ha⟩ := groupsOf_nonempty f items g hg
      exact ht _ ha _ rfl
    · intro a ha
      exact hp (some g.1, a) (hmem _ (by
        unfold Groups.pairs
        exact List.mem_append_left _ (List.mem_flatMap.2 ⟨g, hg, List.mem_map.2 ⟨a, ha, rfl⟩⟩)))
  have hall := hk.sep isSpace_blank (Prints.groups hgs hrest)
  have etg : (typedGroups (NamesBy.of (items.map (fun p => (p.1, f p.2))))).map
        (fun g => joinStr s%" " (sortedStr g.2) ++ s%" - " ++ g.1 ++ s%" ") =
      (groupsOf f items).groups.map (fun g => joinStr s%" " (g.2.map f) ++ s%" - " ++ g.1 ++ s%" ") := by
    rw [typedGroups_eq (NamesBy.nodup_of _), groupsOf, List.map_map, List.map_map]
    apply List.map_congr_left
    intro k _
    simp only [Function.comp_apply, get_items, inOrder_map]
  unfold printTyped
  simp only [etg, get_items]
  have finish : ∀ y, Prints y (kts ++ (groupsOf f items).trees tr) →
      Prints ('(' :: y ++ s%")\n") [.node (kts ++ (groupsOf f items).trees tr)] := by
    intro y hy
    have := hy.paren.newline_end
    simpa using this
  split
  · rename_i h0
    have hr : (groupsOf f items).rest = [] := by
      have : ((items.filter (fun p => decide (p.1 = none))).map Prod.snd) = [] := by simpa using h0
      show inOrder f ((items.filter (fun p => decide (p.1 = none))).map Prod.snd) = []
      rw [this]; rfl
    rw [hr] at hall
    simp only [List.map_nil, joinStr, List.append_nil] at hall
    obtain ⟨y, q, e1, e2, hq⟩ := strip_paren (kw ++ ' ' :: ((groupsOf f items).groups.map
      (fun g => joinStr s%" " (g.2.map f) ++ s%" - " ++ g.1 ++ s%" ")).flatten)
    have e3 : '(' :: kw ++ s%" " ++ ((groupsOf f items).groups.map
      (fun g => joinStr s%" " (g.2.map f) ++ s%" - " ++ g.1 ++ s%" ")).flatten =
      '(' :: (kw ++ ' ' :: ((groupsOf f items).groups.map
      (fun g => joinStr s%" " (g.2.map f) ++ s%" - " ++ g.1 ++ s%" ")).flatten) := by simp
    rw [e3, e1]
    apply finish
    have hx := hall
    rw [e2] at hx
    have := hx.unspace hq
    simpa [Groups.trees, hr] using this
  · have e4 : sortedStr (((items.filter (fun p => decide (p.1 = none))).map Prod.snd).map f) =
        (groupsOf f items).rest.map f := inOrder_map f _
    rw [e4]
    have e5 : '(' :: kw ++ s%" " ++ ((groupsOf f items).groups.map
      (fun g => joinStr s%" " (g.2.map f) ++ s%" - " ++ g.1 ++ s%" ")).flatten ++
        joinStr s%" " ((groupsOf f items).rest.map f) =
      '(' :: (kw ++ ' ' :: (((groupsOf f items).groups.map
      (fun g => joinStr s%" " (g.2.map f) ++ s%" - " ++ g.1 ++ s%" ")).flatten ++
        joinStr s%" " ((groupsOf f items).rest.map f))) := by simp
    rw [e5]
    split
    · rename_i he
      have e6 : kw ++ ' ' :: (((groupsOf f items).groups.map
        (fun g => joinStr s%" " (g.2.map f) ++ s%" - " ++ g.1 ++ s%" ")).flatten ++
        joinStr s%" " ((groupsOf f items).rest.map f)) = kw ++ s%" " := by
        simpa using he
      rw [e6] at hall ⊢
      have : ('(' :: (kw ++ s%" ")).dropLast = '(' :: kw := by
        rw [← List.cons_append, List.dropLast_concat]
      rw [this]
      exact finish kw (hall.unspace (by decide))
    · exact finish _ hall

/-! ### Sections one after the other -/

/-- A section: nothing, or a text that begins with a bracket. -/
def Block (t : Str) (ts : List Tree) : Prop := Prints t ts ∧ (t = [] ∨ ∃ r, t = '(' :: r)

theorem Block.nil : Block [] [] := ⟨.nil, .inl rfl⟩

theorem Block.append {a b : Str} {ts us : List Tree} (ha : Block a ts) (hb : Block b us) : Block (a ++ b) (ts ++ us) := by
  refine ⟨ha.1.append hb.1 ?_, ?_⟩
  · rcases hb.2 with h | ⟨r, h⟩
    · exact .inl h
    · exact .inr ⟨'(', r, h, by unfold Ends; decide⟩
  · rcases ha.2 with h | ⟨r, h⟩
    · rw [h]; exact hb.2
    · exact .inr ⟨r ++ b, by rw [h]; rfl⟩

theorem Block.requirements {rs : List Req} (h : .objectFluents ∉ rs) :
    Block (sortAndPrint s%"(:requirements " (rs.map Req.str) s%")\n" false)
      (if rs = [] then [] else
        [.node (.atom (.kw s%"requirements") :: (inOrder Req.str rs).map Req.tree)]) := by
  refine ⟨Prints.requirements h, ?_⟩
  unfold sortAndPrint
  split
  · exact .inr ⟨_, rfl⟩
  · exact .inl rfl

theorem printTyped_paren (kw : Str) (d : NamesBy) (q : Str) : ∃ r, printTyped ('(' :: kw) d q = '(' :: r := by
  unfold printTyped
  simp only
  split
  · obtain ⟨y, q', e, _⟩ := strip_paren (kw ++ s%" " ++
      ((typedGroups d).map (fun g => joinStr s%" " (sortedStr g.2) ++ s%" - " ++ g.1 ++ s%" ")).flatten)
    exact ⟨y ++ q, by rw [List.cons_append, List.cons_append, e]; rfl⟩
  · split
    · rename_i e
      rw [e]
      refine ⟨kw ++ q, ?_⟩
      rw [List.dropLast_concat]; rfl
    · exact ⟨_, rfl⟩

/-- The trees of an optional section. -/
def secTree (k : Str) : Option (List Tree) → List Tree
  | none => []
  | some b => [.node (.atom (.kw k) :: b)]

/-- Trees that do not begin with the section `k`. -/
def NotSection (k : Str) (ts : List Tree) : Prop := ∀ b rest, ts ≠ .node (.atom (.kw k) :: b) :: rest

theorem takeSection_sec {k : Str} {r : Option (List Tree)} {ts : List Tree} (h : NotSection k ts) :
    takeSection k (secTree k r ++ ts) = (r, ts) := by
  cases r with
  | some b => simp [secTree, takeSection]
  | none =>
    show takeSection k ts = (none, ts)
    unfold takeSection
    split
    · rename_i k' b rest
      rw [if_neg]
      intro e
      exact h b rest (by rw [e])
    · rfl

theorem NotSection.nil {k : Str} : NotSection k [] := by intro b rest e; cases e

theorem NotSection.node {k k' : Str} {b rest : List Tree} (h : k ≠ k') :
    NotSection k (.node (.atom (.kw k') :: b) :: rest) := by
  intro b' rest' e
  simp only [List.cons.injEq, Tree.node.injEq, Tree.atom.injEq, Tok.kw.injEq] at e
  exact h e.1.1.symm

theorem NotSection.sec {k k' : Str} {r : Option (List Tree)} {ts : List Tree} (h : k ≠ k') (ht : NotSection k ts) :
    NotSection k (secTree k' r ++ ts) := by
  cases r with
  | none => exact ht
  | some b => exact .node h

end Pddl
