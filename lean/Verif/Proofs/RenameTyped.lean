/-
Renaming: words and typed lists.
-/
import Verif.Proofs.RenameExpr
import Verif.Model.ParseFormula

namespace Pddl
open Spec

/-! ### Trees -/

theorem Tree.renames_eq (ρ : Str → Str) (l : List Tree) : Tree.renames ρ l = l.map (Tree.rename ρ) := by
  induction l with
  | nil => rfl
  | cons a l ih => rw [Tree.renames, ih]; rfl

mutual
/-- The names in a tree. -/
def Tree.words : Tree → List Str
  | .atom (.name w) => [w]
  | .atom _ => []
  | .node l => Tree.wordss l
def Tree.wordss : List Tree → List Str
  | [] => []
  | t :: ts => t.words ++ Tree.wordss ts
end

/-- The names of the trees are loose, also after renaming. -/
def LooseIn (ρ : Str → Str) (ts : List Tree) : Prop := ∀ w ∈ Tree.wordss ts, Loose w ∧ Loose (ρ w)

section
variable {ρ : Str → Str}

theorem LooseIn.tail {t : Tree} {ts : List Tree} (h : LooseIn ρ (t :: ts)) : LooseIn ρ ts :=
  fun w hw => h w (by simp [Tree.wordss, hw])
theorem LooseIn.head {t : Tree} {ts : List Tree} (h : LooseIn ρ (t :: ts)) : LooseIn ρ [t] :=
  fun w hw => h w (by simp [Tree.wordss] at hw ⊢; exact .inl hw)
theorem LooseIn.node {l : List Tree} (h : LooseIn ρ [.node l]) : LooseIn ρ l :=
  fun w hw => h w (by simp [Tree.wordss, Tree.words, hw])
theorem LooseIn.body {l ts : List Tree} (h : LooseIn ρ (.node l :: ts)) : LooseIn ρ l := h.head.node
theorem LooseIn.nil : LooseIn ρ [] := fun w hw => by simp [Tree.wordss] at hw
theorem LooseIn.mem {t : Tree} {ts : List Tree} (h : LooseIn ρ ts) (ht : t ∈ ts) : LooseIn ρ [t] := by
  induction ts with
  | nil => simp at ht
  | cons a ts ih =>
    rcases List.mem_cons.1 ht with rfl | ht
    · exact h.head
    · exact ih h.tail ht

theorem gluing_symbol {k : Str} (hk : k ∈ gluing) : k ∈ allSymbols := by
  simp only [gluing, List.mem_cons, List.not_mem_nil, or_false] at hk
  rcases hk with rfl | rfl | rfl | rfl | rfl | rfl <;> simp [allSymbols]

theorem dropKeyword_loose {k w : Str} (hk : k ∈ gluing) (hw : Loose w) (rest : List Tree) :
    dropKeyword k (.atom (.name w) :: rest) = if w = k then some rest else none := by
  simp only [dropKeyword]
  by_cases hp : k.isPrefixOf w = true
  · rw [if_pos hp]
    obtain ⟨d, rfl⟩ := List.isPrefixOf_iff_prefix.1 hp
    rw [List.drop_left]
    cases d with
    | nil => simp
    | cons c cs =>
      have := hw k hk c cs rfl
      have hc : ¬ isAlphaC c = true := fun h => this ((letter_iff c).1 h)
      simp [hc]
  · rw [if_neg hp, if_neg (by rintro rfl; exact hp (by simp))]

variable (R : Renaming ρ)
include R

theorem Spec.Renaming.dropKeyword {k : Str} (hk : k ∈ gluing) {ts : List Tree} (hl : LooseIn ρ ts) :
    Pddl.dropKeyword k (Tree.renames ρ ts) = (Pddl.dropKeyword k ts).map (Tree.renames ρ) := by
  rcases ts with _ | ⟨⟨t⟩ | l, rest⟩
  · rfl
  · cases t with
    | name w =>
      have h := hl w (by simp [Tree.wordss, Tree.words])
      simp only [Tree.renames, Tree.rename, Tok.rename]
      rw [dropKeyword_loose hk h.1, dropKeyword_loose hk h.2]
      have : ρ w = k ↔ w = k := R.fixed_iff (R.symbol (gluing_symbol hk))
      by_cases e : w = k
      · rw [if_pos e, if_pos (this.2 e)]; rfl
      · rw [if_neg e, if_neg (fun h => e (this.1 h))]; rfl
    | _ => rfl
  · rfl

omit R in
theorem dropKeyword_looseIn {k : Str} (hk : k ∈ gluing) {ts rest : List Tree} (hl : LooseIn ρ ts)
    (h : Pddl.dropKeyword k ts = some rest) : LooseIn ρ rest := by
  rcases ts with _ | ⟨⟨t⟩ | l, r⟩
  · cases h
  · cases t with
    | name w =>
      rw [dropKeyword_loose hk (hl w (by simp [Tree.wordss, Tree.words])).1] at h
      split at h
      · cases h; exact hl.tail
      · cases h
    | _ => cases h
  · cases h

omit R in
theorem namesOnly_rename (ts : List Tree) :
    namesOnly (Tree.renames ρ ts) = (namesOnly ts).map (List.map ρ) := by
  induction ts with
  | nil => rfl
  | cons t ts ih =>
    rcases t with t | l
    · cases t <;> simp [Tree.renames, Tree.rename, Tok.rename, namesOnly, ih, Function.comp_def]
    · rfl

/-! ### Tokens of typed lists -/

omit R in
def TTok.rename (ρ : Str → Str) : TTok → TTok
  | .str s => .str (ρ s)
  | .list l => .list (l.map ρ)
  | .fn f => .fn (f.rename ρ)
omit R in
def Item.rename (ρ : Str → Str) : Item → Item
  | .name s => .name (ρ s)
  | .fn f => .fn (f.rename ρ)
omit R in
def TIndex.rename (ρ : Str → Str) (x : TIndex) : TIndex :=
  ⟨x.itemToTypes.map (fun p => (p.1.rename ρ, p.2.map ρ)), x.sequence.map (fun p => (p.1.rename ρ, p.2.map ρ))⟩

theorem Spec.Renaming.dash : ρ s%"-" = s%"-" := R.symbol (by simp [allSymbols])

theorem Spec.Renaming.typedNameToks (b : Bool) (ts : List Tree) :
    Pddl.typedNameToks b (Tree.renames ρ ts) = (Pddl.typedNameToks b ts).map (List.map (TTok.rename ρ)) := by
  induction b, ts using Pddl.typedNameToks.induct with
  | case1 b => cases b <;> rfl
  | case2 b n ts ih => simp [Tree.renames, Tree.rename, Tok.rename, Pddl.typedNameToks, ih, Function.comp_def, TTok.rename]
  | case3 t ts ih => simp [Tree.renames, Tree.rename, Tok.rename, Pddl.typedNameToks, ih, Function.comp_def, TTok.rename, R.dash]
  | case4 ts b h1 h2 h3 =>
    have e : Pddl.typedNameToks b ts = none := by
      rw [Pddl.typedNameToks.eq_def]; split <;> first | rfl | simp_all
    rw [e]
    rcases ts with _ | ⟨⟨t⟩ | l, rest⟩
    · exact absurd rfl h1
    · cases t with
      | name w => exact absurd rfl (h2 w rest)
      | minus =>
        cases b with
        | false => rcases rest with _ | ⟨⟨t⟩ | l, rest⟩ <;> (try cases t) <;> rfl
        | true =>
          rcases rest with _ | ⟨⟨t⟩ | l, rest⟩
          · rfl
          · cases t <;> first | rfl | exact absurd rfl (h3 _ rest rfl)
          · rfl
      | _ => cases b <;> rfl
    · cases b <;> rfl

theorem Spec.Renaming.typeDef {t : Tree} (hl : LooseIn ρ [t]) :
    Pddl.typeDef (t.rename ρ) = (Pddl.typeDef t).map (List.map ρ) := by
  rcases t with t | l
  · cases t <;> rfl
  · simp only [Tree.rename, Pddl.typeDef, R.dropKeyword (k := s%"either") (by simp [gluing]) hl.node]
    rcases h : Pddl.dropKeyword s%"either" l with _ | _ | ⟨t, ts⟩
    · rfl
    · rfl
    · simp only [Option.map_some, Tree.renames]
      exact namesOnly_rename (t :: ts)

theorem Spec.Renaming.typedVarToks (b : Bool) {ts : List Tree} (hl : LooseIn ρ ts) :
    Pddl.typedVarToks b (Tree.renames ρ ts) = (Pddl.typedVarToks b ts).map (List.map (TTok.rename ρ)) := by
  induction b, ts using Pddl.typedVarToks.induct with
  | case1 b => cases b <;> rfl
  | case2 b n ts ih =>
    simp [Tree.renames, Tree.rename, Tok.rename, Pddl.typedVarToks, ih hl.tail.tail, Function.comp_def, TTok.rename]
  | case3 t ts l r hd h ih =>
    simp [Tree.renames, Tree.rename, Tok.rename, Pddl.typedVarToks, R.typeDef hl.tail.head, ih hl.tail.tail, hd, h,
      TTok.rename, R.dash]
  | case4 t ts hn ih =>
    simp only [Tree.renames, Tree.rename, Tok.rename, Pddl.typedVarToks, R.typeDef hl.tail.head, ih hl.tail.tail]
    cases h1 : Pddl.typeDef t with
    | none => rfl
    | some l =>
      cases h2 : Pddl.typedVarToks false ts with
      | none => rfl
      | some r => exact absurd h2 (hn l r h1)
  | case5 ts b h1 h2 h3 =>
    have e : Pddl.typedVarToks b ts = none := by
      rw [Pddl.typedVarToks.eq_def]; split <;> first | rfl | simp_all
    rw [e]
    rcases ts with _ | ⟨⟨t⟩ | l, rest⟩
    · exact absurd rfl h1
    · cases t with
      | qmark =>
        rcases rest with _ | ⟨⟨t⟩ | l, rest⟩
        · cases b <;> rfl
        · cases t <;> first | (cases b <;> rfl) | exact absurd rfl (h2 _ rest)
        · cases b <;> rfl
      | minus =>
        cases b with
        | false => rcases rest with _ | ⟨t, rest⟩ <;> rfl
        | true =>
          rcases rest with _ | ⟨t, rest⟩
          · rfl
          · exact absurd rfl (h3 t rest rfl)
      | _ => cases b <;> rfl
    · cases b <;> rfl

theorem Spec.Renaming.itemEq (a b : Item) : (a.rename ρ).pyEq (b.rename ρ) = a.pyEq b := by
  cases a <;> cases b <;> simp [Item.rename, Item.pyEq, R.eq_iff, R.nfunEq]

theorem Spec.Renaming.indexGet (x : TIndex) (i : Item) :
    (x.rename ρ).get (i.rename ρ) = (x.get i).map (List.map ρ) := by
  obtain ⟨l, s⟩ := x
  simp only [TIndex.get, TIndex.rename]
  induction l with
  | nil => rfl
  | cons p l ih =>
    simp only [List.map_cons, List.find?_cons, R.itemEq]
    cases i.pyEq p.1 with
    | true => rfl
    | false => exact ih

theorem Spec.Renaming.filterNot (tags l : List Str) :
    (tags.map ρ).filter (fun t => decide (t ∉ l.map ρ)) = (tags.filter (fun t => decide (t ∉ l))).map ρ := by
  rw [List.filter_map]
  congr 1
  apply List.filter_congr
  intro t _
  simp only [Function.comp, R.mem_map]

theorem Spec.Renaming.indexAdd (x : TIndex) (i : Item) (tags : List Str) :
    (x.rename ρ).add (i.rename ρ) (tags.map ρ) = (x.add i tags).rename ρ := by
  obtain ⟨l, s⟩ := x
  simp only [TIndex.add, TIndex.rename, List.any_map, Function.comp_def, R.itemEq, TIndex.mk.injEq]
  refine ⟨?_, by simp⟩
  split
  · simp only [List.map_map, Function.comp_def, R.itemEq]
    apply List.map_congr_left
    intro p _
    split
    · rw [R.filterNot]; simp
    · rfl
  · simp

theorem Spec.Renaming.indexAddItem (d : Bool) (x : TIndex) (i : Item) (tags : List Str) :
    (x.rename ρ).addItem d (i.rename ρ) (tags.map ρ) = (x.addItem d i tags).map (TIndex.rename ρ) := by
  have hall : (tags.map ρ).all (fun t => decide (t ∉ ((x.get i).map (List.map ρ)).getD [])) =
      tags.all (fun t => decide (t ∉ (x.get i).getD [])) := by
    rw [List.all_map]
    congr 1; funext t
    cases x.get i with
    | none => rfl
    | some l => simp only [Function.comp, Option.map_some, Option.getD_some, R.mem_map]
  unfold TIndex.addItem
  simp only [R.indexGet, hall, Option.isNone_map]
  cases d <;> simp only [Bool.not_false, Bool.not_true, if_true, Bool.false_eq_true, if_false]
  · refine check_bind_map rfl (fun _ => check_bind_map rfl (fun _ => ?_))
    cases x.get i with
    | none => simp [R.indexAdd]
    | some old =>
      simp only [Option.map_some, R.setEq]
      exact check_bind_map rfl (fun _ => by simp [R.indexAdd])
  · cases x.get i with
    | none => simp [R.indexAdd]
    | some old =>
      simp only [Option.map_some, R.setEq]
      exact check_bind_map rfl (fun _ => by simp [R.indexAdd])

theorem Spec.Renaming.item (t : TTok) : (t.rename ρ).item = t.item.map (Item.rename ρ) := by
  cases t with
  | str s => exact map_bind_map (R.parseName s) (fun _ _ => rfl)
  | list l => rfl
  | fn f => rfl

theorem Spec.Renaming.addTypedLists (d : Bool) (tags : List Str) (x : TIndex) (ts : List TTok) :
    Pddl.addTypedLists d (tags.map ρ) (x.rename ρ) (ts.map (TTok.rename ρ)) =
      (Pddl.addTypedLists d tags x ts).map (TIndex.rename ρ) := by
  induction ts generalizing x with
  | nil => rfl
  | cons t ts ih =>
    simp only [List.map_cons, Pddl.addTypedLists]
    refine map_bind_map (R.item t) (fun i _ => ?_)
    refine map_bind_map (R.toType tags) (fun tags' _ => ?_)
    rw [R.dedup]
    exact map_bind_map (R.indexAddItem d x i _) (fun x' _ => ih x')

theorem Spec.Renaming.isSep (t : TTok) : (t.rename ρ).isSep = t.isSep := by
  cases t <;> simp [TTok.rename, TTok.isSep, R.fixed_iff R.dash]

theorem Spec.Renaming.sepIndex (ts : List TTok) (n : Nat) :
    Pddl.sepIndex (ts.map (TTok.rename ρ)) n = Pddl.sepIndex ts n := by
  simp only [Pddl.sepIndex, ← List.map_drop, List.findIdx?_map]
  congr 2
  funext t; exact R.isSep t

theorem Spec.Renaming.parents (t : TTok) : (t.rename ρ).parents = t.parents.map (List.map ρ) := by
  cases t with
  | str s => rfl
  | list l => simp [TTok.rename, TTok.parents, R.dedup]
  | fn f => rfl

theorem Spec.Renaming.typedLoop (d : Bool) (ts : List TTok) (fuel start : Nat) (x : TIndex) :
    Pddl.typedLoop d (ts.map (TTok.rename ρ)) fuel start (x.rename ρ) =
      (Pddl.typedLoop d ts fuel start x).map (TIndex.rename ρ) := by
  have hs : ∀ a b, slice (ts.map (TTok.rename ρ)) a b = (slice ts a b).map (TTok.rename ρ) := by
    intro a b; simp [slice, List.map_take, List.map_drop]
  induction fuel generalizing start x with
  | zero => rfl
  | succ fuel ih =>
    simp only [Pddl.typedLoop, R.sepIndex, List.length_map, hs, List.getElem?_map]
    cases Pddl.sepIndex ts start with
    | none =>
      simp only
      split
      · exact R.addTypedLists d [] x _
      · rfl
    | some sep =>
      simp only
      cases ts[sep + 1]? with
      | none => rfl
      | some t =>
        simp only [Option.map_some]
        refine map_bind_map (R.parents t) (fun tags _ => ?_)
        exact map_bind_map (R.addTypedLists d tags x _) (fun x' _ => ih _ x')

theorem Spec.Renaming.parseTypedList (d : Bool) (ts : List TTok) :
    Pddl.parseTypedList d (ts.map (TTok.rename ρ)) = (Pddl.parseTypedList d ts).map (TIndex.rename ρ) := by
  unfold Pddl.parseTypedList
  rw [List.length_map]
  exact R.typedLoop d ts _ 0 ⟨[], []⟩

omit R in
theorem namesOf_rename (l : List (Item × List Str)) :
    namesOf (l.map (fun p => (p.1.rename ρ, p.2.map ρ))) =
      (namesOf l).map (List.map (fun p => (p.1.rename ρ, p.2.map ρ))) := by
  induction l with
  | nil => rfl
  | cons p l ih =>
    obtain ⟨i, tags⟩ := p
    simp only [List.map_cons, namesOf, List.length_map]
    exact check_bind_map rfl (fun _ => map_bind_map ih (fun r _ => by simp))

omit R in
theorem typedListError_rename {α β : Type} {toks : List TTok} {g : α → β} {x : Except Exc α} {x' : Except Exc β}
    (h : x' = x.map g) : typedListError (toks.map (TTok.rename ρ)) x' = (typedListError toks x).map g := by
  subst h
  cases x with
  | ok a => rfl
  | error e =>
    cases e <;> simp only [Except.map_error', typedListError, List.any_map]
    congr 4
    funext t
    cases t <;> rfl

theorem Spec.Renaming.typedListName (ts : List TTok) :
    Pddl.typedListName (ts.map (TTok.rename ρ)) =
      (Pddl.typedListName ts).map (List.map (fun p => (ρ p.1, p.2.map ρ))) := by
  unfold Pddl.typedListName
  apply typedListError_rename
  refine map_bind_map (R.parseTypedList false ts) (fun x _ => ?_)
  refine map_bind_map (namesOf_rename x.itemToTypes) (fun l hx => ?_)
  clear hx
  show Except.ok _ = Except.ok _
  rw [List.filterMap_map, List.map_filterMap]
  congr 2
  funext ⟨i, q⟩
  cases i <;> rfl

theorem Spec.Renaming.typedListVariable (ts : List TTok) :
    Pddl.typedListVariable (ts.map (TTok.rename ρ)) =
      (Pddl.typedListVariable ts).map (List.map (fun p => (ρ p.1, p.2.map ρ))) := by
  unfold Pddl.typedListVariable
  apply typedListError_rename
  refine map_bind_map (R.parseTypedList true ts) (fun x _ => ?_)
  show Except.ok _ = Except.ok _
  simp only [TIndex.variables, TIndex.rename]
  rw [List.filterMap_map, List.map_filterMap]
  congr 2
  funext ⟨i, q⟩
  cases i <;> rfl

theorem Spec.Renaming.mkVars (l : List (Str × List Str)) :
    Pddl.mkVars (l.map (fun p => (ρ p.1, p.2.map ρ))) = (Pddl.mkVars l).map (List.map (Var.rename ρ)) := by
  induction l with
  | nil => rfl
  | cons p l ih =>
    obtain ⟨n, tags⟩ := p
    simp only [List.map_cons, Pddl.mkVars]
    exact map_bind_map (R.mkVar n tags) (fun v _ => map_bind_map ih (fun vs _ => by simp))

end
end Pddl
