/-
Which exceptions the callbacks can raise.
-/
import Verif.Proofs.GrammarSound

namespace Pddl
open Spec Spec.Grammar

/-- The exception of a call, if it raises one. -/
def raised {α : Type _} : Except Exc α → Option Exc
  | .error e => some e
  | .ok _ => none

theorem raised_some {α : Type _} {x : Except Exc α} {e : Exc} : raised x = some e ↔ x = .error e := by
  cases x <;> simp [raised]

/-- A failing computation raises one of the exceptions. -/
def Within {α : Type} (S : List Exc) (x : Except Exc α) : Prop := ∀ e, x = .error e → e ∈ S

theorem Within.ok {α : Type} {S : List Exc} {a : α} : Within S (.ok a : Except Exc α) := by intro e h; cases h
theorem Within.pure {α : Type} {S : List Exc} {a : α} : Within S (Pure.pure a : Except Exc α) := by intro e h; cases h
theorem Within.error {α : Type} {S : List Exc} {e : Exc} (h : e ∈ S) : Within S (.error e : Except Exc α) := by
  intro e' he; cases he; exact h
theorem Within.bind {α β : Type} {S : List Exc} {x : Except Exc α} {f : α → Except Exc β} (hx : Within S x)
    (hf : ∀ a, x = .ok a → Within S (f a)) : Within S (x >>= f) := by
  intro e h
  cases x with
  | error e' =>
    have : e' = e := by
      have h' : (Except.error e' : Except Exc β) = .error e := h
      cases h'; rfl
    subst this
    exact hx _ rfl
  | ok a => exact hf a rfl e h
theorem Within.mono {α : Type} {S T : List Exc} {x : Except Exc α} (h : Within S x) (hs : ∀ e ∈ S, e ∈ T) : Within T x :=
  fun e he => hs e (h e he)
theorem Within.check {S : List Exc} {b : Bool} {e : Exc} (h : b = false → e ∈ S) : Within S (Pddl.check b e) := by
  cases b
  · exact Within.error (h rfl)
  · exact Within.ok

theorem Within.mapM {α β : Type} {S : List Exc} {f : α → Except Exc β} {l : List α} (h : ∀ a ∈ l, Within S (f a)) :
    Within S (l.mapM f) := by
  induction l with
  | nil => exact Within.pure
  | cons a l ih =>
    rw [List.mapM_cons]
    exact Within.bind (h a (by simp)) (fun b _ => Within.bind (ih (fun a ha => h a (by simp [ha]))) (fun _ _ => Within.pure))

/-- What the constructors of names raise. -/
abbrev nameErrors : List Exc := [.validation, .value]

theorem within_parseWith {i : List Str} {n : Str} : Within nameErrors (parseWith i n) := by
  unfold parseWith mkName
  split
  · exact Within.error (by simp)
  · split
    · exact Within.ok
    · exact Within.error (by simp)

theorem within_parseName {n : Str} : Within nameErrors (parseName n) := within_parseWith
theorem within_parseType {n : Str} : Within nameErrors (parseType n) := within_parseWith
theorem within_parseFunction {n : Str} : Within nameErrors (parseFunction n) := within_parseWith

theorem within_mkVar {n : Str} {ts : List Str} : Within nameErrors (mkVar n (.set ts)) :=
  Within.bind within_parseName (fun _ _ => Within.bind Within.ok (fun _ _ =>
    Within.bind (Within.mapM (fun _ _ => within_parseType)) (fun _ _ => Within.pure)))

theorem within_mkVars {l : List (Str × List Str)} : Within nameErrors (mkVars l) := by
  induction l with
  | nil => exact Within.pure
  | cons a l ih =>
    exact Within.bind within_mkVar (fun _ _ => Within.bind ih (fun _ _ => Within.pure))

theorem within_mkConst {n : Str} {t : Option Str} : Within nameErrors (mkConst n t) := by
  unfold mkConst
  refine Within.bind within_parseName (fun _ _ => ?_)
  split
  · exact Within.pure
  · exact Within.bind within_parseType (fun _ _ => Within.pure)

theorem within_mkConsts {l : List (Str × Option Str)} : Within nameErrors (mkConsts l) := by
  induction l with
  | nil => exact Within.pure
  | cons a l ih => exact Within.bind within_mkConst (fun _ _ => Within.bind ih (fun _ _ => Within.pure))

theorem within_mkPred {n : Str} {ts : List Term} : Within nameErrors (mkPred n ts) :=
  Within.bind within_parseName (fun _ _ => Within.bind (Within.check (fun _ => by simp)) (fun _ _ => Within.pure))

theorem within_mkEq {l r : Term} : Within nameErrors (mkEq l r) :=
  Within.bind (Within.check (fun _ => by simp)) (fun _ _ => Within.pure)

theorem within_mkNFun {n : Str} {ts : List Term} : Within nameErrors (mkNFun n ts) :=
  Within.bind within_parseFunction (fun _ _ => Within.pure)

theorem within_mkAction {n : Str} {ps : List Term} {p e : Option Expr} : Within nameErrors (mkAction n ps p e) :=
  Within.bind within_parseName (fun _ _ => Within.pure)

theorem within_numLiteral {F : FloatOf} {s : Str} : Within nameErrors (numLiteral F s) := by
  unfold numLiteral
  split
  · split
    · exact Within.pure
    · exact Within.error (by simp)
  · exact Within.pure

/-! ### Typed lists -/

theorem within_addItem {ad : Bool} {x : TIndex} {i : Item} {tags : List Str} : Within nameErrors (x.addItem ad i tags) := by
  unfold TIndex.addItem
  have hc : ∀ b : Bool, Within nameErrors (Pddl.check b .value) := fun b => Within.check (fun _ => by simp)
  cases hx : x.get i with
  | none =>
    cases ad
    · exact Within.bind (hc _) (fun _ _ => Within.bind (hc _) (fun _ _ => Within.pure))
    · exact Within.pure
  | some old =>
    cases ad
    · exact Within.bind (hc _) (fun _ _ => Within.bind (hc _) (fun _ _ => Within.bind (hc _) (fun _ _ => Within.pure)))
    · exact Within.bind (hc _) (fun _ _ => Within.pure)

theorem within_addTypedLists {ad : Bool} {tags : List Str} {ts : List TTok} (hi : ∀ t ∈ ts, ∀ l, t ≠ .list l) (x : TIndex) :
    Within nameErrors (addTypedLists ad tags x ts) := by
  induction ts generalizing x with
  | nil => exact Within.pure
  | cons t ts ih =>
    unfold addTypedLists
    refine Within.bind ?_ (fun _ _ => Within.bind (Within.mapM (fun _ _ => within_parseType)) (fun _ _ =>
      Within.bind within_addItem (fun _ _ => ih (fun t ht => hi t (by simp [ht])) _)))
    cases t with
    | str s => exact Within.bind within_parseName (fun _ _ => Within.pure)
    | fn f => exact Within.pure
    | list l => exact absurd rfl (hi _ (by simp) l)

/-- The form of a written list, whatever the words are. -/
structure ListShape (l : TypedList) : Prop where
  items : ∀ g ∈ l.groups, ∀ t ∈ g.1, t.isSep = false ∧ ∀ l, t ≠ .list l
  rest : ∀ t ∈ l.rest, t.isSep = false ∧ ∀ l, t ≠ .list l
  types : ∀ g ∈ l.groups, ∀ f, g.2 ≠ .fn f

theorem within_typedLoop {ad : Bool} {l : TypedList} (hl : ListShape l) {pre : List TTok} {x : TIndex} {fuel : Nat}
    (hf : l.groups.length < fuel) : Within nameErrors (typedLoop ad (pre ++ l.tokens) fuel pre.length x) := by
  obtain ⟨gs, rest⟩ := l
  induction gs generalizing pre x fuel with
  | nil =>
    obtain ⟨n, rfl⟩ : ∃ n, fuel = n + 1 := ⟨fuel - 1, by simp at hf; omega⟩
    simp only [TypedList.tokens, List.flatMap_nil, List.nil_append, typedLoop,
      sepIndex_none pre rest (fun t h => (hl.rest t h).1)]
    split
    · have : slice (pre ++ rest) pre.length (pre ++ rest).length = rest := by
        unfold slice
        rw [List.take_of_length_le (by omega), List.drop_left]
      rw [this]
      exact within_addTypedLists (fun t h => (hl.rest t h).2) x
    · exact Within.pure
  | cons g gs ih =>
    obtain ⟨items, t⟩ := g
    obtain ⟨n, rfl⟩ : ∃ n, fuel = n + 1 := ⟨fuel - 1, by simp at hf; omega⟩
    have htok : TypedList.tokens ⟨(items, t) :: gs, rest⟩
        = items ++ [.str (s%"-"), t] ++ TypedList.tokens ⟨gs, rest⟩ := by
      simp [TypedList.tokens, List.append_assoc]
    have hi := hl.items (items, t) (by simp)
    rw [htok, typedLoop, sepIndex_append _ _ _ _ (fun t h => (hi t h).1)]
    have hget : (pre ++ (items ++ [TTok.str (s%"-"), t] ++ TypedList.tokens ⟨gs, rest⟩))[pre.length + items.length + 1]? = some t := by
      rw [List.getElem?_append_right (by omega)]
      rw [List.append_assoc, List.getElem?_append_right (by omega)]
      have : pre.length + items.length + 1 - pre.length - items.length = 1 := by omega
      rw [this]; rfl
    have hslice : slice (pre ++ (items ++ [TTok.str (s%"-"), t] ++ TypedList.tokens ⟨gs, rest⟩)) pre.length
        (pre.length + items.length) = items := by
      unfold slice
      rw [List.take_append, List.take_of_length_le (by omega), List.drop_left]
      have : pre.length + items.length - pre.length = items.length := by omega
      rw [this, List.append_assoc, List.take_left]
    simp only [hget, hslice]
    refine Within.bind ?_ (fun tags _ => Within.bind (within_addTypedLists (fun t h => (hi t h).2) x) (fun y _ => ?_))
    · cases t with
      | str s => exact Within.pure
      | list l => exact Within.pure
      | fn f => exact absurd rfl (hl.types (items, .fn f) (by simp) f)
    · have hl' : ListShape ⟨gs, rest⟩ := ⟨fun g hg => hl.items g (List.mem_cons_of_mem _ hg), hl.rest,
        fun g hg => hl.types g (List.mem_cons_of_mem _ hg)⟩
      have := ih hl' (pre := pre ++ items ++ [.str (s%"-"), t]) (x := y) (fuel := n) (by simp at hf ⊢; omega)
      have hlen : (pre ++ items ++ [TTok.str (s%"-"), t]).length = pre.length + items.length + 2 := by
        simp; omega
      rw [hlen] at this
      have e : pre ++ items ++ [TTok.str (s%"-"), t] ++ TypedList.tokens ⟨gs, rest⟩ =
          pre ++ (items ++ [TTok.str (s%"-"), t] ++ TypedList.tokens ⟨gs, rest⟩) := by simp [List.append_assoc]
      rw [e] at this
      exact this

theorem within_parseTypedList {ad : Bool} {l : TypedList} (hl : ListShape l) :
    Within nameErrors (parseTypedList ad l.tokens) := by
  have := within_typedLoop (ad := ad) hl (pre := []) (x := ⟨[], []⟩) (fuel := l.tokens.length + 1)
    (by have := groups_le l; omega)
  simpa [parseTypedList] using this

theorem within_typedListError {α : Type} {toks : List TTok} {x : Except Exc α} (h : Within nameErrors x)
    (ht : ∀ t ∈ toks, ∀ f, t ≠ .fn f) : Within [.validation, .parsing] (typedListError toks x) := by
  intro e he
  unfold typedListError at he
  split at he
  · rw [if_neg] at he
    · cases he; simp
    · simp only [List.any_eq_true, not_exists, not_and]
      intro t hm
      cases t with
      | fn f => exact absurd rfl (ht _ hm f)
      | str s => simp
      | list l => simp
  · rename_i hne
    have := h e he
    simp only [List.mem_cons, List.not_mem_nil, or_false] at this
    rcases this with rfl | rfl
    · simp
    · subst he; exact absurd rfl (hne ·)

theorem within_typedListError_any {α : Type} {toks : List TTok} {x : Except Exc α} (h : Within nameErrors x) :
    Within [.validation, .parsing, .type_] (typedListError toks x) := by
  intro e he
  unfold typedListError at he
  split at he
  · cases he
    split <;> simp
  · rename_i hne
    have := h e he
    simp only [List.mem_cons, List.not_mem_nil, or_false] at this
    rcases this with rfl | rfl
    · simp
    · subst he; exact absurd rfl (hne ·)

theorem within_namesOf {l : List (Item × List Str)} : Within nameErrors (namesOf l) := by
  induction l with
  | nil => exact Within.pure
  | cons a l ih => exact Within.bind (Within.check (fun _ => by simp)) (fun _ _ => Within.bind ih (fun _ _ => Within.pure))

/-- All words have the form of names. -/
def Clean (t : Tree) : Prop := ∀ n, Inside (.atom (.name n)) t → nameRegex n = true

theorem Clean.of_mem {l : List Tree} (h : Clean (.node l)) {t : Tree} (ht : t ∈ l) : Clean t :=
  fun n hn => h n (.node ht hn)

theorem Spec.VarsText.listShape {ts : List Tree} {l : TypedList} (h : VarsText ts l) (hc : ∀ t ∈ ts, Clean t) :
    ListShape l where
  items g hg t ht := by
    obtain ⟨n, rfl, hn⟩ := h.shape.2.1 g hg t ht
    exact ⟨nameRegex_not_sep (hc _ hn n .refl), by simp⟩
  rest t ht := by
    obtain ⟨n, rfl, hn⟩ := h.shape.2.2 t ht
    exact ⟨nameRegex_not_sep (hc _ hn n .refl), by simp⟩
  types g hg f hf := by
    obtain ⟨_, ts, ht⟩ := h.shape.1 g hg
    rw [ht] at hf
    cases hf

theorem tokens_noFn {l : TypedList} (h1 : ∀ g ∈ l.groups, ∀ t ∈ g.1, ∃ n, t = TTok.str n)
    (h2 : ∀ t ∈ l.rest, ∃ n, t = TTok.str n) (h3 : ∀ g ∈ l.groups, ∀ f, g.2 ≠ .fn f) :
    ∀ t ∈ l.tokens, ∀ f, t ≠ TTok.fn f := by
  intro t ht f
  rintro rfl
  simp only [TypedList.tokens, List.mem_append, List.mem_flatMap, List.mem_cons, List.not_mem_nil, or_false,
    reduceCtorEq, false_or] at ht
  rcases ht with ⟨g, hg, ht⟩ | ht
  · rcases ht with ht | ht
    · obtain ⟨n, hn⟩ := h1 g hg _ ht; cases hn
    · exact h3 g hg f ht.symm
  · obtain ⟨n, hn⟩ := h2 _ ht; cases hn

theorem within_typedListVariable {ts : List Tree} {toks : List TTok} (hc : ∀ t ∈ ts, Clean t)
    (h : typedVarToks false ts = some toks) : Within [.validation, .parsing] (typedListVariable toks) := by
  obtain ⟨l, hl, rfl⟩ := typedVarToks_iff.1 h
  refine within_typedListError (Within.bind (within_parseTypedList (hl.listShape hc)) (fun _ _ => Within.pure)) ?_
  refine tokens_noFn (fun g hg t ht => ?_) (fun t ht => ?_) (hl.listShape hc).types
  · obtain ⟨n, hn, _⟩ := hl.shape.2.1 g hg t ht; exact ⟨n, hn⟩
  · obtain ⟨n, hn, _⟩ := hl.shape.2.2 t ht; exact ⟨n, hn⟩

theorem within_parseTypedVars {S : List Exc} {ts : List Tree} (hc : ∀ t ∈ ts, Clean t) (hl : .lark ∈ S ∨ TypedVars ts)
    (hs : ∀ e ∈ [Exc.validation, .value, .parsing], e ∈ S) : Within S (parseTypedVars ts) := by
  unfold parseTypedVars
  split
  · rename_i toks ht
    exact Within.bind ((within_typedListVariable hc ht).mono (by simp at hs ⊢; tauto))
      (fun _ _ => within_mkVars.mono (by simp at hs ⊢; tauto))
  · rename_i hn
    rcases hl with hl | ⟨l, hl⟩
    · exact Within.error hl
    · rw [typedVarToks_iff.2 ⟨l, hl, rfl⟩] at hn; cases hn

theorem within_parseTypedNames {S : List Exc} {ts : List Tree} (hc : ∀ t ∈ ts, Clean t) (hl : .lark ∈ S ∨ TypedNames ts)
    (hs : ∀ e ∈ [Exc.validation, .value, .parsing], e ∈ S) : Within S (parseTypedNames ts) := by
  unfold parseTypedNames
  split
  · rename_i toks ht
    obtain ⟨l, hg, rfl, rfl⟩ := typedNameToks_iff.1 ht
    have hsh : ListShape l.toTyped := by
      have hw : ∀ n, word n ∈ l.text → (TTok.str n).isSep = false := fun n hn => nameRegex_not_sep (hc _ hn n .refl)
      refine ⟨?_, ?_, ?_⟩
      · intro g hg t ht
        simp only [NameList.toTyped, List.mem_map] at hg
        obtain ⟨g', hg', rfl⟩ := hg
        simp only [List.mem_map] at ht
        obtain ⟨n, hn, rfl⟩ := ht
        refine ⟨hw n ?_, by simp⟩
        refine List.mem_append_left _ (List.mem_flatMap.2 ⟨g', hg', ?_⟩)
        simp only [List.mem_append, List.mem_map]
        exact .inl ⟨n, hn, rfl⟩
      · intro t ht
        simp only [NameList.toTyped, List.mem_map] at ht
        obtain ⟨n, hn, rfl⟩ := ht
        exact ⟨hw n (List.mem_append_right _ (List.mem_map.2 ⟨n, hn, rfl⟩)), by simp⟩
      · intro g hg f
        simp only [NameList.toTyped, List.mem_map] at hg
        obtain ⟨g', hg', rfl⟩ := hg
        simp
    refine Within.mono ?_ (show ∀ e ∈ [Exc.validation, .parsing], e ∈ S by simp at hs ⊢; tauto)
    refine within_typedListError (Within.bind (within_parseTypedList hsh) (fun _ _ =>
      Within.bind within_namesOf (fun _ _ => Within.pure))) ?_
    refine tokens_noFn (fun g hg t ht => ?_) (fun t ht => ?_) hsh.types
    · simp only [NameList.toTyped, List.mem_map] at hg
      obtain ⟨g', hg', rfl⟩ := hg
      simp only [List.mem_map] at ht
      obtain ⟨n, hn, rfl⟩ := ht
      exact ⟨n, rfl⟩
    · simp only [NameList.toTyped, List.mem_map] at ht
      obtain ⟨n, hn, rfl⟩ := ht
      exact ⟨n, rfl⟩
  · rename_i hn
    rcases hl with hl | ⟨l, hl, hg⟩
    · exact Within.error hl
    · rw [hl, typedNameToks_text l hg] at hn; cases hn

/-! ### Formulas -/

/-- What the callbacks for formulas may raise, besides what they read from the transformer. -/
structure EnvWithin (S : List Exc) (E : GEnv) : Prop where
  names : ∀ e ∈ nameErrors, e ∈ S
  missing : .missingReq ∈ S
  constant : ∀ n, Within S (E.constant n)
  vars : ∀ ts toks, (∀ t ∈ ts, Clean t) → typedVarToks false ts = some toks → Within S (E.typedVars toks)

theorem within_terms {S : List Exc} {E : GEnv} (hE : EnvWithin S E) {ts : List Tree} (hl : .lark ∈ S ∨ Terms ts) :
    Within S (E.terms ts) := by
  fun_induction GEnv.terms with
  | case1 => exact Within.pure
  | case2 n ts ih =>
    refine Within.bind (hE.constant n) (fun _ _ => Within.bind (ih ?_) (fun _ _ => Within.pure))
    rcases hl with hl | hl
    · exact .inl hl
    · cases hl with | constant _ h => exact .inr h
  | case3 n ts ih =>
    refine Within.bind ?_ (fun _ _ => Within.bind (ih ?_) (fun _ _ => Within.pure))
    · unfold GEnv.variable
      split
      · exact Within.pure
      · exact Within.bind (within_mkVar.mono hE.names) (fun _ _ => Within.pure)
    · rcases hl with hl | hl
      · exact .inl hl
      · cases hl with | «variable» _ h => exact .inr h
  | case4 ts h1 h2 h3 =>
    rcases hl with hl | hl
    · exact Within.error hl
    · cases hl with
      | nil => exact absurd rfl h1
      | constant n h => exact absurd rfl (h2 n _)
      | «variable» n h => exact absurd rfl (h3 n _)

theorem within_fHead {S : List Exc} {E : GEnv} (hE : EnvWithin S E) {t : Tree} (hl : .lark ∈ S ∨ FHead t) :
    Within S (E.fHead t) := by
  unfold GEnv.fHead
  split
  · exact within_mkNFun.mono hE.names
  · refine Within.bind (within_terms hE ?_) (fun _ _ => within_mkNFun.mono hE.names)
    rcases hl with hl | hl
    · exact .inl hl
    · cases hl with | args _ h => exact .inr h
  · rename_i h1 h2
    rcases hl with hl | hl
    · exact Within.error hl
    · cases hl with
      | name n => exact absurd rfl (h1 n)
      | args n h => exact absurd rfl (h2 n _)

theorem within_fExps {S : List Exc} {E : GEnv} {ts : List Tree} (h : ∀ t ∈ ts, Within S (E.fExp t)) :
    Within S (E.fExps ts) := by
  induction ts with
  | nil => rw [GEnv.fExps]; exact Within.pure
  | cons t ts ih =>
    rw [GEnv.fExps]
    exact Within.bind (h t (by simp)) (fun _ _ => Within.bind (ih (fun t ht => h t (by simp [ht]))) (fun _ _ => Within.pure))

/-- The arguments of an operator. -/
theorem within_op {S : List Exc} {E : GEnv} {args : List Tree} {b : Bool} {f : List Expr → Expr}
    (ih : ∀ t ∈ args, (.lark ∈ S ∨ FExp False t) → Within S (E.fExp t))
    (hl : .lark ∈ S ∨ (b = true ∧ ∀ t ∈ args, FExp False t)) :
    Within S (do let es ← E.fExps args; check b .lark; pure (f es)) := by
  refine Within.bind (within_fExps (fun t ht => ih t ht (hl.imp_right (fun h => h.2 t ht)))) (fun _ _ => ?_)
  refine Within.bind (Within.check (fun hb => ?_)) (fun _ _ => Within.pure)
  rcases hl with hl | ⟨hl, _⟩
  · exact hl
  · rw [hl] at hb; cases hb

theorem within_fExp {S : List Exc} {E : GEnv} (hE : EnvWithin S E) {t : Tree} (hl : .lark ∈ S ∨ FExp False t) :
    Within S (E.fExp t) := by
  induction t using Tree.ind with
  | hatom t =>
    cases t with
    | num s => rw [GEnv.fExp]; exact Within.bind (within_numLiteral.mono hE.names) (fun _ _ => Within.pure)
    | name n =>
      rw [GEnv.fExp]
      exact Within.bind (within_fHead hE (.inr (.name n))) (fun _ _ => Within.pure)
    | _ =>
      rw [GEnv.fExp]
      · rcases hl with hl | hl
        · exact Within.error hl
        · cases hl with | head h => cases h
      all_goals simp
  | hnode l ih =>
    have bad : (∀ a, l ≠ .atom .plus :: a) → (∀ a, l ≠ .atom .times :: a) → (∀ a, l ≠ .atom .divide :: a) →
        (∀ a, l ≠ .atom .minus :: a) → (∀ n a, l ≠ .atom (.name n) :: a) → .lark ∈ S := by
      intro h1 h2 h3 h4 h5
      rcases hl with hl | hl
      · exact hl
      · cases hl with
        | plus => exact absurd rfl (h1 _)
        | times => exact absurd rfl (h2 _)
        | divide => exact absurd rfl (h3 _)
        | minus => exact absurd rfl (h4 _)
        | negate => exact absurd rfl (h4 _)
        | head h => cases h with | args n _ => exact absurd rfl (h5 n _)
    cases l with
    | nil => rw [GEnv.fExp]; exact Within.error (bad (by simp) (by simp) (by simp) (by simp) (by simp)); all_goals simp
    | cons x args =>
      have ih' := fun t (ht : t ∈ args) => ih t (List.mem_cons_of_mem _ ht)
      cases x with
      | node x =>
        rw [GEnv.fExp]
        exact Within.error (bad (by simp) (by simp) (by simp) (by simp) (by simp))
        all_goals simp
      | atom x =>
        cases x with
        | plus =>
          rw [GEnv.fExp]
          refine within_op ih' (hl.imp_right (fun h => ?_))
          cases h with
          | plus h1 h2 => exact ⟨by simpa using h1, h2⟩
          | head h => cases h
        | times =>
          rw [GEnv.fExp]
          refine within_op ih' (hl.imp_right (fun h => ?_))
          cases h with
          | times h1 h2 => exact ⟨by simpa using h1, h2⟩
          | head h => cases h
        | divide =>
          rw [GEnv.fExp]
          refine within_op ih' (hl.imp_right (fun h => ?_))
          cases h with
          | divide h1 h2 => exact ⟨by simp, by simp [h1, h2]⟩
          | head h => cases h
        | minus =>
          rw [GEnv.fExp]
          refine within_op ih' (hl.imp_right (fun h => ?_))
          cases h with
          | minus h => exact h.elim
          | negate h1 => exact ⟨by simp, by simp [h1]⟩
          | head h => cases h
        | name n =>
          rw [GEnv.fExp]
          refine Within.bind (within_fHead hE (hl.imp_right (fun h => ?_))) (fun _ _ => Within.pure)
          cases h with
          | head h => exact h
        | _ =>
          rw [GEnv.fExp]
          exact Within.error (bad (by simp) (by simp) (by simp) (by simp) (by simp))
          all_goals simp

theorem Spec.Grammar.Terms.append {a b : List Tree} (ha : Terms a) (hb : Terms b) : Terms (a ++ b) := by
  induction ha with
  | nil => exact hb
  | constant n _ ih => exact .constant n ih
  | «variable» n _ ih => exact .variable n ih

theorem Spec.Grammar.Term1.terms {a : List Tree} (h : Term1 a) : Terms a := by
  cases h with
  | constant n => exact .constant n .nil
  | «variable» n => exact .variable n .nil

/-- Two written terms give two terms. -/
theorem terms_length {E : GEnv} {a b : List Tree} (ha : Term1 a) (hb : Term1 b) {ts : List Term}
    (h : E.terms (a ++ b) = .ok ts) : ∃ l r, ts = [l, r] := by
  have one : ∀ {b : List Tree}, Term1 b → ∀ {ts}, E.terms b = .ok ts → ∃ r, ts = [r] := by
    intro b hb ts h
    cases hb with
    | constant n =>
      simp only [word, GEnv.terms, bind_ok_iff, pure_ok, Except.ok.injEq] at h
      obtain ⟨t, _, r, rfl, rfl⟩ := h
      exact ⟨t, rfl⟩
    | «variable» n =>
      simp only [word, GEnv.terms, bind_ok_iff, pure_ok, Except.ok.injEq] at h
      obtain ⟨t, _, r, rfl, rfl⟩ := h
      exact ⟨t, rfl⟩
  cases ha with
  | constant n =>
    simp only [word, List.cons_append, List.nil_append, GEnv.terms, bind_ok_iff, pure_ok, Except.ok.injEq] at h
    obtain ⟨t, _, r, hr, rfl⟩ := h
    obtain ⟨r', rfl⟩ := one hb hr
    exact ⟨t, r', rfl⟩
  | «variable» n =>
    simp only [word, List.cons_append, List.nil_append, GEnv.terms, bind_ok_iff, pure_ok, Except.ok.injEq] at h
    obtain ⟨t, _, r, hr, rfl⟩ := h
    obtain ⟨r', rfl⟩ := one hb hr
    exact ⟨t, r', rfl⟩

theorem within_atomic {S : List Exc} {E : GEnv} (hE : EnvWithin S E) {kws : List Str} {l : List Tree}
    (hl : .lark ∈ S ∨ Atomic kws (.node l)) : Within S (E.atomic l) := by
  unfold GEnv.atomic
  split
  · rename_i args
    refine Within.bind (within_terms hE (hl.imp_right (fun h => ?_))) (fun ts hts => ?_)
    · cases h with | equal h1 h2 => exact h1.terms.append h2.terms
    · split
      · exact Within.bind (Within.check (fun _ => hE.missing)) (fun _ _ => within_mkEq.mono hE.names)
      · rename_i hn
        rcases hl with hl | hl
        · exact Within.error hl
        · cases hl with
          | equal h1 h2 =>
            obtain ⟨l, r, rfl⟩ := terms_length h1 h2 hts
            exact absurd rfl (hn l r)
  · refine Within.bind (within_terms hE (hl.imp_right (fun h => ?_))) (fun ts hts => Within.bind (within_mkPred.mono hE.names) (fun _ _ => Within.pure))
    cases h with | predicate _ _ h => exact h
  · rename_i h1 h2
    rcases hl with hl | hl
    · exact Within.error hl
    · cases hl with
      | predicate n _ _ => exact absurd rfl (h2 n _)
      | equal => exact absurd rfl (h1 _)

theorem within_gds {S : List Exc} {E : GEnv} {ts : List Tree} (h : ∀ t ∈ ts, Within S (E.gd t)) :
    Within S (E.gds ts) := by
  induction ts with
  | nil => rw [GEnv.gds]; exact Within.pure
  | cons t ts ih =>
    rw [GEnv.gds]
    exact Within.bind (h t (by simp)) (fun _ _ => Within.bind (ih (fun t ht => h t (by simp [ht]))) (fun _ _ => Within.pure))

theorem within_quantifier {S : List Exc} {E : GEnv} (hE : EnvWithin S E) {q : QOp} {r : Req} {vs : List Tree}
    {c : Except Exc Expr} (hc : ∀ t ∈ vs, Clean t) (hl : .lark ∈ S ∨ TypedVars vs) (h : Within S c) :
    Within S (E.quantifier q r vs c) := by
  unfold GEnv.quantifier
  split
  · rename_i hn
    rcases hl with hl | ⟨l, hl⟩
    · exact Within.error hl
    · rw [typedVarToks_iff.2 ⟨l, hl, rfl⟩] at hn; cases hn
  · rename_i toks ht
    exact Within.bind (hE.vars vs toks hc ht) (fun _ _ => Within.bind h (fun _ _ =>
      Within.bind (Within.check (fun _ => hE.missing)) (fun _ _ => Within.bind (within_mkVars.mono hE.names) (fun _ _ => Within.pure))))

theorem within_comparison {S : List Exc} {E : GEnv} (hE : EnvWithin S E) {op : FOp} {args : List Tree}
    (hl : .lark ∈ S ∨ (args.length = 2 ∧ ∀ t ∈ args, FExp False t)) : Within S (E.comparison op args) :=
  within_op (fun _ _ h => within_fExp hE h) (hl.imp_right (fun h => ⟨by simpa using h.1, h.2⟩))

/-- A condition beginning with a keyword. -/
theorem Spec.Grammar.Gd.word {G : Prop} {w : Str} {args : List Tree} (h : Gd G (.node (.atom (.name w) :: args))) :
    (w = s%"and" → ∀ t ∈ args, Gd G t) ∧ (w = s%"or" → ∀ t ∈ args, Gd G t) ∧
    (w = s%"not" → ∃ a, args = [a] ∧ Gd G a) ∧ (w = s%"imply" → ∃ a b, args = [a, b] ∧ Gd G a ∧ Gd G b) ∧
    (w = s%"forall" → ∃ vs c, args = [.node vs, c] ∧ TypedVars vs ∧ Gd G c) ∧
    (w = s%"exists" → ∃ vs c, args = [.node vs, c] ∧ TypedVars vs ∧ Gd G c) ∧
    (w ∉ gdWords → Terms args) := by
  have no : ∀ {p q : Prop}, ¬ p → (p → q) := fun h h' => absurd h' h
  cases h with
  | atomic h =>
    cases h with
    | predicate _ hw h =>
      simp only [gdWords, List.mem_cons, List.not_mem_nil, or_false, not_or] at hw
      exact ⟨by tauto, by tauto, by tauto, by tauto, by tauto, by tauto, fun _ => h⟩
  | or h => exact ⟨no (by decide), fun _ => h, no (by decide), no (by decide), no (by decide), no (by decide), no (not_not.2 (by decide))⟩
  | not h => exact ⟨no (by decide), no (by decide), fun _ => ⟨_, rfl, h⟩, no (by decide), no (by decide), no (by decide), no (not_not.2 (by decide))⟩
  | and h => exact ⟨fun _ => h, no (by decide), no (by decide), no (by decide), no (by decide), no (by decide), no (not_not.2 (by decide))⟩
  | imply h h' => exact ⟨no (by decide), no (by decide), no (by decide), fun _ => ⟨_, _, rfl, h, h'⟩, no (by decide), no (by decide), no (not_not.2 (by decide))⟩
  | «exists» h h' => exact ⟨no (by decide), no (by decide), no (by decide), no (by decide), no (by decide), fun _ => ⟨_, _, rfl, h, h'⟩, no (not_not.2 (by decide))⟩
  | «forall» h h' => exact ⟨no (by decide), no (by decide), no (by decide), no (by decide), fun _ => ⟨_, _, rfl, h, h'⟩, no (by decide), no (not_not.2 (by decide))⟩
  | compare h => simp at h

theorem within_gd {S : List Exc} {E : GEnv} (hE : EnvWithin S E) {t : Tree} (hc : Clean t)
    (hl : .lark ∈ S ∨ Gd False t) : Within S (E.gd t) := by
  induction t using Tree.ind with
  | hatom t =>
    rw [GEnv.gd]
    · rcases hl with hl | hl
      · exact Within.error hl
      · cases hl with | atomic h => cases h
    all_goals simp
  | hnode l ih =>
    cases l with
    | nil =>
      rw [GEnv.gd]
      · rcases hl with hl | hl
        · exact Within.error hl
        · cases hl with | atomic h => cases h
      all_goals simp
    | cons x args =>
      have ih' := fun t (ht : t ∈ args) => ih t (List.mem_cons_of_mem _ ht) (hc.of_mem (List.mem_cons_of_mem _ ht))
      have hc' := fun t (ht : t ∈ args) => hc.of_mem (List.mem_cons_of_mem _ ht)
      cases x with
      | node x =>
        rw [GEnv.gd]
        · rcases hl with hl | hl
          · exact Within.error hl
          · cases hl with | atomic h => cases h
        all_goals simp
      | atom x =>
        by_cases hw : ∃ w, x = .name w
        · obtain ⟨w, rfl⟩ := hw
          have hg := hl.imp_right Gd.word
          rw [gd_name]
          split
          · rename_i hw
            exact Within.bind (within_gds (fun t ht => ih' t ht (hg.imp_right (fun h => h.1 hw t ht)))) (fun _ _ => Within.pure)
          split
          · rename_i hw
            exact Within.bind (within_gds (fun t ht => ih' t ht (hg.imp_right (fun h => h.2.1 hw t ht))))
              (fun _ _ => Within.bind (Within.check (fun _ => hE.missing)) (fun _ _ => Within.pure))
          split
          · rename_i hw
            split
            · rename_i a
              refine Within.bind (ih' a (by simp) (hg.imp_right (fun h => ?_))) (fun _ _ => Within.pure)
              obtain ⟨b, hb, h'⟩ := h.2.2.1 hw
              cases hb; exact h'
            · rename_i hn
              rcases hg with h | h
              · exact Within.error h
              · obtain ⟨b, rfl, h'⟩ := h.2.2.1 hw
                exact absurd rfl (hn b)
          split
          · rename_i hw
            split
            · rename_i a b
              have hab : .lark ∈ S ∨ Gd False a ∧ Gd False b := hg.imp_right (fun h => by
                obtain ⟨a', b', hb, h'⟩ := h.2.2.2.1 hw
                cases hb; exact h')
              exact Within.bind (ih' a (by simp) (hab.imp_right (·.1))) (fun _ _ =>
                Within.bind (ih' b (by simp) (hab.imp_right (·.2))) (fun _ _ =>
                Within.bind (Within.check (fun _ => hE.missing)) (fun _ _ => Within.pure)))
            · rename_i hn
              rcases hg with h | h
              · exact Within.error h
              · obtain ⟨a, b, rfl, h'⟩ := h.2.2.2.1 hw
                exact absurd rfl (hn a b)
          split
          · rename_i hw
            split
            · rename_i vs c
              have hab : .lark ∈ S ∨ TypedVars vs ∧ Gd False c := hg.imp_right (fun h => by
                obtain ⟨a', b', hb, h'⟩ := h.2.2.2.2.1 hw
                cases hb; exact h')
              exact within_quantifier hE (fun t ht => (hc' (.node vs) (by simp)).of_mem ht) (hab.imp_right (·.1))
                (ih' c (by simp) (hab.imp_right (·.2)))
            · rename_i hn
              rcases hg with h | h
              · exact Within.error h
              · obtain ⟨a, b, rfl, h'⟩ := h.2.2.2.2.1 hw
                exact absurd rfl (hn a b)
          split
          · rename_i hw
            split
            · rename_i vs c
              have hab : .lark ∈ S ∨ TypedVars vs ∧ Gd False c := hg.imp_right (fun h => by
                obtain ⟨a', b', hb, h'⟩ := h.2.2.2.2.2.1 hw
                cases hb; exact h')
              exact within_quantifier hE (fun t ht => (hc' (.node vs) (by simp)).of_mem ht) (hab.imp_right (·.1))
                (ih' c (by simp) (hab.imp_right (·.2)))
            · rename_i hn
              rcases hg with h | h
              · exact Within.error h
              · obtain ⟨a, b, rfl, h'⟩ := h.2.2.2.2.2.1 hw
                exact absurd rfl (hn a b)
          · refine within_atomic hE (kws := []) (hg.imp_right (fun h => .predicate _ (by simp) (h.2.2.2.2.2.2 ?_)))
            simp only [gdWords, List.mem_cons, List.not_mem_nil, or_false, not_or]
            tauto
        · have hx : ∀ w, x ≠ .name w := fun w h => hw ⟨w, h⟩
          rw [GEnv.gd]
          · split
            · rename_i op hop
              split
              · rename_i hs
                obtain ⟨rfl, hs⟩ := hs
                refine within_atomic hE (kws := gdWords) (hl.imp_right (fun h => ?_))
                cases h with
                | atomic h => exact h
                | compare h => simp at h
                | equal h ha hb =>
                  rcases h with h | h
                  · exact h.elim
                  · exfalso
                    unfold startsWithTerm at hs
                    split at hs
                    · rename_i n _ heq; cases heq; exact h _ rfl
                    · rename_i heq; cases heq; cases ha with | head h => cases h
                    · cases hs
              · rename_i hs
                refine within_comparison hE (hl.imp_right (fun h => ?_))
                cases h with
                | atomic h =>
                  exfalso
                  cases h with
                  | predicate n => exact hx n rfl
                  | equal ha hb =>
                    apply hs
                    refine ⟨rfl, ?_⟩
                    cases ha <;> rfl
                | compare _ ha hb => exact ⟨rfl, by simp [ha, hb]⟩
                | equal _ ha hb => exact ⟨rfl, by simp [ha, hb]⟩
                | _ => exact absurd rfl (hx _)
            · rename_i hop
              rcases hl with hl | hl
              · exact Within.error hl
              · exfalso
                cases hl with
                | atomic h =>
                  cases h with
                  | predicate n => exact hx n rfl
                  | equal ha hb => cases hop
                | compare h ha hb =>
                  simp only [List.mem_cons, List.not_mem_nil, or_false] at h
                  rcases h with rfl | rfl | rfl | rfl <;> cases hop
                | equal _ ha hb => cases hop
                | _ => exact absurd rfl (hx _)
          · exact hx

theorem within_pEffect {S : List Exc} {E : GEnv} (hE : EnvWithin S E) {kws : List Str} {t : Tree}
    (hl : .lark ∈ S ∨ PEffect False kws t) : Within S (E.pEffect t) := by
  have bad : (∀ w args, t ≠ .node (.atom (.name w) :: args)) → (∀ args, t ≠ .node (.atom .eq :: args)) → .lark ∈ S := by
    intro h1 h2
    rcases hl with hl | hl
    · exact hl
    · cases hl with
      | not h => exact absurd rfl (h1 _ _)
      | atomic h =>
        cases h with
        | predicate => exact absurd rfl (h1 _ _)
        | equal => exact absurd rfl (h2 _)
      | num => exact absurd rfl (h1 _ _)
  by_cases hw : ∃ w args, t = .node (.atom (.name w) :: args)
  · obtain ⟨w, args, rfl⟩ := hw
    rw [pEffect_name]
    split
    · rename_i hw
      have hg : .lark ∈ S ∨ ∃ a, args = [.node a] ∧ Atomic [] (.node a) := hl.imp_right (fun h => by
        cases h with
        | not h =>
          rename_i x
          have hx : ∃ a, x = .node a := by cases h <;> exact ⟨_, rfl⟩
          obtain ⟨a, rfl⟩ := hx
          exact ⟨a, rfl, h⟩
        | atomic h =>
          cases h with
          | predicate _ h => simp [hw] at h
        | num h => subst hw; exact absurd h (by decide))
      split
      · rename_i a
        refine Within.bind (within_atomic hE (kws := []) (hg.imp_right (fun h => ?_))) (fun _ _ => Within.pure)
        obtain ⟨b, hb, h'⟩ := h
        cases hb; exact h'
      · rename_i hn
        rcases hg with h | ⟨a, rfl, h⟩
        · exact Within.error h
        · exact absurd rfl (hn a)
    · rename_i hw
      split
      · rename_i op hop
        have hg : .lark ∈ S ∨ ∃ h x, args = [h, x] ∧ FHead h ∧ FExp False x := hl.imp_right (fun h => by
          cases h with
          | not h => exact absurd rfl hw
          | atomic h =>
            cases h with
            | predicate _ h =>
              refine absurd (assignOp_mem hop) (fun hm => h ?_)
              simp [hm]
          | num _ h1 h2 => exact ⟨_, _, rfl, h1, h2⟩)
        split
        · rename_i h x
          have hg' : .lark ∈ S ∨ FHead h ∧ FExp False x := hg.imp_right (fun hh => by
            obtain ⟨_, _, he, h'⟩ := hh
            cases he; exact h')
          exact Within.bind (within_fHead hE (hg'.imp_right (·.1))) (fun _ _ =>
            Within.bind (within_fExp hE (hg'.imp_right (·.2))) (fun _ _ => Within.pure))
        · rename_i hn
          rcases hg with h | ⟨a, b, rfl, h⟩
          · exact Within.error h
          · exact absurd rfl (hn a b)
      · rename_i hop
        refine within_atomic hE (kws := s%"not" :: assignWords ++ kws) (hl.imp_right (fun h => ?_))
        cases h with
        | not h => exact absurd rfl hw
        | atomic h => exact h
        | num h _ _ => exact absurd h (assignOp_not_mem hop)
  · have h1 : ∀ w args, t ≠ .node (.atom (.name w) :: args) := fun w args h => hw ⟨w, args, h⟩
    by_cases he : ∃ args, t = .node (.atom .eq :: args)
    · obtain ⟨args, rfl⟩ := he
      rw [GEnv.pEffect]
      refine within_atomic hE (kws := s%"not" :: assignWords ++ kws) (hl.imp_right (fun h => ?_))
      cases h with
      | atomic h => exact h
    · have h2 : ∀ args, t ≠ .node (.atom .eq :: args) := fun args h => he ⟨args, h⟩
      have hS := bad h1 h2
      rw [GEnv.pEffect.eq_def]
      split
      · exact absurd rfl (h1 _ _)
      · exact absurd rfl (h2 _)
      · exact Within.error hS

theorem within_pEffects {S : List Exc} {E : GEnv} {ts : List Tree} (h : ∀ t ∈ ts, Within S (E.pEffect t)) :
    Within S (E.pEffects ts) := by
  induction ts with
  | nil => exact Within.pure
  | cons t ts ih =>
    exact Within.bind (h t (by simp)) (fun _ _ => Within.bind (ih (fun t ht => h t (by simp [ht]))) (fun _ _ => Within.pure))

theorem within_condEffect {S : List Exc} {E : GEnv} (hE : EnvWithin S E) {t : Tree}
    (hl : .lark ∈ S ∨ CondEffect False t) : Within S (E.condEffect t) := by
  unfold GEnv.condEffect
  split
  · split
    · rename_i hw
      subst hw
      refine Within.bind (within_pEffects (fun t ht => within_pEffect hE (kws := []) (hl.imp_right (fun h => ?_))))
        (fun _ _ => Within.pure)
      cases h with
      | and h => exact h t ht
      | one h =>
        cases h with
        | atomic h => cases h with | predicate _ h => simp at h
        | num h => exact absurd h (by decide)
    · rename_i hw
      refine within_pEffect hE (kws := [s%"and"]) (hl.imp_right (fun h => ?_))
      cases h with
      | and h => exact absurd rfl hw
      | one h => exact h
  · rename_i hn
    refine within_pEffect hE (kws := [s%"and"]) (hl.imp_right (fun h => ?_))
    cases h with
    | and h => exact absurd rfl (hn _ _)
    | one h => exact h

theorem within_effects {S : List Exc} {E : GEnv} {top : Bool} {ts : List Tree} (h : ∀ t ∈ ts, Within S (E.effect top t)) :
    Within S (E.effects top ts) := by
  induction ts with
  | nil => rw [GEnv.effects]; exact Within.pure
  | cons t ts ih =>
    rw [GEnv.effects]
    exact Within.bind (h t (by simp)) (fun _ _ => Within.bind (ih (fun t ht => h t (by simp [ht]))) (fun _ _ => Within.pure))

/-- An effect beginning with a keyword. -/
theorem Spec.Grammar.Effect.word {G : Prop} {top : Bool} {w : Str} {args : List Tree}
    (h : Effect G top (.node (.atom (.name w) :: args))) :
    (top = true ∧ w = s%"and" → ∀ t ∈ args, Effect G false t) ∧
    (w = s%"forall" → ∃ vs c, args = [.node vs, c] ∧ TypedVars vs ∧ Effect G true c) ∧
    (w = s%"when" → ∃ c e, args = [c, e] ∧ Gd G c ∧ CondEffect G e) ∧
    (w = s%"oneof" → args ≠ [] ∧ ∀ t ∈ args, Effect G true t) ∧
    (¬ (top = true ∧ w = s%"and") → w ≠ s%"forall" → w ≠ s%"when" → w ≠ s%"oneof" →
      PEffect G (effectWords ++ if top then [s%"and"] else []) (.node (.atom (.name w) :: args))) := by
  have no : ∀ {p q : Prop}, ¬ p → (p → q) := fun h h' => absurd h' h
  have nand : ∀ {p q : Prop} {r : Prop}, ¬ q → (p ∧ q → r) := fun h h' => absurd h'.2 h
  cases h with
  | and h => exact ⟨fun _ => h, no (by decide), no (by decide), no (by decide), fun h => absurd ⟨rfl, rfl⟩ h⟩
  | «forall» h h' => exact ⟨nand (by decide), fun _ => ⟨_, _, rfl, h, h'⟩, no (by decide), no (by decide), fun _ h => absurd rfl h⟩
  | when h h' => exact ⟨nand (by decide), no (by decide), fun _ => ⟨_, _, rfl, h, h'⟩, no (by decide), fun _ _ h => absurd rfl h⟩
  | oneof h h' => exact ⟨nand (by decide), no (by decide), no (by decide), fun _ => ⟨h, h'⟩, fun _ _ _ h => absurd rfl h⟩
  | one h =>
    have hw : ¬ (top = true ∧ w = s%"and") ∧ w ≠ s%"forall" ∧ w ≠ s%"when" ∧ w ≠ s%"oneof" := by
      cases h with
      | not h => exact ⟨fun h => absurd h.2 (by decide), by decide, by decide, by decide⟩
      | atomic h =>
        cases h with
        | predicate _ h =>
          simp only [effectWords, List.mem_append, List.mem_cons, not_or, List.not_mem_nil, or_false] at h
          refine ⟨?_, h.2.1.1, h.2.1.2.1, h.2.1.2.2⟩
          rintro ⟨rfl, rfl⟩
          simp at h
      | num h =>
        simp only [assignWords, List.mem_cons, List.not_mem_nil, or_false] at h
        rcases h with rfl | rfl | rfl | rfl | rfl <;>
          exact ⟨fun h => absurd h.2 (by decide), by decide, by decide, by decide⟩
    exact ⟨fun h' => absurd h' hw.1, fun h' => absurd h' hw.2.1, fun h' => absurd h' hw.2.2.1, fun h' => absurd h' hw.2.2.2,
      fun _ _ _ _ => h⟩

theorem within_effect {S : List Exc} {E : GEnv} (hE : EnvWithin S E) {t : Tree} (hc : Clean t) :
    ∀ {top}, (.lark ∈ S ∨ Effect False top t) → Within S (E.effect top t) := by
  induction t using Tree.ind with
  | hatom t =>
    intro top hl
    rw [GEnv.effect.eq_def]
    refine within_pEffect hE (kws := effectWords ++ if top then [s%"and"] else []) (hl.imp_right (fun h => ?_))
    cases h with | one h => exact h
  | hnode l ih =>
    intro top hl
    by_cases hw : ∃ w args, l = .atom (.name w) :: args
    · obtain ⟨w, args, rfl⟩ := hw
      have hg := hl.imp_right Effect.word
      have ih' : ∀ t ∈ args, ∀ {top}, (.lark ∈ S ∨ Effect False top t) → Within S (E.effect top t) :=
        fun t ht => ih t (List.mem_cons_of_mem _ ht) (hc.of_mem (List.mem_cons_of_mem _ ht))
      have hc' := fun t (ht : t ∈ args) => hc.of_mem (List.mem_cons_of_mem _ ht)
      rw [effect_name]
      split
      · rename_i hw
        exact Within.bind (within_effects (fun t ht => ih' t ht (hg.imp_right (fun h => h.1 hw t ht)))) (fun _ _ => Within.pure)
      split
      · rename_i hw
        split
        · rename_i vs e
          have hab : .lark ∈ S ∨ TypedVars vs ∧ Effect False true e := hg.imp_right (fun h => by
            obtain ⟨a', b', hb, h'⟩ := h.2.1 hw
            cases hb; exact h')
          split
          · rename_i hn
            rcases hab with hl | ⟨⟨l, hl⟩, _⟩
            · exact Within.error hl
            · rw [typedVarToks_iff.2 ⟨l, hl, rfl⟩] at hn; cases hn
          · rename_i toks ht
            exact Within.bind (hE.vars vs toks (fun t ht => (hc' (.node vs) (by simp)).of_mem ht) ht) (fun _ _ =>
              Within.bind (ih' e (by simp) (hab.imp_right (·.2))) (fun _ _ =>
              Within.bind (within_mkVars.mono hE.names) (fun _ _ => Within.pure)))
        · rename_i hn
          rcases hg with h | h
          · exact Within.error h
          · obtain ⟨a, b, rfl, h'⟩ := h.2.1 hw
            exact absurd rfl (hn a b)
      split
      · rename_i hw
        split
        · rename_i c e
          have hab : .lark ∈ S ∨ Gd False c ∧ CondEffect False e := hg.imp_right (fun h => by
            obtain ⟨a', b', hb, h'⟩ := h.2.2.1 hw
            cases hb; exact h')
          exact Within.bind (within_gd hE (hc' c (by simp)) (hab.imp_right (·.1))) (fun _ _ =>
            Within.bind (within_condEffect hE (hab.imp_right (·.2))) (fun _ _ => Within.pure))
        · rename_i hn
          rcases hg with h | h
          · exact Within.error h
          · obtain ⟨a, b, rfl, h'⟩ := h.2.2.1 hw
            exact absurd rfl (hn a b)
      split
      · rename_i hw
        refine Within.bind (within_effects (fun t ht => ih' t ht (hg.imp_right (fun h => (h.2.2.2.1 hw).2 t ht)))) (fun _ _ =>
          Within.bind (Within.check (fun hb => ?_)) (fun _ _ => Within.bind (Within.check (fun _ => hE.missing)) (fun _ _ => Within.pure)))
        rcases hg with h | h
        · exact h
        · have := (h.2.2.2.1 hw).1
          cases args with
          | nil => exact absurd rfl this
          | cons => simp at hb
      · rename_i h1 h2 h3 h4
        exact within_pEffect hE (hg.imp_right (fun h => h.2.2.2.2 h1 h2 h3 h4))
    · have hw' : ∀ w args, l ≠ .atom (.name w) :: args := fun w args h => hw ⟨w, args, h⟩
      have hp : .lark ∈ S ∨ PEffect False (effectWords ++ if top then [s%"and"] else []) (.node l) := hl.imp_right (fun h => by
        cases h with
        | one h => exact h
        | _ => exact absurd rfl (hw' _ _))
      rw [GEnv.effect.eq_def]
      split
      · rename_i heq; cases heq; exact absurd rfl (hw' _ _)
      · exact within_pEffect hE hp

end Pddl
