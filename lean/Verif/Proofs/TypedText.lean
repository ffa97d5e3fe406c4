/-
Words of a text, and typed lists of variables as text.
-/
import Verif.Proofs.Gate
import Verif.Proofs.ParseDom
import Verif.Proofs.TypedList
import Verif.Proofs.Tags
import Verif.Proofs.PlanText

namespace Pddl
open Spec

/-! ### Words -/

/-- A token that the lexer can produce. -/
def TokOk : Tok → Prop
  | .name w => nameRegex w = true
  | _ => True

def LSt.Ok : LSt → Prop
  | .word a => nameRegex a = true
  | .colon a => a.all isNameC = true
  | _ => True

theorem nameRegex_snoc {a : Str} {c : Char} (h : nameRegex a = true) (hc : isNameC c = true) :
    nameRegex (a ++ [c]) = true := by
  cases a with
  | nil => simp [nameRegex] at h
  | cons x xs =>
    simp only [nameRegex, List.cons_append, Bool.and_eq_true, List.all_append, List.all_cons,
      List.all_nil, Bool.and_true] at h ⊢
    exact ⟨h.1, h.2, hc⟩

theorem flush_ok {s : LSt} (h : s.Ok) : ∀ t ∈ s.flush, TokOk t := by
  intro t ht
  cases s with
  | start => simp [LSt.flush] at ht
  | comment => simp [LSt.flush] at ht
  | word a => simp [LSt.flush] at ht; subst ht; exact h
  | num a => simp [LSt.flush] at ht; subst ht; trivial
  | numDot a =>
    simp [LSt.flush] at ht
    rcases ht with rfl | rfl <;> trivial
  | gt => simp [LSt.flush] at ht; subst ht; trivial
  | lt => simp [LSt.flush] at ht; subst ht; trivial
  | colon a =>
    simp only [LSt.flush, colonToks] at ht
    split at ht
    · simp at ht; subst ht; trivial
    · rename_i k _
      split at ht
      · simp at ht; subst ht; trivial
      · rename_i c cs hd
        split at ht
        · rename_i hc
          simp at ht
          rcases ht with rfl | rfl
          · trivial
          · have : ∀ x ∈ c :: cs, isNameC x = true := by
              intro x hx
              rw [← hd] at hx
              exact List.all_eq_true.1 h x (List.mem_of_mem_drop hx)
            simp only [TokOk, nameRegex, hc, Bool.true_and, List.all_eq_true]
            exact fun x hx => this x (List.mem_cons_of_mem _ hx)
        · simp at ht
          rcases ht with rfl | rfl <;> trivial

def StepOut (p : List Tok × LSt) : Prop := (∀ t ∈ p.1, TokOk t) ∧ p.2.Ok

theorem stepOut_ite {p : Prop} [Decidable p] {a b : List Tok × LSt} (ha : p → StepOut a)
    (hb : StepOut b) : StepOut (if p then a else b) := by
  split
  · rename_i h; exact ha h
  · exact hb

theorem stepOut_none {s : LSt} (h : s.Ok) : StepOut ([], s) := ⟨by simp, h⟩
theorem stepOut_one {t : Tok} (h : TokOk t) : StepOut ([t], .start) :=
  ⟨by intro t' ht; simp at ht; subst ht; exact h, trivial⟩

theorem begin_out (c : Char) : StepOut (lexBegin c) := by
  unfold lexBegin
  refine stepOut_ite (fun _ => stepOut_none trivial) ?_
  refine stepOut_ite (fun _ => stepOut_none trivial) ?_
  refine stepOut_ite (fun _ => stepOut_one trivial) ?_
  refine stepOut_ite (fun _ => stepOut_one trivial) ?_
  refine stepOut_ite (fun _ => stepOut_one trivial) ?_
  refine stepOut_ite (fun _ => stepOut_one trivial) ?_
  refine stepOut_ite (fun _ => stepOut_one trivial) ?_
  refine stepOut_ite (fun _ => stepOut_one trivial) ?_
  refine stepOut_ite (fun _ => stepOut_one trivial) ?_
  refine stepOut_ite (fun _ => stepOut_one trivial) ?_
  refine stepOut_ite (fun _ => stepOut_none trivial) ?_
  refine stepOut_ite (fun _ => stepOut_none trivial) ?_
  refine stepOut_ite (fun _ => stepOut_none rfl) ?_
  refine stepOut_ite (fun h => stepOut_none (by simp [LSt.Ok, nameRegex, h])) ?_
  refine stepOut_ite (fun _ => stepOut_none trivial) ?_
  exact stepOut_one trivial

theorem begin_ok (c : Char) : (∀ t ∈ (lexBegin c).1, TokOk t) ∧ (lexBegin c).2.Ok := begin_out c

theorem step_ok {s : LSt} (h : s.Ok) (c : Char) : (∀ t ∈ (s.step c).1, TokOk t) ∧ (s.step c).2.Ok := by
  unfold LSt.step
  split
  · rename_i r hr
    cases s with
    | start => simp [LSt.ext] at hr
    | comment =>
      simp only [LSt.ext] at hr; split at hr
      · simp at hr
      · injection hr with hr; subst hr; exact ⟨by simp, trivial⟩
    | word a =>
      simp only [LSt.ext] at hr; split at hr
      · rename_i hc; injection hr with hr; subst hr
        exact ⟨by simp, nameRegex_snoc h hc⟩
      · simp at hr
    | num a =>
      simp only [LSt.ext] at hr
      repeat' split at hr
      all_goals first | (injection hr with hr; subst hr; exact ⟨by simp, trivial⟩) | simp at hr
    | numDot a =>
      simp only [LSt.ext] at hr
      repeat' split at hr
      all_goals first | (injection hr with hr; subst hr; exact ⟨by simp, trivial⟩) | simp at hr
    | colon a =>
      simp only [LSt.ext] at hr; split at hr
      · rename_i hc; injection hr with hr; subst hr
        refine ⟨by simp, ?_⟩
        simp only [LSt.Ok, List.all_append, Bool.and_eq_true] at h ⊢
        exact ⟨h, by simp [hc]⟩
      · simp at hr
    | gt =>
      simp only [LSt.ext] at hr; split at hr
      · injection hr with hr; subst hr; exact ⟨by intro t ht; simp at ht; subst ht; trivial, trivial⟩
      · simp at hr
    | lt =>
      simp only [LSt.ext] at hr; split at hr
      · injection hr with hr; subst hr; exact ⟨by intro t ht; simp at ht; subst ht; trivial, trivial⟩
      · simp at hr
  · refine ⟨?_, (begin_ok c).2⟩
    intro t ht
    rcases List.mem_append.1 ht with ht | ht
    · exact flush_ok h t ht
    · exact (begin_ok c).1 t ht

theorem run_ok {s : LSt} (h : s.Ok) (w : Str) : ∀ t ∈ s.run w, TokOk t := by
  induction w generalizing s with
  | nil => exact flush_ok h
  | cons c w ih =>
    intro t ht
    simp only [LSt.run] at ht
    rcases List.mem_append.1 ht with ht | ht
    · exact (step_ok h c).1 t ht
    · exact ih (step_ok h c).2 t ht

/-- The words of a text have the shape of names. -/
theorem lex_ok (t : Str) : ∀ k ∈ lex t, TokOk k := run_ok (s := .start) trivial t

theorem Spec.Inside.atom_iff {s : Tree} {k : Tok} : Inside s (.atom k) ↔ s = .atom k := by
  constructor
  · intro h; cases h; rfl
  · rintro rfl; exact .refl

theorem readAux_atoms {ts : List Tok} {cur : List Tree} {st : List (List Tree)} {r : List Tree}
    (h : readAux ts cur st = some r) {k : Tok} {t : Tree} (ht : t ∈ r) (hi : Inside (.atom k) t) :
    k ∈ ts ∨ (∃ x ∈ cur, Inside (.atom k) x) ∨ ∃ l ∈ st, ∃ x ∈ l, Inside (.atom k) x := by
  induction ts generalizing cur st with
  | nil =>
    cases st with
    | nil =>
      simp only [readAux, Option.some.injEq] at h
      subst h
      exact Or.inr (Or.inl ⟨t, by simpa using ht, hi⟩)
    | cons _ _ => simp [readAux] at h
  | cons a ts ih =>
    have hatom : readAux ts (.atom a :: cur) st = some r → k ∈ a :: ts ∨ (∃ x ∈ cur, Inside (.atom k) x) ∨
        ∃ l ∈ st, ∃ x ∈ l, Inside (.atom k) x := by
      intro h
      rcases ih h with h | ⟨x, hx, hi⟩ | h
      · exact Or.inl (List.mem_cons_of_mem _ h)
      · rcases List.mem_cons.1 hx with rfl | hx
        · rw [Inside.atom_iff] at hi; injection hi with hi; subst hi; exact Or.inl List.mem_cons_self
        · exact Or.inr (Or.inl ⟨x, hx, hi⟩)
      · exact Or.inr (Or.inr h)
    cases a with
    | lpar =>
      simp only [readAux] at h
      rcases ih h with h | ⟨x, hx, _⟩ | ⟨l, hl, h'⟩
      · exact Or.inl (List.mem_cons_of_mem _ h)
      · simp at hx
      · rcases List.mem_cons.1 hl with rfl | hl
        · exact Or.inr (Or.inl h')
        · exact Or.inr (Or.inr ⟨l, hl, h'⟩)
    | rpar =>
      cases st with
      | nil => simp [readAux] at h
      | cons s st =>
        simp only [readAux] at h
        rcases ih h with h | ⟨x, hx, hi⟩ | ⟨l, hl, h⟩
        · exact Or.inl (List.mem_cons_of_mem _ h)
        · rcases List.mem_cons.1 hx with rfl | hx
          · cases hi with
            | node hm hi => exact Or.inr (Or.inl ⟨_, by simpa using hm, hi⟩)
          · exact Or.inr (Or.inr ⟨s, by simp, x, hx, hi⟩)
        · exact Or.inr (Or.inr ⟨l, by simp [hl], h⟩)
    | qmark => simp only [readAux] at h; exact hatom h
    | minus => simp only [readAux] at h; exact hatom h
    | eq => simp only [readAux] at h; exact hatom h
    | ge => simp only [readAux] at h; exact hatom h
    | gt => simp only [readAux] at h; exact hatom h
    | le => simp only [readAux] at h; exact hatom h
    | lt => simp only [readAux] at h; exact hatom h
    | plus => simp only [readAux] at h; exact hatom h
    | times => simp only [readAux] at h; exact hatom h
    | divide => simp only [readAux] at h; exact hatom h
    | kw s => simp only [readAux] at h; exact hatom h
    | name s => simp only [readAux] at h; exact hatom h
    | num s => simp only [readAux] at h; exact hatom h
    | bad => simp only [readAux] at h; exact hatom h

/-- Every word of a text has the shape of a name. -/
theorem readText_words {text : Str} {trees : List Tree} (h : readText text = .ok trees) {t : Tree}
    (ht : t ∈ trees) {w : Str} (hi : Inside (.atom (.name w)) t) : nameRegex w = true := by
  unfold readText at h
  split at h
  · rename_i ts hr
    simp only [pure_ok, Except.ok.injEq] at h
    subst h
    rcases readAux_atoms hr ht hi with h | ⟨x, hx, _⟩ | ⟨l, hl, _⟩
    · exact lex_ok text _ h
    · simp at hx
    · simp at hl
  · simp at h

/-! ### Typed lists of variables -/

theorem namesOnly_some {ts : List Tree} : ∀ {ns}, namesOnly ts = some ns →
    ts = ns.map (fun x => .atom (.name x)) := by
  fun_induction namesOnly ts with
  | case1 => intro ns h; simp at h; subst h; rfl
  | case2 n ts ih =>
    intro ns h
    rw [Option.map_eq_some_iff] at h
    obtain ⟨a, h, rfl⟩ := h
    rw [List.map_cons, ← ih h]
  | case3 => simp

theorem typeDef_iff {t : Tree} {types : List Str} : typeDef t = some types ↔ TypeText t types := by
  constructor
  · intro h
    unfold typeDef at h
    split at h
    · injection h with h; subst h; exact .one _
    · rename_i body
      split at h
      · rename_i t ts hd
        obtain ⟨w, rest, rfl, hp, hw⟩ := dropKeyword_some hd
        have := namesOnly_some h
        rcases hw with ⟨e, rfl⟩ | ⟨c, cs, e, rfl, hc⟩
        · cases types with
          | nil => simp at this
          | cons n ns => rw [← e, this]; exact .either n ns
        · cases types with
          | nil => simp at this
          | cons n ns =>
            rw [e] at this
            simp only [List.map_cons, List.cons.injEq, Tree.atom.injEq, Tok.name.injEq] at this
            obtain ⟨rfl, rfl⟩ := this
            exact .fused c cs ns hc
      · simp at h
    · simp at h
  · intro h
    cases h with
    | one n => rfl
    | either n ns =>
      have : dropKeyword s%"either" (.atom (.name s%"either") :: (n :: ns).map (fun x => .atom (.name x))) =
        some ((n :: ns).map (fun x => .atom (.name x))) := by
        simp [dropKeyword]
      simp only [typeDef, List.map_cons]
      exact namesOnly_map (n :: ns)
    | fused c cs ns hc =>
      have : dropKeyword s%"either" (.atom (.name (s%"either" ++ c :: cs)) :: ns.map (fun x => .atom (.name x))) =
        some (((c :: cs) :: ns).map (fun x => .atom (.name x))) := by
        simp [dropKeyword, hc]
      simp only [typeDef, this, List.map_cons]
      exact namesOnly_map ((c :: cs) :: ns)

theorem typedVarToks_split {b : Bool} {ts : List Tree} : ∀ {toks}, typedVarToks b ts = some toks →
    ∃ ns : List Str, (ts = ns.flatMap varTrees ∧ toks = ns.map .str) ∨
      ∃ t ts' types toks', ts = ns.flatMap varTrees ++ .atom .minus :: t :: ts' ∧ typeDef t = some types ∧
        typedVarToks false ts' = some toks' ∧ toks = ns.map .str ++ .str s%"-" :: .list types :: toks' ∧
        (b = false → ns ≠ []) := by
  fun_induction typedVarToks b ts with
  | case1 => intro toks h; simp at h; subst h; exact ⟨[], Or.inl ⟨rfl, rfl⟩⟩
  | case2 b n ts ih =>
    intro toks h
    rw [Option.map_eq_some_iff] at h
    obtain ⟨r, h, rfl⟩ := h
    obtain ⟨ns, ⟨rfl, rfl⟩ | ⟨t, ts', types, toks', rfl, h1, h2, rfl, _⟩⟩ := ih h
    · exact ⟨n :: ns, Or.inl ⟨rfl, rfl⟩⟩
    · exact ⟨n :: ns, Or.inr ⟨t, ts', types, toks', rfl, h1, h2, rfl, by simp⟩⟩
  | case3 t ts l r h1 h2 ih =>
    intro toks h
    injection h with h
    subst h
    exact ⟨[], Or.inr ⟨t, ts, l, r, rfl, h2, h1, rfl, by simp⟩⟩
  | case4 => simp
  | case5 => simp

theorem typedVarToks_names (ns : List Str) (b : Bool) (ts : List Tree) :
    typedVarToks b (ns.flatMap varTrees ++ ts) =
      (typedVarToks (b || !ns.isEmpty) ts).map (ns.map TTok.str ++ ·) := by
  induction ns generalizing b with
  | nil => simp
  | cons n ns ih =>
    simp only [List.flatMap_cons, varTrees, List.cons_append, List.nil_append, typedVarToks]
    rw [ih]
    simp [Function.comp_def]

/-- The tokens of the typed lists that the grammar accepts. -/
theorem typedVarToks_iff {ts : List Tree} {toks : List TTok} :
    typedVarToks false ts = some toks ↔ ∃ l, VarsText ts l ∧ toks = l.tokens := by
  constructor
  · intro h
    have key : ∀ k (ts : List Tree) (toks : List TTok), ts.length = k → typedVarToks false ts = some toks →
        ∃ l, VarsText ts l ∧ toks = l.tokens := by
      intro k
      induction k using Nat.strongRecOn with
      | _ k ih =>
        intro ts toks hk h
        obtain ⟨ns, ⟨rfl, rfl⟩ | ⟨t, ts', types, toks', rfl, h1, h2, rfl, hne⟩⟩ := typedVarToks_split h
        · exact ⟨⟨[], ns.map .str⟩, .rest ns, rfl⟩
        · obtain ⟨l, hl, rfl⟩ := ih ts'.length (by rw [← hk]; simp; omega) ts' toks' rfl h2
          cases ns with
          | nil => exact absurd rfl (hne rfl)
          | cons n ns =>
            refine ⟨_, .group (typeDef_iff.1 h1) hl, ?_⟩
            simp [TypedList.tokens]
    exact key _ ts toks rfl h
  · rintro ⟨l, h, rfl⟩
    induction h with
    | rest ns =>
      have := typedVarToks_names ns false []
      rw [List.append_nil] at this
      rw [this]
      simp [TypedList.tokens, typedVarToks]
    | @group n ns t types ts l ht hl ih =>
      rw [typedVarToks_names]
      simp only [List.isEmpty_cons, Bool.not_false, Bool.or_true, typedVarToks, typeDef_iff.2 ht, ih]
      simp [TypedList.tokens]

/-- The items and types of an accepted list are valid, if no word is a `-`. -/
theorem addTypedLists_valid {ad : Bool} {tags : List Str} {ts : List TTok} {x y : TIndex}
    (h : addTypedLists ad tags x ts = .ok y) :
    (∀ t ∈ ts, IsItem t) ∧ (ts ≠ [] → ∀ t ∈ tags, ValidType t) := by
  induction ts generalizing x with
  | nil => simp
  | cons t ts ih =>
    simp only [addTypedLists] at h
    obtain ⟨i, hi, h⟩ := bind_ok_iff.1 h
    obtain ⟨tags', ht, h⟩ := bind_ok_iff.1 h
    obtain ⟨x', _, h⟩ := bind_ok_iff.1 h
    have h1 : IsItem t := by
      cases t with
      | str s =>
        simp only [TTok.item, bind_ok_iff] at hi
        obtain ⟨n, hn, _⟩ := hi
        exact (parseName_ok.1 hn).2
      | fn f => trivial
      | list l => simp [TTok.item] at hi
    refine ⟨?_, fun _ => (toType_ok.1 ht).2⟩
    intro u hu
    rcases List.mem_cons.1 hu with rfl | hu
    · exact h1
    · exact (ih h).1 u hu

theorem typedLoop_valid {ad : Bool} {l : TypedList}
    (hg : ∀ g ∈ l.groups, g.1 ≠ [] ∧ ((∃ ts, g.2 = .list ts) ∨ ∃ s, g.2 = .str s))
    (hs : ∀ g ∈ l.groups, ∀ t ∈ g.1, t.isSep = false) (hr : ∀ t ∈ l.rest, t.isSep = false)
    {pre : List TTok} {x y : TIndex} {fuel : Nat}
    (h : typedLoop ad (pre ++ l.tokens) fuel pre.length x = .ok y) : l.Ok := by
  obtain ⟨gs, rest⟩ := l
  induction gs generalizing pre x fuel with
  | nil =>
    refine ⟨by simp, ?_, by simp⟩
    cases fuel with
    | zero => simp [typedLoop] at h
    | succ n =>
      simp only [TypedList.tokens, List.flatMap_nil, List.nil_append, typedLoop,
        sepIndex_none pre rest hr] at h
      by_cases he : rest = []
      · subst he; simp
      · rw [if_pos (by
          simp only [List.length_append, ne_eq]
          have : rest.length ≠ 0 := by simpa using he
          omega)] at h
        have : slice (pre ++ rest) pre.length (pre ++ rest).length = rest := by
          unfold slice
          rw [List.take_of_length_le (by omega), List.drop_left]
        rw [this] at h
        exact (addTypedLists_valid h).1
  | cons g gs ih =>
    obtain ⟨items, t⟩ := g
    cases fuel with
    | zero => simp [typedLoop] at h
    | succ n =>
      have htok : TypedList.tokens ⟨(items, t) :: gs, rest⟩
          = items ++ [.str (s%"-"), t] ++ TypedList.tokens ⟨gs, rest⟩ := by
        simp [TypedList.tokens, List.append_assoc]
      have hi := hs (items, t) (by simp)
      rw [htok, typedLoop, sepIndex_append _ _ _ _ hi] at h
      have hget : (pre ++ (items ++ [TTok.str (s%"-"), t] ++ TypedList.tokens ⟨gs, rest⟩))[pre.length + items.length + 1]? = some t := by
        rw [List.getElem?_append_right (by omega)]
        rw [List.append_assoc, List.getElem?_append_right (by omega)]
        have : pre.length + items.length + 1 - pre.length - items.length = 1 := by omega
        rw [this]; rfl
      have hslice : slice (pre ++ (items ++ [TTok.str (s%"-"), t] ++ TypedList.tokens ⟨gs, rest⟩)) pre.length
          (pre.length + items.length) = items := by
        unfold slice
        rw [List.take_append, List.take_of_length_le (by omega), List.drop_left]
        have : pre.length + items.length - pre.length = items.length := by omega
        rw [this, List.append_assoc, List.take_left]
      simp only [hget, hslice] at h
      obtain ⟨tags, hp, h⟩ := bind_ok_iff.1 h
      obtain ⟨x', ha, h⟩ := bind_ok_iff.1 h
      have hv := addTypedLists_valid ha
      obtain ⟨hne, ht⟩ : items ≠ [] ∧ ((∃ ts, t = .list ts) ∨ ∃ s, t = .str s) := hg (items, t) (by simp)
      have htypes : IsTypes t := by
        rcases ht with ⟨ts', rfl⟩ | ⟨s, rfl⟩
        · intro x hx
          simp only [TTok.parents, pure_ok, Except.ok.injEq] at hp
          refine hv.2 hne x ?_
          rw [← hp]; exact mem_dedup.2 hx
        · simp only [TTok.parents, pure_ok, Except.ok.injEq] at hp
          exact hv.2 hne s (by rw [← hp]; simp)
      have := ih (pre := pre ++ items ++ [.str (s%"-"), t]) (x := x') (fuel := n)
        (fun g h => hg g (List.mem_cons_of_mem _ h)) (fun g h => hs g (List.mem_cons_of_mem _ h)) hr
        (by
          have hlen : (pre ++ items ++ [TTok.str (s%"-"), t]).length = pre.length + items.length + 2 := by
            simp; omega
          rw [hlen]
          rw [← h]
          simp [List.append_assoc])
      refine ⟨?_, this.rest, ?_⟩
      · intro g hg'
        rcases List.mem_cons.1 hg' with rfl | hg'
        · exact hv.1
        · exact this.items g hg'
      · intro g hg'
        rcases List.mem_cons.1 hg' with rfl | hg'
        · exact htypes
        · exact this.types g hg'


theorem Spec.VarsText.shape {ts : List Tree} {l : TypedList} (h : VarsText ts l) :
    (∀ g ∈ l.groups, g.1 ≠ [] ∧ ∃ ts, g.2 = .list ts) ∧
    (∀ g ∈ l.groups, ∀ t ∈ g.1, ∃ n, t = .str n ∧ .atom (.name n) ∈ ts) ∧
    (∀ t ∈ l.rest, ∃ n, t = .str n ∧ .atom (.name n) ∈ ts) := by
  induction h with
  | rest ns =>
    refine ⟨by simp, by simp, ?_⟩
    intro t ht
    simp only [List.mem_map] at ht
    obtain ⟨n, hn, rfl⟩ := ht
    exact ⟨n, rfl, List.mem_flatMap.2 ⟨n, hn, by simp [varTrees]⟩⟩
  | @group n ns t types ts l _ _ ih =>
    refine ⟨?_, ?_, ?_⟩
    · intro g hg
      rcases List.mem_cons.1 hg with rfl | hg
      · exact ⟨by simp, types, rfl⟩
      · exact ih.1 g hg
    · intro g hg u hu
      rcases List.mem_cons.1 hg with rfl | hg
      · simp only [List.mem_map] at hu
        obtain ⟨m, hm, rfl⟩ := hu
        exact ⟨m, rfl, List.mem_append_left _ (List.mem_flatMap.2 ⟨m, hm, by simp [varTrees]⟩)⟩
      · obtain ⟨m, rfl, hm⟩ := ih.2.1 g hg u hu
        exact ⟨m, rfl, by simp [hm]⟩
    · intro u hu
      obtain ⟨m, rfl, hm⟩ := ih.2.2 u hu
      exact ⟨m, rfl, by simp [hm]⟩

theorem Spec.VarsText.assigned {ts : List Tree} {l : TypedList} (h : VarsText ts l) :
    ∀ p ∈ l.assigned, ∃ n, p.1 = .str n := by
  intro p hp
  simp only [TypedList.assigned, List.mem_append, List.mem_flatMap, List.mem_map] at hp
  rcases hp with ⟨g, hg, t, ht, rfl⟩ | ⟨t, ht, rfl⟩
  · obtain ⟨n, h, _⟩ := h.shape.2.1 g hg t ht; exact ⟨n, h⟩
  · obtain ⟨n, h, _⟩ := h.shape.2.2 t ht; exact ⟨n, h⟩

/-- The variables built from a list. -/
def builtVars (l : TypedList) : List Var := l.vars.map (fun p => ⟨p.1, dd p.2⟩)

theorem vars_valid {l : TypedList} (ok : l.Ok) : ∀ p ∈ l.vars, ValidName p.1 ∧ ∀ t ∈ p.2, ValidType t := by
  intro p hp
  simp only [TypedList.vars, List.mem_filterMap] at hp
  obtain ⟨q, hq, h⟩ := hp
  obtain ⟨k, ts⟩ := q
  cases k with
  | str n =>
    simp only [Option.some.injEq] at h
    subst h
    simp only [TypedList.assigned, List.mem_append, List.mem_flatMap, List.mem_map, Prod.mk.injEq] at hq
    rcases hq with ⟨g, hg, t, ht, rfl, rfl⟩ | ⟨t, ht, rfl, rfl⟩
    · refine ⟨ok.items g hg _ ht, ?_⟩
      have := ok.types g hg
      cases hg2 : g.2 with
      | str s => rw [hg2] at this; intro t ht; simp [typesOf] at ht; subst ht; exact this
      | list l => rw [hg2] at this; exact this
      | fn f => simp [typesOf]
    · exact ⟨ok.rest _ ht, by simp⟩
  | list l => simp at h
  | fn f => simp at h

theorem mkVars_ok {l : List (Str × List Str)} (h : ∀ p ∈ l, ValidName p.1 ∧ ∀ t ∈ p.2, ValidType t) :
    mkVars l = .ok (l.map (fun p => ⟨p.1, dd p.2⟩)) := by
  induction l with
  | nil => rfl
  | cons p l ih =>
    obtain ⟨n, ts⟩ := p
    have h1 := h (n, ts) (by simp)
    have : mkVar n (.set ts) = .ok ⟨n, dd ts⟩ := mkVar_set_ok.2 ⟨h1.1, h1.2, rfl⟩
    simp [mkVars, this, ih (fun p hp => h p (List.mem_cons_of_mem _ hp))]

theorem dd_mem {t : Str} {l : List Str} : t ∈ dd l ↔ t ∈ l := mem_dedup

open Classical in
/-- What a typed list of variables gives. -/
theorem typedListVariable_eq {ts : List Tree} {l : TypedList} (h : VarsText ts l) (ok : l.Ok) :
    typedListVariable l.tokens = if Compatible l.itemsOf then .ok (l.vars.map (fun p => (p.1, dd p.2)))
      else .error .parsing := by
  unfold typedListVariable
  rw [parseTypedList_eq true l ok]
  have hv : VInv ⟨[], []⟩ [] := ⟨rfl, by simp, by simp [TIndex.get], by simp [TIndex.get]⟩
  obtain ⟨h1, h2⟩ := addAll_true (L := l.itemsOf) hv
  by_cases hc : Compatible l.itemsOf
  · obtain ⟨y, hy, hi⟩ := h1 (by simpa using hc)
    rw [hy, if_pos hc]
    simp only [ok_bind, pure_ok, typedListError]
    congr 1
    rw [TIndex.variables, hi.seq, List.nil_append, TypedList.itemsOf, TypedList.vars]
    have := h.assigned
    generalize l.assigned = A at this
    clear hi hy hv h1 h2
    induction A with
    | nil => rfl
    | cons p A ih =>
      obtain ⟨k, tags⟩ := p
      obtain ⟨n, hn⟩ := this (k, tags) (by simp)
      simp only at hn
      subst hn
      have ih := ih (fun p hp => this p (List.mem_cons_of_mem _ hp))
      simp only [List.map_cons, List.filterMap_cons]
      exact congrArg ((n, dd tags) :: ·) ih
  · rw [h2 (by simpa using hc), if_neg hc]
    simp only [error_bind, typedListError]
    congr 1
    rw [if_neg]
    simp only [List.any_eq_true, not_exists, not_and, Bool.not_eq_true]
    intro t ht
    simp only [TypedList.tokens, List.mem_append, List.mem_flatMap, List.mem_cons, List.not_mem_nil, or_false] at ht
    rcases ht with ⟨g, hg, ht | rfl | rfl⟩ | ht
    · obtain ⟨n, rfl, _⟩ := h.shape.2.1 g hg t ht; rfl
    · rfl
    · obtain ⟨_, ts, e⟩ := h.shape.1 g hg; rw [e]
    · obtain ⟨n, rfl, _⟩ := h.shape.2.2 t ht; rfl

theorem parseTypedVars_eq {ts : List Tree} {l : TypedList} (h : VarsText ts l) (ok : l.Ok)
    (hc : Compatible l.itemsOf) : parseTypedVars ts = .ok (builtVars l) := by
  unfold parseTypedVars
  rw [typedVarToks_iff.2 ⟨l, h, rfl⟩]
  simp only
  rw [typedListVariable_eq h ok, if_pos hc]
  simp only [ok_bind]
  rw [mkVars_ok]
  · simp [builtVars, List.map_map, Function.comp_def, dd_idem]
  · intro p hp
    simp only [List.mem_map] at hp
    obtain ⟨q, hq, rfl⟩ := hp
    obtain ⟨h1, h2⟩ := vars_valid ok q hq
    exact ⟨h1, fun t ht => h2 t (dd_mem.1 ht)⟩

theorem nameRegex_not_sep {w : Str} (h : nameRegex w = true) : (TTok.str w).isSep = false := by
  simp only [TTok.isSep, decide_eq_false_iff_not]
  rintro rfl
  revert h
  decide

theorem typedListVariable_ok {ts : List Tree} {l : TypedList} (h : VarsText ts l)
    (hw : ∀ w, .atom (.name w) ∈ ts → nameRegex w = true) {r : List (Str × List Str)}
    (ht : typedListVariable l.tokens = .ok r) :
    l.Ok ∧ Compatible l.itemsOf ∧ r = l.vars.map (fun p => (p.1, dd p.2)) := by
  have ok : l.Ok := by
    unfold typedListVariable typedListError at ht
    split at ht
    · simp at ht
    · obtain ⟨x, hx, _⟩ := bind_ok_iff.1 ht
      refine typedLoop_valid (pre := []) (fun g hg => ⟨(h.shape.1 g hg).1, .inl (h.shape.1 g hg).2⟩) ?_ ?_ hx
      · intro g hg t htm
        obtain ⟨n, rfl, hn⟩ := h.shape.2.1 g hg t htm
        exact nameRegex_not_sep (hw n hn)
      · intro t htm
        obtain ⟨n, rfl, hn⟩ := h.shape.2.2 t htm
        exact nameRegex_not_sep (hw n hn)
  rw [typedListVariable_eq h ok] at ht
  split at ht
  · rename_i hc
    injection ht with ht
    exact ⟨ok, hc, ht.symm⟩
  · simp at ht

/-- A typed list of variables of a text that is accepted. -/
theorem parseTypedVars_ok {ts : List Tree} {vs : List Var}
    (hw : ∀ w, .atom (.name w) ∈ ts → nameRegex w = true) (h : parseTypedVars ts = .ok vs) :
    ∃ l, VarsText ts l ∧ l.Ok ∧ Compatible l.itemsOf ∧ vs = builtVars l := by
  unfold parseTypedVars at h
  split at h
  · rename_i toks ht
    obtain ⟨l, hl, rfl⟩ := typedVarToks_iff.1 ht
    obtain ⟨r, hr, h⟩ := bind_ok_iff.1 h
    obtain ⟨ok, hc, rfl⟩ := typedListVariable_ok hl hw hr
    refine ⟨l, hl, ok, hc, ?_⟩
    have := parseTypedVars_eq hl ok hc
    unfold parseTypedVars at this
    rw [ht] at this
    simp only [hr, ok_bind] at this
    rw [h] at this
    injection this
  · simp at h

/-- Names that occur twice have the same types. -/
theorem compatible_vars {l : TypedList} (hc : Compatible l.itemsOf) {p q : Str × List Str} (hp : p ∈ l.vars)
    (hq : q ∈ l.vars) (h : p.1 = q.1) : SameTypes p.2 q.2 := by
  simp only [TypedList.vars, List.mem_filterMap] at hp hq
  obtain ⟨⟨k, ts⟩, hp, e⟩ := hp
  obtain ⟨⟨k', ts'⟩, hq, e'⟩ := hq
  cases k with
  | str n =>
    cases k' with
    | str m =>
      simp only [Option.some.injEq] at e e'
      subst e; subst e'
      simp only at h
      subst h
      have := hc (.name n, dd ts) (List.mem_map.2 ⟨_, hp, rfl⟩) (.name n, dd ts') (List.mem_map.2 ⟨_, hq, rfl⟩)
        (Item.pyEq_refl _)
      intro x
      have := this x
      simp only [dd_mem] at this
      exact this
    | list l => simp at e'
    | fn f => simp at e'
  | list l => simp at e
  | fn f => simp at e

end Pddl
