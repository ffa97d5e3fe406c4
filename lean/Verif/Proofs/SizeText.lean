/-
What is read from a text is not larger than the text.
-/
import Verif.Proofs.Size
import Verif.Proofs.ParseDom
import Verif.Proofs.ParseProb
import Verif.Proofs.NamesText

namespace Pddl
open Spec

/-- Not larger than the text and not nested more deeply. -/
def NoLarger (e : Expr) (t : Tree) : Prop := nodes e ≤ tokens t ∧ nesting e ≤ brackets t

theorem within_all {es : List Expr} {ts : List Tree} (h1 : ts.length = es.length) (h2 : ∀ p ∈ ts.zip es, NoLarger p.2 p.1) :
    nodesAll es ≤ tokensAll ts ∧ nestingAll es ≤ bracketsAll ts := by
  induction ts generalizing es with
  | nil =>
    cases es with
    | nil => simp [nodesAll, nestingAll]
    | cons _ _ => simp at h1
  | cons t ts ih =>
    cases es with
    | nil => simp at h1
    | cons e es =>
      obtain ⟨h3, h4⟩ := h2 (t, e) (by simp)
      obtain ⟨h5, h6⟩ := ih (es := es) (by simpa using h1) (fun p hp => h2 p (by simp [hp]))
      simp only [nodesAll, nestingAll, tokensAll, bracketsAll] at *
      omega

theorem within_construct (c : Cls) {es : List Expr} {ts : List Tree} (a : Tree) (h1 : ts.length = es.length)
    (h2 : ∀ p ∈ ts.zip es, NoLarger p.2 p.1) : NoLarger (construct c es) (.node (a :: ts)) := by
  obtain ⟨h3, h4⟩ := within_all h1 h2
  have h5 := construct_nodes c es
  have h6 := construct_nesting c (nestingAll_le.1 h4)
  simp only [NoLarger, tokens, brackets, tokensAll, bracketsAll] at *
  omega

theorem terms_le {E : GEnv} {ts : List Tree} : ∀ {us}, E.terms ts = .ok us → us.length ≤ tokensAll ts := by
  fun_induction GEnv.terms E ts with
  | case1 => intro us h; simp at h; subst h; simp
  | case2 n ts ih =>
    intro us h
    simp only [bind_ok_iff, pure_ok, Except.ok.injEq] at h
    obtain ⟨_, _, r, h2, rfl⟩ := h
    have := ih h2
    simp only [List.length_cons, tokensAll, tokens]; omega
  | case3 n ts ih =>
    intro us h
    simp only [bind_ok_iff, pure_ok, Except.ok.injEq] at h
    obtain ⟨_, _, r, h2, rfl⟩ := h
    have := ih h2
    simp only [List.length_cons, tokensAll, tokens]; omega
  | case4 => intro us h; simp at h

theorem FRel.within {E : GEnv} {t : Tree} {e : Expr} (h : FRel E t e) : NoLarger e t := by
  induction h with
  | num _ => simp [NoLarger, nodes, tokens, nesting]
  | plus _ h1 _ ih => exact within_construct _ _ h1 ih
  | times _ h1 _ ih => exact within_construct _ _ h1 ih
  | divide _ _ ih1 ih2 => exact within_construct _ _ rfl (by simpa using ⟨ih1, ih2⟩)
  | minus _ ih => exact within_construct _ _ rfl (by simpa using ih)
  | fn0 h => obtain ⟨_, rfl⟩ := mkNFun_ok.1 h; simp [NoLarger, nodes, tokens, nesting]
  | fn h1 h =>
    obtain ⟨_, rfl⟩ := mkNFun_ok.1 h
    have := terms_le h1
    simp only [NoLarger, nodes, tokens, nesting, tokensAll]; omega

/-! ### Typed lists -/

/-- The weight of an item of a typed list. -/
def Item.weight : Item → Nat
  | .name _ => 1
  | .fn f => 1 + f.terms.length

def TTok.weight : TTok → Nat
  | .str _ => 1
  | .list _ => 1
  | .fn f => 1 + f.terms.length

def weights (l : List (Item × List Str)) : Nat := (l.map (fun p => p.1.weight)).sum
def tokWeights (l : List TTok) : Nat := (l.map TTok.weight).sum

theorem addItem_weight {b : Bool} {x x' : TIndex} {i : Item} {tags : List Str} (h : x.addItem b i tags = .ok x') :
    weights x'.itemToTypes ≤ weights x.itemToTypes + i.weight ∧ weights x'.sequence = weights x.sequence + i.weight := by
  have e : x' = x.add i tags := by
    unfold TIndex.addItem at h
    split at h
    · split at h
      · simp only [bind_ok_iff, pure_ok, Except.ok.injEq] at h
        obtain ⟨_, _, _, _, _, _, h⟩ := h
        exact h.symm
      · simp only [bind_ok_iff, pure_ok, Except.ok.injEq] at h
        obtain ⟨_, _, h⟩ := h
        exact h.symm
    · split at h
      · simp only [bind_ok_iff, pure_ok, Except.ok.injEq] at h
        obtain ⟨_, _, _, _, h⟩ := h
        exact h.symm
      · simp only [pure_ok, Except.ok.injEq] at h
        exact h.symm
  subst e
  refine ⟨?_, by simp [TIndex.add, weights]⟩
  unfold TIndex.add
  simp only
  split
  · have : weights (x.itemToTypes.map (fun p => if i.pyEq p.1
          then (p.1, p.2 ++ tags.filter (fun t => decide (t ∉ p.2))) else p)) = weights x.itemToTypes := by
      unfold weights
      rw [List.map_map]
      congr 1
      apply List.map_congr_left
      intro p _
      simp only [Function.comp]
      split <;> rfl
    omega
  · simp [weights]

theorem addTypedLists_weight {b : Bool} {tags : List Str} {ts : List TTok} : ∀ {x x' : TIndex},
    addTypedLists b tags x ts = .ok x' → weights x'.itemToTypes ≤ weights x.itemToTypes + tokWeights ts ∧
      weights x'.sequence ≤ weights x.sequence + tokWeights ts := by
  induction ts with
  | nil => intro x x' h; simp [addTypedLists] at h; subst h; simp
  | cons t ts ih =>
    intro x x' h
    simp only [addTypedLists, bind_ok_iff] at h
    obtain ⟨i, hi, _, _, y, h1, h2⟩ := h
    obtain ⟨k1, k2⟩ := addItem_weight h1
    obtain ⟨k3, k4⟩ := ih h2
    have : i.weight ≤ t.weight := by
      unfold TTok.item at hi
      split at hi
      · simp only [bind_ok_iff, pure_ok, Except.ok.injEq] at hi
        obtain ⟨_, _, rfl⟩ := hi
        simp [Item.weight, TTok.weight]
      · simp only [pure_ok, Except.ok.injEq] at hi
        subst hi
        simp [Item.weight, TTok.weight]
      · cases hi
    simp only [tokWeights, List.map_cons, List.sum_cons] at *
    omega

theorem tokWeights_append (a b : List TTok) : tokWeights (a ++ b) = tokWeights a + tokWeights b := by simp [tokWeights]

theorem slice_drop (toks : List TTok) {a b : Nat} (h : a ≤ b) : tokWeights (slice toks a b) + tokWeights (toks.drop b) ≤ tokWeights (toks.drop a) := by
  have : toks.drop a = slice toks a b ++ toks.drop b := by
    unfold slice
    conv_lhs => rw [← List.take_append_drop b toks]
    by_cases hb : b ≤ toks.length
    · rw [List.drop_append_of_le_length (by simp; omega)]
    · have h2 : toks.drop b = [] := List.drop_eq_nil_of_le (by omega)
      rw [h2]; simp
  rw [this, tokWeights_append]

theorem drop_weight (toks : List TTok) {a b : Nat} (h : a ≤ b) : tokWeights (toks.drop b) ≤ tokWeights (toks.drop a) := by
  have := slice_drop toks h
  omega

theorem typedLoop_weight {b : Bool} {toks : List TTok} {fuel : Nat} : ∀ {start : Nat} {x x' : TIndex},
    typedLoop b toks fuel start x = .ok x' →
    weights x'.itemToTypes ≤ weights x.itemToTypes + tokWeights (toks.drop start) ∧
      weights x'.sequence ≤ weights x.sequence + tokWeights (toks.drop start) := by
  induction fuel with
  | zero => intro _ _ _ h; simp [typedLoop] at h
  | succ n ih =>
    intro start x x' h
    unfold typedLoop at h
    split at h
    · split at h
      · obtain ⟨k1, k2⟩ := addTypedLists_weight h
        have : tokWeights (slice toks start toks.length) ≤ tokWeights (toks.drop start) := by
          unfold slice; simp
        omega
      · simp at h; subst h; omega
    · rename_i sep hsep
      split at h
      · cases h
      · simp only [bind_ok_iff] at h
        obtain ⟨tags, _, y, h1, h2⟩ := h
        obtain ⟨k1, k2⟩ := addTypedLists_weight h1
        obtain ⟨k3, k4⟩ := ih h2
        have hle : start ≤ sep := by
          unfold sepIndex at hsep
          obtain ⟨i, _, rfl⟩ := Option.map_eq_some_iff.1 hsep
          omega
        have := slice_drop toks hle
        have := drop_weight toks (a := sep) (b := sep + 2) (by omega)
        omega

theorem parseTypedList_weight {b : Bool} {toks : List TTok} {x : TIndex} (h : parseTypedList b toks = .ok x) :
    weights x.itemToTypes ≤ tokWeights toks ∧ weights x.sequence ≤ tokWeights toks := by
  have := typedLoop_weight h
  simpa [weights] using this

theorem filterMap_weight {l : List (Item × List Str)} {β} (f : Item × List Str → Option β) : (l.filterMap f).length ≤ weights l := by
  induction l with
  | nil => simp
  | cons p l ih =>
    have : 1 ≤ p.1.weight := by cases p.1 <;> simp [Item.weight]
    simp only [weights, List.map_cons, List.sum_cons, List.filterMap_cons] at *
    split
    · omega
    · simp only [List.length_cons]; omega

theorem typedListVariable_length {toks : List TTok} {l : List (Str × List Str)} (h : typedListVariable toks = .ok l) :
    l.length ≤ tokWeights toks := by
  have h := typedListError_ok.1 h
  simp only [bind_ok_iff, pure_ok, Except.ok.injEq] at h
  obtain ⟨x, h1, rfl⟩ := h
  exact (filterMap_weight _).trans (parseTypedList_weight h1).2

theorem namesOf_items {l : List (Item × List Str)} : ∀ {r}, namesOf l = .ok r → r.map Prod.fst = l.map Prod.fst := by
  induction l with
  | nil => intro r h; simp [namesOf] at h; subst h; rfl
  | cons p l ih =>
    intro r h
    obtain ⟨i, tags⟩ := p
    simp only [namesOf, bind_ok_iff, pure_ok, Except.ok.injEq] at h
    obtain ⟨_, _, r', h1, rfl⟩ := h
    simp [ih h1]

theorem typedListName_length {toks : List TTok} {l : List (Str × Option Str)} (h : typedListName toks = .ok l) :
    l.length ≤ tokWeights toks := by
  have h := typedListError_ok.1 h
  simp only [bind_ok_iff, pure_ok, Except.ok.injEq] at h
  obtain ⟨x, h1, r, h2, rfl⟩ := h
  have h3 := congrArg List.length (namesOf_items h2)
  simp only [List.length_map] at h3
  have h4 := filterMap_weight (l := x.itemToTypes) (fun p => some p)
  have h5 := (parseTypedList_weight h1).1
  simp only [List.filterMap_some] at h4
  have h6 : ∀ (l : List (Item × Option Str)), (l.filterMap (fun p => match p.1 with | .name n => some (n, p.2) | .fn _ => none)).length ≤ l.length :=
    fun l => List.length_filterMap_le _ l
  exact (h6 r).trans (by omega)

theorem typedVarToks_weight {b : Bool} {ts : List Tree} : ∀ {toks}, typedVarToks b ts = some toks → tokWeights toks ≤ tokensAll ts := by
  fun_induction typedVarToks b ts with
  | case1 => intro toks h; simp at h; subst h; simp [tokWeights]
  | case2 b n ts ih =>
    intro toks h
    obtain ⟨r, h1, rfl⟩ := Option.map_eq_some_iff.1 h
    have := ih h1
    simp only [tokWeights, List.map_cons, List.sum_cons, TTok.weight, tokensAll, tokens] at *
    omega
  | case3 t ts l r h1 h2 ih =>
    intro toks h
    simp only [Option.some.injEq] at h
    subst h
    have := ih h1
    have : 1 ≤ tokens t := by cases t <;> simp [tokens]; omega
    simp only [tokWeights, List.map_cons, List.sum_cons, TTok.weight, tokensAll, tokens] at *
    omega
  | case4 => intro toks h; simp at h
  | case5 => intro toks h; simp at h

theorem typedNameToks_weight {b : Bool} {ts : List Tree} : ∀ {toks}, typedNameToks b ts = some toks → tokWeights toks ≤ tokensAll ts := by
  fun_induction typedNameToks b ts with
  | case1 => intro toks h; simp at h; subst h; simp [tokWeights]
  | case2 b n ts ih =>
    intro toks h
    obtain ⟨r, h1, rfl⟩ := Option.map_eq_some_iff.1 h
    have := ih h1
    simp only [tokWeights, List.map_cons, List.sum_cons, TTok.weight, tokensAll, tokens] at *
    omega
  | case3 n ts ih =>
    intro toks h
    obtain ⟨r, h1, rfl⟩ := Option.map_eq_some_iff.1 h
    have := ih h1
    simp only [tokWeights, List.map_cons, List.sum_cons, TTok.weight, tokensAll, tokens] at *
    omega
  | case4 => intro toks h; simp at h

theorem mkVars_length {l : List (Str × List Str)} : ∀ {vs : List Var}, mkVars l = .ok vs → vs.length = l.length := by
  induction l with
  | nil => intro vs h; simp [mkVars] at h; subst h; rfl
  | cons p l ih =>
    intro vs h
    simp only [mkVars, bind_ok_iff, pure_ok, Except.ok.injEq] at h
    obtain ⟨_, _, r, h1, rfl⟩ := h
    simp [ih h1]

/-! ### Conditions and effects -/

/-- The callback for lists of variables returns no more than it is given. -/
def GEnv.Frugal (E : GEnv) : Prop := ∀ toks l, E.typedVars toks = .ok l → l.length ≤ tokWeights toks

theorem PState.frugal (σ : PState) (F : FloatOf) : (σ.env F).Frugal := fun _ _ h => typedListVariable_length h
theorem goalEnv_frugal (F : FloatOf) : (goalEnv F).Frugal := by
  intro toks l h
  simp only [goalEnv, pure_ok, Except.ok.injEq] at h
  subst h
  simp

theorem bound_vars {E : GEnv} (hE : E.Frugal) {vs : List Tree} {toks : List TTok} {l : List (Str × List Str)} {vars : List Var}
    (h1 : typedVarToks false vs = some toks) (h2 : E.typedVars toks = .ok l) (h3 : mkVars l = .ok vars) :
    (dedupBy Var.pyEq vars).length ≤ tokensAll vs := by
  have k1 := (dedupBy_sublist (eq := Var.pyEq) vars).length_le
  have k2 := mkVars_length h3
  have k3 := hE _ _ h2
  have k4 := typedVarToks_weight h1
  omega

theorem mkEq_within {E : GEnv} {a : Tree} {args : List Tree} {l r : Term} {e : Expr} (h : mkEq l r = .ok e)
    (h1 : E.terms args = .ok [l, r]) : NoLarger e (.node (a :: args)) := by
  obtain ⟨_, rfl⟩ := mkEq_ok.1 h
  have := terms_le h1
  simp only [NoLarger, nodes, tokens, nesting, tokensAll, List.length_cons, List.length_nil] at *
  have : 1 ≤ tokens a := by cases a <;> simp [tokens]; omega
  omega

theorem GRel.within {E : GEnv} (hE : E.Frugal) {t : Tree} {e : Expr} (h : GRel E t e) : NoLarger e t := by
  induction h with
  | and h1 _ ih => exact within_construct _ _ h1 ih
  | or h1 _ _ ih => exact within_construct _ _ h1 ih
  | not _ ih =>
    obtain ⟨h1, h2⟩ := ih
    simp only [NoLarger, nodes, tokens, nesting, brackets, tokensAll, bracketsAll]; omega
  | imply _ _ _ ih1 ih2 => exact within_construct _ _ rfl (by simpa using ⟨ih1, ih2⟩)
  | quant h1 h2 _ _ h3 ih =>
    obtain ⟨k1, k2⟩ := ih
    have := bound_vars hE h1 h2 h3
    simp only [NoLarger, mkQuant, nodes, tokens, nesting, brackets, tokensAll, bracketsAll]; omega
  | atom _ h1 h =>
    obtain ⟨_, _, rfl⟩ := mkPred_ok.1 h
    have := terms_le h1
    simp only [NoLarger, nodes, tokens, nesting, tokensAll]; omega
  | eq _ h1 _ h => exact mkEq_within h h1
  | comp _ _ h1 h2 =>
    exact within_construct _ _ rfl (by simpa using ⟨(fExp_iff.1 h1).within, (fExp_iff.1 h2).within⟩)

theorem atomic_within {E : GEnv} {args : List Tree} {e : Expr} (h : E.atomic args = .ok e) : NoLarger e (.node args) := by
  unfold GEnv.atomic at h
  split at h
  · simp only [bind_ok_iff] at h
    obtain ⟨ts, h1, h⟩ := h
    split at h
    · simp only [bind_ok_iff] at h
      obtain ⟨_, _, h⟩ := h
      exact mkEq_within h h1
    · cases h
  · simp only [bind_ok_iff, pure_ok, Except.ok.injEq] at h
    obtain ⟨ts, h1, p, h2, rfl⟩ := h
    obtain ⟨_, _, rfl⟩ := mkPred_ok.1 h2
    have := terms_le h1
    simp only [NoLarger, nodes, tokens, nesting, tokensAll]; omega
  · cases h

theorem fHead_within {E : GEnv} {t : Tree} {f : NFun} (h : E.fHead t = .ok f) : NoLarger (.nfun f) t := by
  unfold GEnv.fHead at h
  split at h
  · obtain ⟨_, rfl⟩ := mkNFun_ok.1 h; simp [NoLarger, nodes, tokens, nesting]
  · simp only [bind_ok_iff] at h
    obtain ⟨ts, h1, h2⟩ := h
    obtain ⟨_, rfl⟩ := mkNFun_ok.1 h2
    have := terms_le h1
    simp only [NoLarger, nodes, tokens, nesting, tokensAll]; omega
  · cases h

theorem PRel.within {E : GEnv} {t : Tree} {e : Expr} (h : PRel E t e) : NoLarger e t := by
  cases h with
  | not h =>
    obtain ⟨h1, h2⟩ := atomic_within h
    simp only [NoLarger, nodes, tokens, nesting, brackets, tokensAll, bracketsAll] at *; omega
  | assign _ h1 h2 => exact within_construct _ _ rfl (by simpa using ⟨fHead_within h1, (fExp_iff.1 h2).within⟩)
  | atom _ _ h => exact atomic_within h
  | eq h => exact atomic_within h

theorem CRel.within {E : GEnv} {t : Tree} {e : Expr} (h : CRel E t e) : NoLarger e t := by
  cases h with
  | and h => exact within_construct _ _ h.1 (fun p hp => (h.2 p hp).within)
  | one _ h => exact h.within

theorem ERel.within {E : GEnv} (hE : E.Frugal) {top : Bool} {t : Tree} {e : Expr} (h : ERel E top t e) : NoLarger e t := by
  induction h with
  | and h1 _ ih => exact within_construct _ _ h1 ih
  | fall h1 h2 _ h3 ih =>
    obtain ⟨k1, k2⟩ := ih
    have := bound_vars hE h1 h2 h3
    simp only [NoLarger, mkForall, nodes, tokens, nesting, brackets, tokensAll, bracketsAll]; omega
  | when h1 h2 =>
    obtain ⟨k1, k2⟩ := (gd_iff.1 h1).within hE
    obtain ⟨k3, k4⟩ := (condEffect_iff.1 h2).within
    simp only [NoLarger, nodes, tokens, nesting, brackets, tokensAll, bracketsAll]; omega
  | oneof _ h1 _ _ ih => exact within_construct _ _ h1 ih
  | lit _ h => exact (pEffect_iff.1 h).within

theorem preGd_within {E : GEnv} (hE : E.Frugal) {t : Tree} {e : Expr} (h : E.preGd t = .ok e) : NoLarger e t := by
  unfold GEnv.preGd at h
  split at h
  · simp only [pure_ok, Except.ok.injEq] at h; subst h; exact ⟨by decide, by decide⟩
  · exact (gd_iff.1 h).within hE

theorem effOpt_within {E : GEnv} (hE : E.Frugal) {t : Tree} {e : Expr} (h : E.effOpt t = .ok e) : NoLarger e t := by
  unfold GEnv.effOpt at h
  split at h
  · simp only [pure_ok, Except.ok.injEq] at h; subst h; exact ⟨by decide, by decide⟩
  · exact (effect_iff.1 h).within hE

end Pddl
