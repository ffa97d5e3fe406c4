/-
The trees of printed formulas and effects mean what the formulas and effects mean.
-/
import Verif.Spec.Said
import Verif.Proofs.FormulaParse
import Verif.Proofs.EffectSem
import Verif.Proofs.OutcomeRead
import Verif.Proofs.DerivedSem

namespace Pddl
open Spec

variable {D : Type} (I : Interp D) (lit : Str → Option Rat)

theorem Spec.ValidName.ne {n : Str} (h : ValidName n) {w : Str} (hw : Reserved w) : n ≠ w := fun e => h.2 (e ▸ hw)

theorem treeTerms_trees (ρ : Str → D) (ts : List Term) : treeTerms I ρ (ts.flatMap Term.trees) = some (ts.map (denote I ρ)) := by
  induction ts with
  | nil => rfl
  | cons t ts ih =>
    cases t with
    | var v => simp [Term.trees, treeTerms, ih, denote]
    | const n x => simp [Term.trees, treeTerms, ih, denote]

theorem values_trees {as : List Expr} {ρ : Str → D} (h : ∀ a ∈ as, treeValue I lit ρ a.tree = value I ρ a) :
    treeValues I lit ρ (Expr.trees as) = values I ρ as := by
  induction as with
  | nil => rfl
  | cons a as ih =>
    rw [Expr.trees, treeValues, values, h a (by simp), ih (fun b hb => h b (by simp [hb]))]

theorem Spec.SaidNum.value {F : FloatOf} (hlit : LitOk lit F) {e : Expr} (h : SaidNum F e) (ρ : Str → D) :
    treeValue I lit ρ e.tree = Spec.value I ρ e := by
  induction h with
  | num h => exact hlit _ _ (numberText_literal h)
  | fn h1 h2 => simp [Expr.tree, treeValue, treeTerms_trees, Spec.value]
  | @op o as ho _ ih =>
    have := values_trees I lit ih
    cases o <;> simp only [IsArithmetic] at ho <;> simp [Expr.tree, FOp.tok, treeValue, Spec.value, this]

theorem Spec.SaidNum.not_terms {F : FloatOf} {e : Expr} (h : SaidNum F e) (r : List Tree) : termsOnly (e.tree :: r) = false := by
  cases h <;> simp [Expr.tree, termsOnly]

theorem Spec.SaidNum.no_terms {F : FloatOf} {e : Expr} (h : SaidNum F e) (ρ : Str → D) (r : List Tree) :
    treeTerms I ρ (e.tree :: r) = none := by
  cases h <;> simp [Expr.tree, treeTerms]

theorem Spec.SaidVars.text {vs : List Var} (h : SaidVars vs) :
    ∃ l, VarsText (vs.flatMap quantVarTrees) l ∧ l.varList = vs := by
  obtain ⟨h1, h2, h3⟩ := h
  clear h1
  induction vs with
  | nil => exact ⟨⟨[], []⟩, VarsText.rest [], rfl⟩
  | cons v vs ih =>
    rw [List.pairwise_cons] at h3
    rcases h2 v (by simp) with hv | ⟨t, hv, _⟩
    · have hall : ∀ w ∈ v :: vs, w.tags = [] := by
        intro w hw
        rcases List.mem_cons.1 hw with rfl | hw
        · exact hv
        · exact h3.1 w hw hv
      refine ⟨⟨[], ((v :: vs).map Var.name).map .str⟩, ?_, ?_⟩
      · have := VarsText.rest ((v :: vs).map Var.name)
        have e : (v :: vs).flatMap quantVarTrees = ((v :: vs).map Var.name).flatMap varTrees := by
          generalize v :: vs = l at hall
          induction l with
          | nil => rfl
          | cons w l ih =>
            simp only [List.flatMap_cons, List.map_cons, ih (fun x hx => hall x (by simp [hx]))]
            simp [quantVarTrees, varTrees, hall w (by simp)]
        rw [e]
        exact this
      · generalize v :: vs = l at hall
        clear ih h2 h3
        induction l with
        | nil => rfl
        | cons w l ih =>
          have ih := ih (fun x hx => hall x (by simp [hx]))
          have := hall w (by simp)
          obtain ⟨n, tags⟩ := w
          simp only at this
          subst this
          simp only [TypedList.varList, TypedList.vars, TypedList.assigned] at ih ⊢
          simpa using ih
    · obtain ⟨l, hl, he⟩ := ih (fun w hw => h2 w (by simp [hw])) h3.2
      refine ⟨⟨([.str v.name], .list [t]) :: l.groups, l.rest⟩, ?_, ?_⟩
      · have := VarsText.group (n := v.name) (ns := []) (TypeText.one t) hl
        simpa [quantVarTrees, varTrees, hv] using this
      · obtain ⟨n, tags⟩ := v
        simp only at hv
        subst hv
        rw [← he]
        simp [TypedList.varList, TypedList.vars, TypedList.assigned, typesOf]

theorem holdsAll_trees {as : List Expr} {ρ : Str → D} (h : ∀ a ∈ as, (holds I a ρ ↔ treeHolds I lit a.tree ρ)) :
    holdsAll I as ρ ↔ treeHoldsAll I lit (Expr.trees as) ρ := by
  induction as with
  | nil => simp [holdsAll, Expr.trees, treeHoldsAll]
  | cons a as ih =>
    rw [Expr.trees, treeHoldsAll, holdsAll, h a (by simp), ih (fun b hb => h b (by simp [hb]))]

theorem holdsSome_trees {as : List Expr} {ρ : Str → D} (h : ∀ a ∈ as, (holds I a ρ ↔ treeHolds I lit a.tree ρ)) :
    holdsSome I as ρ ↔ treeHoldsSome I lit (Expr.trees as) ρ := by
  induction as with
  | nil => simp [holdsSome, Expr.trees, treeHoldsSome]
  | cons a as ih =>
    rw [Expr.trees, treeHoldsSome, holdsSome, h a (by simp), ih (fun b hb => h b (by simp [hb]))]

theorem Spec.SaidCond.says {F : FloatOf} (hlit : LitOk lit F) {e : Expr} (h : SaidCond F e) (ρ : Str → D) :
    holds I e ρ ↔ treeHolds I lit e.tree ρ := by
  induction h generalizing ρ with
  | @pred p h1 h2 =>
    rw [Expr.tree, treeHolds_name, if_neg (h1.ne (w := s%"and") ⟨"and", by decide, rfl⟩), if_neg (h1.ne (w := s%"or") ⟨"or", by decide, rfl⟩),
      if_neg (h1.ne (w := s%"not") ⟨"not", by decide, rfl⟩), if_neg (h1.ne (w := s%"imply") ⟨"imply", by decide, rfl⟩), if_neg (h1.ne (w := s%"forall") ⟨"forall", by decide, rfl⟩),
      if_neg (h1.ne (w := s%"exists") ⟨"exists", by decide, rfl⟩), treeTerms_trees]
    simp [holds]
  | @eq l r _ _ =>
    have := treeTerms_trees I ρ [l, r]
    simp only [List.flatMap_cons, List.flatMap_nil, List.append_nil, List.map_cons, List.map_nil] at this
    have ht : termsOnly (l.trees ++ r.trees) = true := by cases l <;> cases r <;> rfl
    simp only [Expr.tree, treeHolds, holds, sameTerms, this, ht, Option.some.injEq]
    simp
    exact eq_comm
  | @and as _ ih =>
    rw [Expr.tree, show BOp.and.symbol = s%"and" from rfl, treeHolds_name, if_pos rfl, holds]
    exact holdsAll_trees I lit fun a ha => ih a ha ρ
  | @or as _ ih =>
    rw [Expr.tree, show BOp.or.symbol = s%"or" from rfl, treeHolds_name, if_neg (by decide), if_pos rfl, holds]
    exact holdsSome_trees I lit fun a ha => ih a ha ρ
  | @imply as _ ih =>
    rw [Expr.tree, show BOp.imply.symbol = s%"imply" from rfl, treeHolds_name, if_neg (by decide), if_neg (by decide), if_neg (by decide), if_pos rfl, holds]
    match as, ih with
    | [], _ => simp [holdsImply, Expr.trees]
    | [_], _ => simp [holdsImply, Expr.trees]
    | [a, b], ih => simp only [holdsImply, Expr.trees, ih a (by simp) ρ, ih b (by simp) ρ]
    | _ :: _ :: _ :: _, _ => simp [holdsImply, Expr.trees]
  | @not a _ ih =>
    rw [Expr.tree, treeHolds_name, if_neg (by decide), if_neg (by decide), if_pos rfl, holds]
    simp only [ih ρ]
  | @quant q vs c hv _ ih =>
    obtain ⟨l, hl, he⟩ := hv.text
    rw [Expr.tree]
    cases q with
    | all =>
      rw [show QOp.all.symbol = s%"forall" from rfl, treeHolds_name, if_neg (by decide), if_neg (by decide), if_neg (by decide),
        if_neg (by decide), if_pos rfl, holds]
      simp only [ih]
      constructor
      · intro h; exact ⟨l, hl, he ▸ h⟩
      · rintro ⟨l', hl', h⟩
        rw [hl'.unique hl, he] at h
        exact h
    | ex =>
      rw [show QOp.ex.symbol = s%"exists" from rfl, treeHolds_name, if_neg (by decide), if_neg (by decide), if_neg (by decide),
        if_neg (by decide), if_neg (by decide), if_pos rfl, holds]
      simp only [ih]
      constructor
      · intro h; exact ⟨l, hl, he ▸ h⟩
      · rintro ⟨l', hl', h⟩
        rw [hl'.unique hl, he] at h
        exact h
  | @comp o as ho has =>
    have hv := values_trees I lit (fun a ha => (has a ha).value I lit hlit ρ)
    cases as with
    | nil =>
      cases o <;> simp only [IsComparison] at ho <;>
        simp [Expr.tree, FOp.tok, Expr.trees, treeHolds, holds, values, compareVals, treeCompare, compareSign, treeValues, sameTerms, treeTerms]
    | cons a as =>
      rw [Expr.trees] at hv
      have h1 := (has a (by simp)).not_terms (Expr.trees as)
      have h2 := (has a (by simp)).no_terms I ρ (Expr.trees as)
      cases o <;> simp only [IsComparison] at ho <;>
        simp [Expr.tree, FOp.tok, Expr.trees, treeHolds, holds, treeCompare, compareSign, sameTerms, h1, h2, hv]

theorem Spec.SaidEff.no_terms {F : FloatOf} {e : Expr} (h : SaidEff F e) (ρ : Str → D) (r : List Tree) :
    treeTerms I ρ (e.tree :: r) = none := by
  cases h <;> simp [Expr.tree, treeTerms]

theorem treeMakes_trees {c : Change D} {as : List Expr} {ρ : Str → D} (h : ∀ a ∈ as, (makes I c a ρ ↔ treeMakes I lit c a.tree ρ)) :
    makesSome I c as ρ ↔ treeMakesSome I lit c (Expr.trees as) ρ := by
  induction as with
  | nil => simp [makesSome, Expr.trees, treeMakesSome]
  | cons a as ih =>
    rw [Expr.trees, treeMakesSome, makesSome, h a (by simp), ih (fun b hb => h b (by simp [hb]))]

theorem pred_makes {p : Pred} (h1 : ValidName p.name) (c : Change D) (ρ : Str → D) :
    makes I c (.pred p) ρ ↔ treeMakes I lit c (Expr.pred p).tree ρ := by
  have hu : updateWord p.name = none := by
    unfold updateWord
    rw [if_neg (h1.ne (w := s%"assign") ⟨"assign", by decide, rfl⟩), if_neg (h1.ne (w := s%"scale-up") ⟨"scale-up", by decide, rfl⟩),
      if_neg (h1.ne (w := s%"scale-down") ⟨"scale-down", by decide, rfl⟩), if_neg (h1.ne (w := s%"increase") ⟨"increase", by decide, rfl⟩),
      if_neg (h1.ne (w := s%"decrease") ⟨"decrease", by decide, rfl⟩)]
  rw [Expr.tree, treeMakes_name, if_neg (h1.ne (w := s%"and") ⟨"and", by decide, rfl⟩),
    if_neg (h1.ne (w := s%"forall") ⟨"forall", by decide, rfl⟩), if_neg (h1.ne (w := s%"when") ⟨"when", by decide, rfl⟩),
    if_neg (h1.ne (w := s%"not") ⟨"not", by decide, rfl⟩), hu]
  simp only [treeTerms_trees, makes, Option.some.injEq, exists_eq_left']

theorem Spec.SaidEff.makes {F : FloatOf} (hlit : LitOk lit F) {e : Expr} (h : SaidEff F e) (c : Change D) (ρ : Str → D) :
    Spec.makes I c e ρ ↔ treeMakes I lit c e.tree ρ := by
  induction h generalizing ρ with
  | pred h1 _ => exact pred_makes I lit h1 c ρ
  | eq _ _ => simp [Expr.tree, treeMakes, Spec.makes]
  | @not p h1 _ =>
    rw [Expr.tree, treeMakes_name, if_neg (by decide), if_neg (by decide), if_neg (by decide), if_pos rfl]
    simp [Expr.tree, Spec.makes, deletes, treeDelete, treeTerms_trees]
  | @notEq l r _ _ =>
    rw [Expr.tree, treeMakes_name, if_neg (by decide), if_neg (by decide), if_neg (by decide), if_pos rfl]
    simp [Expr.tree, Spec.makes, deletes, treeDelete]
  | @update o f x ho h1 h2 hx =>
    have hv := hx.value I lit hlit ρ
    have key : ∀ (w : Str), w ≠ s%"and" → w ≠ s%"forall" → w ≠ s%"when" → w ≠ s%"not" → updateWord w = some o → updates o = true →
        (Spec.makes I c (.bfun o [.nfun f, x]) ρ ↔ treeMakes I lit c (.node (.atom (.name w) :: Expr.trees [.nfun f, x])) ρ) := by
      intro w n1 n2 n3 n4 hu ho'
      rw [treeMakes_name, if_neg n1, if_neg n2, if_neg n3, if_neg n4, hu]
      simp only [Spec.makes, updated, Expr.trees, Expr.tree, treeUpdate, treeFluent, treeTerms_trees, hv, ho', true_and, Option.map_some,
        Option.some.injEq, Prod.mk.injEq]
      constructor
      · rintro ⟨v, h1, h2⟩; exact ⟨_, _, v, ⟨rfl, rfl⟩, h1, h2⟩
      · rintro ⟨_, _, v, ⟨rfl, rfl⟩, h1, h2⟩; exact ⟨v, h1, h2⟩
    cases o <;> simp only [IsAssignment] at ho <;>
      exact key _ (by decide) (by decide) (by decide) (by decide) (by decide) rfl
  | @and as _ ih =>
    rw [Expr.tree, show BOp.and.symbol = s%"and" from rfl, treeMakes_name, if_pos rfl, Spec.makes]
    exact treeMakes_trees I lit fun a ha => ih a ha ρ
  | @oneof as hne hall _ =>
    rw [Expr.tree, show BOp.oneof.symbol = s%"oneof" from rfl, treeMakes_name, if_neg (by decide), if_neg (by decide), if_neg (by decide),
      if_neg (by decide), show updateWord s%"oneof" = none by decide]
    have : treeTerms I ρ (Expr.trees as) = none := by
      cases as with
      | nil => exact absurd rfl hne
      | cons a as => exact (hall a (by simp)).no_terms I ρ _
    simp [Spec.makes, this]
  | @when cnd e h1 _ ih =>
    rw [Expr.tree, treeMakes_name, if_neg (by decide), if_neg (by decide), if_pos rfl, Spec.makes]
    simp only [ih ρ, h1.says I lit hlit ρ]
  | @fall vs e hv _ ih =>
    obtain ⟨l, hl, he⟩ := hv.text
    rw [Expr.tree, treeMakes_name, if_neg (by decide), if_pos rfl, Spec.makes]
    simp only [ih]
    constructor
    · intro h; exact ⟨l, hl, he ▸ h⟩
    · rintro ⟨l', hl', h⟩
      rw [hl'.unique hl, he] at h
      exact h

/-! ### Possible outcomes -/

theorem outcomeSome_trees {as : List Expr} {ρ : Str → D} {C : Change D → Prop}
    (h : ∀ a ∈ as, (outcome I a ρ C ↔ treeOutcome I lit a.tree ρ C)) :
    outcomeSome I as ρ C ↔ treeOutcomeSome I lit (Expr.trees as) ρ C := by
  induction as with
  | nil => simp [outcomeSome, Expr.trees, treeOutcomeSome]
  | cons a as ih =>
    rw [Expr.trees, treeOutcomeSome, outcomeSome, h a (by simp), ih (fun b hb => h b (by simp [hb]))]

theorem outcomeAll_trees {as : List Expr} {ρ : Str → D} {C : Change D → Prop}
    (h : ∀ a ∈ as, ∀ C, (outcome I a ρ C ↔ treeOutcome I lit a.tree ρ C)) :
    outcomeAll I as ρ C ↔ treeOutcomeAll I lit (Expr.trees as) ρ C := by
  induction as generalizing C with
  | nil => simp [outcomeAll, Expr.trees, treeOutcomeAll]
  | cons a as ih =>
    rw [Expr.trees, treeOutcomeAll, outcomeAll]
    simp only [h a (by simp), ih (fun b hb => h b (by simp [hb]))]

theorem Spec.SaidEff.outcome {F : FloatOf} (hlit : LitOk lit F) {e : Expr} (h : SaidEff F e) (ρ : Str → D) (C : Change D → Prop) :
    Spec.outcome I e ρ C ↔ treeOutcome I lit e.tree ρ C := by
  induction h generalizing ρ C with
  | @pred p h1 h2 =>
    have := fun c => (SaidEff.pred (F := F) h1 h2).makes I lit hlit c ρ
    rw [Expr.tree] at this ⊢
    rw [treeOutcome_name, if_neg (h1.ne (w := s%"oneof") ⟨"oneof", by decide, rfl⟩), if_neg (h1.ne (w := s%"and") ⟨"and", by decide, rfl⟩),
      if_neg (h1.ne (w := s%"forall") ⟨"forall", by decide, rfl⟩), if_neg (h1.ne (w := s%"when") ⟨"when", by decide, rfl⟩), Spec.outcome]
    simp only [this]
    all_goals simp
  | @eq l r h1 h2 =>
    have := fun c => (SaidEff.eq (F := F) h1 h2).makes I lit hlit c ρ
    rw [Expr.tree] at this ⊢
    simp only [Spec.outcome, treeOutcome, this]
  | @not p h1 h2 =>
    have := fun c => (SaidEff.not (F := F) h1 h2).makes I lit hlit c ρ
    rw [Expr.tree] at this ⊢
    rw [treeOutcome_name, if_neg (by decide), if_neg (by decide), if_neg (by decide), if_neg (by decide)]
    simp only [Spec.outcome, this]
  | @notEq l r h1 h2 =>
    have := fun c => (SaidEff.notEq (F := F) h1 h2).makes I lit hlit c ρ
    rw [Expr.tree] at this ⊢
    rw [treeOutcome_name, if_neg (by decide), if_neg (by decide), if_neg (by decide), if_neg (by decide)]
    simp only [Spec.outcome, this]
  | @update o f x ho h1 h2 hx =>
    have := fun c => (SaidEff.update ho h1 h2 hx).makes I lit hlit c ρ
    have key : treeOutcome I lit (Expr.bfun o [.nfun f, x]).tree ρ C ↔ ∀ c, C c ↔ treeMakes I lit c (Expr.bfun o [.nfun f, x]).tree ρ := by
      cases o <;> simp only [IsAssignment] at ho <;>
        (rw [Expr.tree, FOp.tok, treeOutcome_name, if_neg (by decide), if_neg (by decide), if_neg (by decide), if_neg (by decide)]) <;> simp
    rw [key]
    simp only [Spec.outcome, this]
  | @and as _ ih =>
    rw [Expr.tree, show BOp.and.symbol = s%"and" from rfl, treeOutcome_name, if_neg (by decide), if_pos rfl, Spec.outcome]
    exact outcomeAll_trees I lit fun a ha C => ih a ha ρ C
  | @oneof as hne hall ih =>
    rw [Expr.tree, show BOp.oneof.symbol = s%"oneof" from rfl, treeOutcome_name, if_pos rfl, Spec.outcome]
    exact outcomeSome_trees I lit fun a ha => ih a ha ρ C
  | @when cnd e h1 _ ih =>
    rw [Expr.tree, treeOutcome_name, if_neg (by decide), if_neg (by decide), if_neg (by decide), if_pos rfl, Spec.outcome]
    simp only [ih ρ, h1.says I lit hlit ρ]
  | @fall vs e hv _ ih =>
    obtain ⟨l, hl, he⟩ := hv.text
    rw [Expr.tree, treeOutcome_name, if_neg (by decide), if_neg (by decide), if_pos rfl, Spec.outcome]
    simp only [ih]
    constructor
    · intro h; exact ⟨l, hl, he ▸ h⟩
    · rintro ⟨l', hl', h⟩
      rw [hl'.unique hl, he] at h
      exact h

/-! ### The texts -/

theorem Spec.SaidVars.shapes {vs : List Var} (h : SaidVars vs) : ∀ v ∈ vs, NameShape v.name ∧ ∀ t ∈ v.tags, NameShape t := by
  intro v hv
  refine ⟨(h.names v hv).1, fun t ht => ?_⟩
  rcases h.types v hv with e | ⟨x, e, hx⟩
  · rw [e] at ht; simp at ht
  · rw [e, List.mem_singleton] at ht; rw [ht]; exact validType_shape hx

theorem validFunction_shape {n : Str} (h : ValidFunction n) : NameShape n := by
  rcases h with hv | hv
  · exact hv.1
  · rw [hv]; exact (nameRegex_iff _).1 (by decide)

theorem Spec.SaidNum.writable {F : FloatOf} {e : Expr} (h : SaidNum F e) : Writable e := by
  induction h with
  | num h => exact .num (Prints.number (numberText_shape h))
  | fn h1 h2 => exact .nfun (validFunction_shape h1) fun t ht => (h2 t ht).1
  | op _ _ ih => exact .bfun ih

theorem Spec.SaidCond.writable {F : FloatOf} {e : Expr} (h : SaidCond F e) : Writable e := by
  induction h with
  | pred h1 h2 => exact .pred h1.1 fun t ht => (h2 t ht).1
  | eq h1 h2 => exact .eq h1.1 h2.1
  | and _ ih => exact .bin ih
  | or _ ih => exact .bin ih
  | imply _ ih => exact .bin ih
  | not _ ih => exact .not ih
  | quant hv _ ih => exact .quant hv.shapes ih
  | comp _ h => exact .bfun fun a ha => (h a ha).writable

theorem Spec.WellNamed.writable {e : Expr} (h : WellNamed e) : Writable e := by
  induction h with
  | pred h1 h2 => exact .pred h1.1 fun t ht => (h2 t ht).1
  | eq h1 h2 => exact .eq h1.1 h2.1
  | bin _ ih => exact .bin ih
  | not _ ih => exact .not ih
  | quant hv _ ih => exact .quant (fun v m => ⟨(hv v m).1.1, fun t ht => validType_shape ((hv v m).2 t ht)⟩) ih

theorem Spec.SaidEff.writable {F : FloatOf} {e : Expr} (h : SaidEff F e) : Writable e := by
  induction h with
  | pred h1 h2 => exact .pred h1.1 fun t ht => (h2 t ht).1
  | eq h1 h2 => exact .eq h1.1 h2.1
  | not h1 h2 => exact .not (.pred h1.1 fun t ht => (h2 t ht).1)
  | notEq h1 h2 => exact .not (.eq h1.1 h2.1)
  | update _ h1 h2 hx => exact pair_writable (.nfun (validFunction_shape h1) fun t ht => (h2 t ht).1) hx.writable
  | and _ ih => exact .bin ih
  | oneof _ _ ih => exact .bin ih
  | when h1 _ ih => exact .when h1.writable ih
  | fall hv _ ih => exact .fall hv.shapes ih

end Pddl
