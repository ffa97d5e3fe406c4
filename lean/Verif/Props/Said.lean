/-
C115: the text of a formula says what the formula says.
-/
import Verif.Proofs.Said
import Verif.Proofs.GrammarSound
import Verif.Spec.Written

namespace Pddl.Props
open Spec Spec.Grammar

/-- The full claim: the text of every condition with valid names says what the condition says. -/
def C115_full : Prop := ∀ (F : FloatOf) (e : Expr), WellNamed e → ∃ t, Brackets (lex e.str) [t] ∧ SaysTheSame F t e

/-- C115, for quantified variables with at most one type, none without a type before one with a type: the text of a
condition, of any depth and with any number of operands, says in every state what the condition says. -/
theorem C115_partial {F : FloatOf} {e : Expr} (h : SaidCond F e) : ∃ t, Brackets (lex e.str) [t] ∧ SaysTheSame F t e :=
  ⟨e.tree, readText_brackets.1 (Prints.expr h.writable).readText, fun _ I lit ρ hlit => h.says I lit hlit ρ⟩

/-- The text of a numeric expression has in every state the value of the expression. -/
theorem C115_number_partial {F : FloatOf} {e : Expr} (h : SaidNum F e) : ∃ t, Brackets (lex e.str) [t] ∧
    ∀ (D : Type) (I : Interp D) lit ρ, LitOk lit F → treeValue I lit ρ t = value I ρ e :=
  ⟨e.tree, readText_brackets.1 (Prints.expr h.writable).readText, fun _ I lit ρ hlit => h.value I lit hlit ρ⟩

/-- The text of an effect makes in every state the changes that the effect makes, and has the same possible outcomes. -/
theorem C115_effect_partial {F : FloatOf} {e : Expr} (h : SaidEff F e) :
    ∃ t, Brackets (lex e.str) [t] ∧ MakesTheSame F t e ∧ SameOutcomes F t e :=
  ⟨e.tree, readText_brackets.1 (Prints.expr h.writable).readText, fun _ I lit c ρ hlit => h.makes I lit hlit c ρ,
    fun _ I lit ρ C hlit => h.outcome I lit hlit ρ C⟩

/-! ### What is false -/

theorem written_tree {e : Expr} (h : Writable e) {t : Tree} (ht : Brackets (lex e.str) [t]) : t = e.tree := by
  have := readText_brackets.2 ht
  rw [(Prints.expr h).readText] at this
  simpa using this.symm

/-- `forall ?x, ?y - t: (p ?x)`, where `?x` has no type. -/
def anyThenTyped : Expr := .quant .all [⟨s%"x", []⟩, ⟨s%"y", [s%"t"]⟩] (.pred ⟨s%"p", [.var ⟨s%"x", []⟩]⟩)

/-- Two objects, one of them of type `t`; `p` holds of it only. -/
def twoObjects : Interp Bool := ⟨fun _ => true, fun _ d => d = true, fun _ ds => ds = [true], fun _ _ => none⟩

/-- The text is `(forall (?x ?y - t) (p ?x))`, where `?x` has the type of `?y`. -/
theorem C115_order_fails : WellNamed anyThenTyped ∧ anyThenTyped.str = s%"(forall (?x ?y - t) (p ?x))" ∧
    ¬ ∃ t, Brackets (lex anyThenTyped.str) [t] ∧ SaysTheSame (fun _ => none) t anyThenTyped := by
  have hw : WellNamed anyThenTyped := by
    refine .quant ?_ (.pred (by decide +kernel) ?_)
    · intro v hv
      simp only [List.mem_cons, List.not_mem_nil, or_false] at hv
      rcases hv with rfl | rfl
      · exact ⟨by decide +kernel, by simp⟩
      · refine ⟨by decide +kernel, fun t ht => ?_⟩
        rw [List.mem_singleton.1 ht]
        exact .inl (by decide +kernel)
    · intro t ht
      rw [List.mem_singleton.1 ht]
      decide +kernel
  refine ⟨hw, by decide +kernel, ?_⟩
  rintro ⟨t, ht, hs⟩
  have he := written_tree hw.writable ht
  subst he
  have hlit : LitOk (fun s => (numLiteral (fun _ => none) s).toOption.bind numVal) (fun _ => none) := by
    intro s n h; simp [h, Except.toOption]
  have h := (hs Bool twoObjects _ (fun _ => true) hlit).2
  have hv : VarsText ([⟨s%"x", []⟩, ⟨s%"y", [s%"t"]⟩].flatMap quantVarTrees)
      ⟨[([.str s%"x", .str s%"y"], .list [s%"t"])], []⟩ :=
    VarsText.group (n := s%"x") (ns := [s%"y"]) (types := [s%"t"]) (.one _) (VarsText.rest [])
  have hb : treeHolds twoObjects (fun s => (numLiteral (fun _ => none) s).toOption.bind numVal) anyThenTyped.tree (fun _ => true) := by
    rw [anyThenTyped, Expr.tree, show QOp.all.symbol = s%"forall" from rfl, treeHolds_name, if_neg (by decide), if_neg (by decide),
      if_neg (by decide), if_neg (by decide), if_pos rfl]
    refine ⟨_, hv, fun ρ' hρ => ?_⟩
    have : ρ' s%"x" = true := by
      rcases hρ.2 ⟨s%"x", [s%"t"]⟩ (by decide) with e | ⟨_, _, e⟩
      · cases e
      · exact e
    refine ((SaidCond.pred (F := fun _ => none) (p := ⟨s%"p", [.var ⟨s%"x", []⟩]⟩) (by decide +kernel)
      (by decide +kernel)).says _ _ hlit ρ').1 ?_
    simp [holds, denote, twoObjects, this]
  have h2 := h hb (fun m => decide (m ≠ s%"x")) ⟨?_, ?_⟩
  · simp [holds, twoObjects, denote] at h2
  · intro n hn
    have := hn ⟨s%"x", []⟩ (by simp)
    simp at this ⊢
    exact fun e => this e.symm
  · intro v hv
    simp only [List.mem_cons, List.not_mem_nil, or_false] at hv
    rcases hv with rfl | rfl
    · exact .inl rfl
    · exact .inr ⟨s%"t", by simp, by simp [twoObjects]⟩

theorem C115_fails : ¬ C115_full := fun h => C115_order_fails.2.2 (h _ _ C115_order_fails.1)

/-- `forall ?x - (either t u): (p ?x)`. -/
def twoTypesFormula : Expr := .quant .all [⟨s%"x", [s%"t", s%"u"]⟩] (.pred ⟨s%"p", [.var ⟨s%"x", []⟩]⟩)

/-- The text of a variable with two types has both after the `-` without `either`, and says nothing. -/
theorem C115_types_fails : WellNamed twoTypesFormula ∧ twoTypesFormula.str = s%"(forall (?x - t u) (p ?x))" ∧
    ¬ ∃ t, Brackets (lex twoTypesFormula.str) [t] ∧ SaysTheSame (fun _ => none) t twoTypesFormula := by
  have hw : WellNamed twoTypesFormula := by
    refine .quant ?_ (.pred (by decide +kernel) (by decide +kernel))
    intro v hv
    rw [List.mem_singleton.1 hv]
    refine ⟨by decide +kernel, fun t ht => .inl ?_⟩
    simp only [List.mem_cons, List.not_mem_nil, or_false] at ht
    rcases ht with rfl | rfl <;> decide +kernel
  refine ⟨hw, by decide +kernel, ?_⟩
  rintro ⟨t, ht, hs⟩
  have he := written_tree hw.writable ht
  subst he
  have hlit : LitOk (fun s => (numLiteral (fun _ => none) s).toOption.bind numVal) (fun _ => none) := by
    intro s n h; simp [h, Except.toOption]
  have h := (hs Bool { twoObjects with pred := fun _ _ => True } _ (fun _ => true) hlit).1 (by simp [twoTypesFormula, holds])
  rw [twoTypesFormula, Expr.tree, show QOp.all.symbol = s%"forall" from rfl, treeHolds_name, if_neg (by decide), if_neg (by decide),
    if_neg (by decide), if_neg (by decide), if_pos rfl] at h
  obtain ⟨l, hl, _⟩ := h
  have := typedVarToks_iff.2 ⟨l, hl, rfl⟩
  rw [show typedVarToks false ([(⟨s%"x", [s%"t", s%"u"]⟩ : Var)].flatMap quantVarTrees) = none by decide] at this
  cases this

/-- `(< (f) -1)` -/
def negativeNumber : Expr := .bfun .lt [.nfun ⟨s%"f", []⟩, .num (.int (-1))]

/-- The text of a negative number is not a number of the grammar: `-1` is `-` followed by `1`. -/
theorem C115_number_fails : negativeNumber.str = s%"(< (f) -1)" ∧
    ¬ ∃ t, Brackets (lex negativeNumber.str) [t] ∧ SaysTheSame (fun _ => none) t negativeNumber := by
  refine ⟨by decide +kernel, ?_⟩
  rintro ⟨t, ht, hs⟩
  have h := readText_brackets.2 ht
  rw [show readText negativeNumber.str = .ok [.node [.atom .lt, .node [.atom (.name s%"f")], .atom .minus, .atom (.num s%"1")]] by
    decide +kernel] at h
  have he : t = .node [.atom .lt, .node [.atom (.name s%"f")], .atom .minus, .atom (.num s%"1")] := by simpa using h.symm
  subst he
  have hlit : LitOk (fun s => (numLiteral (fun _ => none) s).toOption.bind numVal) (fun _ => none) := by
    intro s n h; simp [h, Except.toOption]
  have h := (hs Bool { twoObjects with fn := fun _ _ => some (-2) } _ (fun _ => true) hlit).1 ⟨[-2, -1], by
    simp [values, value, numVal], by simp [compareVals]⟩
  simp [treeHolds, treeCompare, treeValues, treeValue] at h

/-! ### Concrete cases -/

/-- `forall ?x - t, ?y: (or (p ?x) (and (< (f ?y) (+ (f ?y) (f ?y))) (exists (?z) (not (= ?z a)))))`. -/
def deepFormula : Expr := .quant .all [⟨s%"x", [s%"t"]⟩, ⟨s%"y", []⟩] (.bin .or [.pred ⟨s%"p", [.var ⟨s%"x", []⟩]⟩,
  .bin .and [.bfun .lt [.nfun ⟨s%"f", [.var ⟨s%"y", []⟩]⟩, .bfun .plus [.nfun ⟨s%"f", [.var ⟨s%"y", []⟩]⟩, .nfun ⟨s%"f", [.var ⟨s%"y", []⟩]⟩]],
    .quant .ex [⟨s%"z", []⟩] (.not (.eq (.var ⟨s%"z", []⟩) (.const s%"a" none)))]])

/-- The repeated operand of the sum, which the parser would drop, is in the text twice and counts twice. -/
example : SaidCond (fun _ => none) deepFormula ∧
    deepFormula.str = s%"(forall (?x - t ?y) (or (p ?x) (and (< (f ?y) (+ (f ?y) (f ?y))) (exists (?z) (not (= ?z a))))))" := by
  refine ⟨.quant ⟨by decide +kernel, ?_, by decide⟩ (.or ?_), by decide +kernel⟩
  · intro v hv
    simp only [List.mem_cons, List.not_mem_nil, or_false] at hv
    rcases hv with rfl | rfl
    · exact .inr ⟨_, rfl, .inl (by decide +kernel)⟩
    · exact .inl rfl
  · have hf : SaidNum (fun _ => none) (.nfun ⟨s%"f", [.var ⟨s%"y", []⟩]⟩) := .fn (.inl (by decide +kernel)) (by decide +kernel)
    simp only [List.forall_mem_cons, List.not_mem_nil, false_imp_iff, implies_true, and_true]
    refine ⟨.pred (by decide +kernel) (by decide +kernel), .and ?_⟩
    simp only [List.forall_mem_cons, List.not_mem_nil, false_imp_iff, implies_true, and_true]
    refine ⟨.comp trivial ?_, .quant ⟨by decide +kernel, by simp, by decide⟩ (.not (.eq (by decide +kernel) (by decide +kernel)))⟩
    simp only [List.forall_mem_cons, List.not_mem_nil, false_imp_iff, implies_true, and_true]
    refine ⟨hf, .op trivial ?_⟩
    simp only [List.forall_mem_cons, List.not_mem_nil, false_imp_iff, implies_true, and_true]
    exact ⟨hf, hf⟩

/-- `(and (oneof (p a) (not (p a))) (when (p a) (increase (f) 2)) (forall (?x - t) (p ?x)))` -/
def deepEffect : Expr := .bin .and [.bin .oneof [.pred ⟨s%"p", [.const s%"a" none]⟩, .not (.pred ⟨s%"p", [.const s%"a" none]⟩)],
  .when (.pred ⟨s%"p", [.const s%"a" none]⟩) (.bfun .increase [.nfun ⟨s%"f", []⟩, .num (.int 2)]),
  .fall [⟨s%"x", [s%"t"]⟩] (.pred ⟨s%"p", [.var ⟨s%"x", []⟩]⟩)]

example : SaidEff (fun _ => none) deepEffect ∧
    deepEffect.str = s%"(and (oneof (p a) (not (p a))) (when (p a) (increase (f) 2)) (forall (?x - t) (p ?x)))" := by
  refine ⟨.and ?_, by decide +kernel⟩
  simp only [List.forall_mem_cons, List.not_mem_nil, false_imp_iff, implies_true, and_true]
  refine ⟨.oneof (by simp) ?_, .when (.pred (by decide +kernel) (by decide +kernel))
    (.update trivial (.inl (by decide +kernel)) (by decide +kernel) (.num (.int 2))), .fall ⟨by decide +kernel, ?_, by decide⟩
    (.pred (by decide +kernel) (by decide +kernel))⟩
  · simp only [List.forall_mem_cons, List.not_mem_nil, false_imp_iff, implies_true, and_true]
    exact ⟨.pred (by decide +kernel) (by decide +kernel), .not (by decide +kernel) (by decide +kernel)⟩
  · intro v hv
    rw [List.mem_singleton.1 hv]
    exact .inr ⟨_, rfl, .inl (by decide +kernel)⟩

end Pddl.Props
