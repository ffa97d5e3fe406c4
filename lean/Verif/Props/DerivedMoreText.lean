/-
C120 in terms of the text: what the written rules derive.
-/
import Verif.Props.EasierDerived

namespace Pddl.Props
open Spec Spec.Grammar

variable {F : FloatOf} {σ : PState} {text : Str} {d : Domain} {τ : PState} {ts : List Tree} {r : DomainSections} {plan : Plan}
  {gs : List Action}

/-- If no written rule has a negation or an implication, every state has exactly one completion by the rules as written, the
derived predicates that were read give the same one, and states with more facts have completions with more facts. -/
theorem C120_text (hσ : ParserState F σ) (h : parseDomain F σ text = .ok (d, τ)) (ht : Brackets (lex text) [.node ts])
    (hr : r.Of (.node ts)) (ho : RulesAndActions r) (hc : ClearDerived r) (hp : σ.preds = [] ∨ r.predicates ≠ none)
    (hrules : PositiveRules ts) {D : Type} {lit : Str → Option Rat} (hlit : LitOk lit F) (ρ : Str → D) (I : Interp D) :
    (∃ J, Completed (ReadDerives F lit r ρ) I J ∧ ∀ J', Completed (ReadDerives F lit r ρ) I J' → J' = J) ∧
    (∀ J, Completed (Derives ρ d.derived) I J ↔ Completed (ReadDerives F lit r ρ) I J) ∧
    ∀ I' J J', Larger I I' → Completed (ReadDerives F lit r ρ) I J → Completed (ReadDerives F lit r ρ) I' J' → Larger J J' := by
  have e : Derives ρ d.derived = ReadDerives F lit r ρ := by
    funext I n ds
    exact propext (derives_text hσ h ht hr ho hc hp hlit ρ I n ds)
  obtain ⟨ts', ht', hcom⟩ := C120_completed hσ h
  have e1 := readText_brackets.2 ht'
  rw [readText_brackets.2 ht] at e1
  simp only [Except.ok.injEq, List.cons.injEq, Tree.node.injEq, and_true] at e1
  subst e1
  obtain ⟨h1, _, h3⟩ := hcom hrules D ρ I
  rw [e] at h1 h3 ⊢
  exact ⟨h1, fun _ => Iff.rfl, h3⟩

/-- Adding facts that are derived anyway changes nothing: a state between a state and its completion has the same completion. In
particular a completed state is its own completion. -/
theorem C120_between (hσ : ParserState F σ) (h : parseDomain F σ text = .ok (d, τ)) (ht : Brackets (lex text) [.node ts])
    (hrules : PositiveRules ts) {D : Type} (ρ : Str → D) {I I' J : Interp D} (hJ : Completed (Derives ρ d.derived) I J)
    (h1 : Larger I I') (h2 : Larger I' J) : Completed (Derives ρ d.derived) I' J := by
  have hR := derived_rising hσ h (readText_brackets.2 ht) hrules ρ
  refine ⟨h2.const, h2.ty, h2.fn, fun n ds => ⟨fun hj => ?_, ?_⟩, fun J' e1 e2 e3 hJ' => ?_⟩
  · rcases (hJ.pred n ds).1 hj with hi | hd
    · exact .inl (h1.pred n ds hi)
    · exact .inr hd
  · rintro (hi | hd)
    · exact h2.pred n ds hi
    · exact (hJ.pred n ds).2 (.inr hd)
  · obtain ⟨K, hK, -⟩ := least_unique (Derives ρ d.derived) I'
    have k1 := least_larger ((completed_iff hR).1 hJ) hK h1
    have k2 := ((completed_iff hR).2 hK).least J' e1 e2 e3 hJ'
    exact ⟨k2.const.trans k1.const, k2.ty.trans k1.ty, k2.fn.trans k1.fn, fun n ds hj => k2.pred n ds (k1.pred n ds hj)⟩

/-- The text of C120 meets the hypotheses. -/
example : (∃ d τ, parseDomain (fun _ => none) .fresh deriveText = .ok (d, τ)) ∧ Brackets (lex deriveText) [.node deriveTrees] ∧
    deriveSections.Of (.node deriveTrees) ∧ RulesAndActions deriveSections ∧ ClearDerived deriveSections ∧ PositiveRules deriveTrees := by
  have hm : ∀ b, section_ s%"derived" b ∈ deriveSections.structures → section_ s%"derived" b ∈ easeSections.structures := by
    intro b hb
    simp only [deriveSections, List.mem_cons, List.not_mem_nil, or_false] at hb
    rcases hb with hb | hb
    · rw [hb]
      simp [easeSections]
    · simp [deriveAct, actionText, section_] at hb
  have h1 : (parseDomain (fun _ => none) .fresh deriveText).isOk = true := by decide +kernel
  refine ⟨?_, readText_brackets.1 derive_of.2, derive_of.1, ?_,
    ⟨fun n b c b1 b2 h => ease_clear.once n b c b1 b2 (hm _ h), fun n b c l h => ease_clear.vars n b c l (hm _ h)⟩, ?_⟩
  · cases k1 : parseDomain (fun _ => none) .fresh deriveText with
    | error e => rw [k1] at h1; cases h1
    | ok r => exact ⟨r.1, r.2, rfl⟩
  · intro t ht
    simp only [deriveSections, List.mem_cons, List.not_mem_nil, or_false] at ht
    rcases ht with rfl | rfl
    · exact .inl ⟨_, rfl⟩
    · exact .inr ⟨_, rfl⟩
  · intro x c hm
    rw [derive_trees] at hm
    simp [deriveRule, deriveAct, actionText, section_, word] at hm
    rw [hm.2]
    decide +kernel

end Pddl.Props
