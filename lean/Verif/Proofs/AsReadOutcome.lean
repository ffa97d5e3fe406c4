/-
Effects with choices can do what is written as it is read, up to choices that are written twice.
-/
import Verif.Proofs.OutcomeRead
import Verif.Proofs.AsReadCond

namespace Pddl
open Spec

variable {D : Type} (I : Interp D) (lit : Str → Option Rat)

theorem readEff_outcome_plain {F : FloatOf} {w : Str} {args : List Tree} (h1 : w ≠ s%"oneof") (h2 : w ≠ s%"and")
    (h3 : w ≠ s%"forall") (h4 : w ≠ s%"when") {ρ : Str → D} {C : Change D → Prop} :
    treeOutcome I lit (readEff F (.node (.atom (.name w) :: args))) ρ C ↔
      ∀ c, C c ↔ treeMakes I lit c (readEff F (.node (.atom (.name w) :: args))) ρ := by
  have key : ∀ as, treeOutcome I lit (.node (.atom (.name w) :: as)) ρ C ↔
      ∀ c, C c ↔ treeMakes I lit c (.node (.atom (.name w) :: as)) ρ := by
    intro as
    rw [treeOutcome_name, if_neg h1, if_neg h2, if_neg h3, if_neg h4]
  rw [readEff_name, if_neg (by tauto), if_neg h3, if_neg h4]
  split
  · exact key _
  · exact key _

theorem PRel.read_free {E : GEnv} {F : FloatOf} {t : Tree} {e : Expr} (h : PRel E t e) {ρ : Str → D} {C : Change D → Prop} :
    treeOutcome I lit (readEff F t) ρ C ↔ ∀ c, C c ↔ treeMakes I lit c (readEff F t) ρ := by
  have key : ∀ w args, t = .node (.atom (.name w) :: args) →
      (treeOutcome I lit (readEff F t) ρ C ↔ ∀ c, C c ↔ treeMakes I lit c (readEff F t) ρ) := by
    rintro w args rfl
    obtain ⟨h1, h2⟩ := h.not_keyword
    simp only [effKeywords, List.mem_cons, List.not_mem_nil, or_false, not_or] at h2
    exact readEff_outcome_plain I lit (by tauto) h1 (by tauto) (by tauto)
  cases h with
  | not h => exact key _ _ rfl
  | assign => exact key _ _ rfl
  | atom => exact key _ _ rfl
  | eq h => rw [readEff.eq_def]; simp only [treeOutcome]

theorem CRel.read_free {E : GEnv} {F : FloatOf} {t : Tree} {e : Expr} (h : CRel E t e) {ρ : Str → D} {C : Change D → Prop} :
    treeOutcome I lit (readEff F t) ρ C ↔ ∀ c, C c ↔ treeMakes I lit c (readEff F t) ρ := by
  cases h with
  | @and args es h =>
    have hl : ∀ a ∈ args, ∀ A, treeOutcome I lit (readEff F a) ρ A ↔ ∀ c, A c ↔ treeMakes I lit c (readEff F a) ρ := fun a ha A => by
      obtain ⟨e, _, he⟩ := h.mem_left ha; exact he.read_free I lit
    rw [readEff_name, if_pos (.inl rfl), treeOutcome_name, if_neg (by decide), if_pos rfl]
    simp only [treeMakes_name, if_true]
    clear h
    induction args generalizing C with
    | nil => simp [readEffs, treeOutcomeAll, treeMakesSome]
    | cons a as ih =>
      simp only [readEffs, treeOutcomeAll, treeMakesSome]
      simp only [ih (fun b hb => hl b (List.mem_cons_of_mem _ hb)), hl a (by simp)]
      constructor
      · rintro ⟨A, B, h1, h2, h3⟩ c
        rw [h3, h1, h2]
      · intro h'
        exact ⟨_, _, fun c => Iff.rfl, fun c => Iff.rfl, h'⟩
  | one _ h => exact h.read_free I lit

/-- What a parsed effect can do is written, as it is read. -/
theorem ERel.outcome_read {E : GEnv} (hE : ParserEnv E) (hlit : LitOk lit E.float) {top : Bool} {t : Tree} {e : Expr}
    (h : ERel E top t e) (hw : ∀ w, Inside (.atom (.name w)) t → nameRegex w = true)
    (hvars : E.ext = [] → ∀ toks r, E.typedVars toks = .ok r → typedListVariable toks = .ok r)
    {ρ : Str → D} {C : Change D → Prop} (hC : outcome I e ρ C) : treeOutcome I lit (readEff E.float t) ρ C := by
  induction h generalizing ρ C with
  | @and args es hl hr ih =>
    rw [readEff_name, if_pos (.inl rfl), treeOutcome_name, if_neg (by decide), if_pos rfl, readEffs_map]
    rw [outcome_mkAnd_eq I (fun e he => by obtain ⟨a, ha⟩ := zip_right hl he; exact (hr _ ha).not_and)] at hC
    refine treeOutcomeAll_of I lit (List.forall₂_map_left_iff.2 (List.forall₂_iff_zip.2 ⟨hl, fun {a b} hp A => ?_⟩))
      (outcomeAll_dedup I hC)
    have hi : Inside a (.node (.atom (.name s%"and") :: args)) := .node (by simp [(List.of_mem_zip hp).1]) .refl
    exact ih (a, b) hp (fun w hi' => hw w (hi'.trans hi))
  | @fall top vs t e toks r vars h1 h2 _ h3 ih =>
    have hi : Inside t (.node [.atom (.name s%"forall"), .node vs, t]) := .node (by simp) .refl
    have hvs : Inside (.node vs) (.node [.atom (.name s%"forall"), .node vs, t]) := .node (by simp) .refl
    have h2' : typedListVariable toks = .ok r := by
      by_cases he : E.ext = []
      · exact hvars he _ _ h2
      · exact hE.typedVars he _ _ h2
    obtain ⟨⟨l, hl⟩, hq⟩ := quant_vars' I (fun w hm => hw w ((Inside.node hm .refl).trans hvs)) h1 h2' h3
    rw [readEff_name, if_neg (by decide), if_pos rfl]
    simp only
    rw [treeOutcome_name, if_neg (by decide), if_neg (by decide), if_pos rfl]
    simp only [mkForall, outcome] at hC
    obtain ⟨S, h4, h5⟩ := hC
    refine ⟨l, hl, S, fun ρ' hr => ih (fun w hi' => hw w (hi'.trans hi)) (h4 ρ' ((hq l hl ρ ρ').1 hr)), ?_⟩
    intro c
    rw [h5]
    simp only [hq l hl ρ]
  | @when top cnd t c' e h1 h2 =>
    have hi : Inside cnd (.node [.atom (.name s%"when"), cnd, t]) := .node (by simp) .refl
    rw [readEff_name, if_neg (by decide), if_neg (by decide), if_pos rfl]
    simp only
    rw [treeOutcome_name, if_neg (by decide), if_neg (by decide), if_neg (by decide), if_pos rfl]
    simp only [outcome] at hC ⊢
    rw [← (gd_rel h1).exact I lit hE hlit (fun w hi' => hw w (hi'.trans hi)) ρ]
    rcases hC with ⟨h3, h4⟩ | h3
    · refine .inl ⟨h3, ?_⟩
      rw [outcome_free I (condEffect_iff.1 h2).free] at h4
      rw [(condEffect_iff.1 h2).read_free I lit]
      intro c
      rw [h4, (condEffect_iff.1 h2).exact I lit c hE hlit ρ]
    · exact .inr h3
  | @oneof top args es _ hl hr _ ih =>
    rw [readEff_name, if_pos (.inr rfl), treeOutcome_name, if_pos rfl, treeOutcomeSome_iff, readEffs_map]
    simp only [construct, Cls.isMeta, Expr.ofCls, Bool.false_eq_true, if_false, outcome, outcomeSome_iff] at hC
    obtain ⟨e, he, hC⟩ := hC
    obtain ⟨a, ha⟩ := zip_right hl he
    have hi : Inside a (.node (.atom (.name s%"oneof") :: args)) := .node (by simp [(List.of_mem_zip ha).1]) .refl
    exact ⟨_, List.mem_map.2 ⟨a, (List.of_mem_zip ha).1, rfl⟩, ih (a, e) ha (fun w hi' => hw w (hi'.trans hi)) hC⟩
  | @lit top t e hn h =>
    have hp := pEffect_iff.1 h
    rw [outcome_free I hp.free] at hC
    rw [hp.read_free I lit]
    intro c
    rw [hC, hp.exact I lit c hE hlit (fun w args e => by rw [e] at hp; exact hp.not_keyword) ρ]

/-- What is written can happen as it is read, if no choice is written twice. -/
theorem ERel.read_outcome {E : GEnv} (hE : ParserEnv E) (hlit : LitOk lit E.float) {top : Bool} {t : Tree} {e : Expr}
    (h : ERel E top t e) (hw : ∀ w, Inside (.atom (.name w)) t → nameRegex w = true) (hc : ChoicesOnce E.float t)
    (hvars : E.ext = [] → ∀ toks r, E.typedVars toks = .ok r → typedListVariable toks = .ok r)
    {ρ : Str → D} {C : Change D → Prop} (hC : treeOutcome I lit (readEff E.float t) ρ C) : outcome I e ρ C := by
  induction h generalizing ρ C with
  | @and args es hl hr ih =>
    rw [readEff_name, if_pos (.inl rfl), treeOutcome_name, if_neg (by decide), if_pos rfl, readEffs_map] at hC
    rw [outcome_mkAnd_eq I (fun e he => by obtain ⟨a, ha⟩ := zip_right hl he; exact (hr _ ha).not_and)]
    refine outcomeAll_to_dedup I ?_
      (outcomeAll_of I lit (List.forall₂_map_left_iff.2 (List.forall₂_iff_zip.2 ⟨hl, fun {a b} hp A => ?_⟩)) hC)
    · have hp := hc args .refl
      clear hc hw ih hC
      unfold OnceEach
      induction args generalizing es with
      | nil => cases es with
        | nil => exact .nil
        | cons _ _ => simp at hl
      | cons a as ih =>
        cases es with
        | nil => simp at hl
        | cons e es =>
          simp only [List.zip_cons_cons, List.mem_cons, forall_eq_or_imp] at hr
          rw [List.pairwise_cons] at hp ⊢
          refine ⟨fun e' he' heq => ?_, ih (by simpa using hl) hr.2 hp.2⟩
          obtain ⟨a', ha'⟩ := zip_right (by simpa using hl) he'
          have h1 := hr.1
          have h2 := hr.2 _ ha'
          rcases hp.1 a' (List.of_mem_zip ha').1
            ⟨E, e, e', hE, rfl, effect_iff.2 h1, effect_iff.2 h2, heq⟩ with hno | hno
          · exact h1.free hno
          · exact choiceFree_congr ((Expr.pyEq_iff _ _).1 heq).symm (h2.free hno)
    · have hi : Inside a (.node (.atom (.name s%"and") :: args)) := .node (by simp [(List.of_mem_zip hp).1]) .refl
      exact ih (a, b) hp (fun w hi' => hw w (hi'.trans hi)) (fun as h => hc as (h.trans hi))
  | @fall top vs t e toks r vars h1 h2 _ h3 ih =>
    have hi : Inside t (.node [.atom (.name s%"forall"), .node vs, t]) := .node (by simp) .refl
    have hvs : Inside (.node vs) (.node [.atom (.name s%"forall"), .node vs, t]) := .node (by simp) .refl
    have h2' : typedListVariable toks = .ok r := by
      by_cases he : E.ext = []
      · exact hvars he _ _ h2
      · exact hE.typedVars he _ _ h2
    obtain ⟨-, hq⟩ := quant_vars' I (fun w hm => hw w ((Inside.node hm .refl).trans hvs)) h1 h2' h3
    rw [readEff_name, if_neg (by decide), if_pos rfl] at hC
    simp only at hC
    rw [treeOutcome_name, if_neg (by decide), if_neg (by decide), if_pos rfl] at hC
    simp only [mkForall, outcome]
    obtain ⟨l, hl, S, h4, h5⟩ := hC
    refine ⟨S, fun ρ' hr => ih (fun w hi' => hw w (hi'.trans hi)) (fun as h => hc as (h.trans hi))
      (h4 ρ' ((hq l hl ρ ρ').2 hr)), ?_⟩
    intro c
    rw [h5]
    simp only [hq l hl ρ]
  | @when top cnd t c' e h1 h2 =>
    have hi : Inside cnd (.node [.atom (.name s%"when"), cnd, t]) := .node (by simp) .refl
    rw [readEff_name, if_neg (by decide), if_neg (by decide), if_pos rfl] at hC
    simp only at hC
    rw [treeOutcome_name, if_neg (by decide), if_neg (by decide), if_neg (by decide), if_pos rfl] at hC
    simp only [outcome] at hC ⊢
    rw [← (gd_rel h1).exact I lit hE hlit (fun w hi' => hw w (hi'.trans hi)) ρ] at hC
    rcases hC with ⟨h3, h4⟩ | h3
    · refine .inl ⟨h3, ?_⟩
      rw [(condEffect_iff.1 h2).read_free I lit] at h4
      rw [outcome_free I (condEffect_iff.1 h2).free]
      intro c
      rw [h4, (condEffect_iff.1 h2).exact I lit c hE hlit ρ]
    · exact .inr h3
  | @oneof top args es _ hl hr _ ih =>
    rw [readEff_name, if_pos (.inr rfl), treeOutcome_name, if_pos rfl, treeOutcomeSome_iff, readEffs_map] at hC
    simp only [construct, Cls.isMeta, Expr.ofCls, Bool.false_eq_true, if_false, outcome, outcomeSome_iff]
    obtain ⟨_, hm, hC⟩ := hC
    obtain ⟨a, ha, rfl⟩ := List.mem_map.1 hm
    obtain ⟨e, he, hae⟩ := Pairs.mem_left (R := fun a e => (a, e) ∈ args.zip es) ⟨hl, fun p hp => hp⟩ ha
    have hi : Inside a (.node (.atom (.name s%"oneof") :: args)) := .node (by simp [ha]) .refl
    exact ⟨e, he, ih (a, e) hae (fun w hi' => hw w (hi'.trans hi)) (fun as h => hc as (h.trans hi)) hC⟩
  | @lit top t e hn h =>
    have hp := pEffect_iff.1 h
    rw [outcome_free I hp.free]
    rw [hp.read_free I lit] at hC
    intro c
    rw [hC, hp.exact I lit c hE hlit (fun w args e => by rw [e] at hp; exact hp.not_keyword) ρ]

end Pddl
