/-
Parsed effects with choices can do what is written, up to choices that are written twice.
-/
import Verif.Proofs.Outcome
import Verif.Proofs.EffectRead

namespace Pddl
open Spec

variable {D : Type} (I : Interp D) (lit : Str → Option Rat)

theorem treeOutcome_name (w : Str) (args : List Tree) (ρ : Str → D) (C : Change D → Prop) :
    treeOutcome I lit (.node (.atom (.name w) :: args)) ρ C =
    if w = s%"oneof" then treeOutcomeSome I lit args ρ C
    else if w = s%"and" then treeOutcomeAll I lit args ρ C
    else if w = s%"forall" then
      match args with
      | [.node vs, e] => ∃ l, VarsText vs l ∧ ∃ S : (Str → D) → Change D → Prop,
          (∀ ρ', Rebind I l.varList ρ ρ' → treeOutcome I lit e ρ' (S ρ')) ∧
          ∀ c, C c ↔ ∃ ρ', Rebind I l.varList ρ ρ' ∧ S ρ' c
      | _ => False
    else if w = s%"when" then
      match args with
      | [cond, e] => (treeHolds I lit cond ρ ∧ treeOutcome I lit e ρ C) ∨ (¬ treeHolds I lit cond ρ ∧ ∀ c, ¬ C c)
      | _ => False
    else ∀ c, C c ↔ treeMakes I lit c (.node (.atom (.name w) :: args)) ρ := by
  rw [treeOutcome.eq_def]; rfl

theorem PRel.free {E : GEnv} {t : Tree} {e : Expr} (h : PRel E t e) : choiceFree e := by
  have hat : ∀ {a e}, E.atomic a = .ok e → choiceFree e := by
    intro a e h
    match a, h with
    | .atom (.name n) :: args, h =>
      obtain ⟨ts, p, h1, h2, rfl⟩ := atomic_name_ok.1 h
      simp [choiceFree]
    | .atom .eq :: args, h =>
      obtain ⟨l, r, h1, _, h2⟩ := atomic_eq_ok.1 h
      obtain ⟨_, rfl⟩ := mkEq_ok.1 h2
      simp [choiceFree]
    | [], h => simp [GEnv.atomic] at h
    | .node _ :: _, h => simp [GEnv.atomic] at h
  cases h with
  | not _ => simp [choiceFree]
  | assign h1 _ _ => rw [construct_assign (assignOp_assignment h1)]; simp [choiceFree]
  | atom _ _ h => exact hat h
  | eq h => exact hat h

theorem PRel.not_and {E : GEnv} {t : Tree} {e : Expr} (h : PRel E t e) (bs : List Expr) : e ≠ .bin .and bs := by
  have hat : ∀ {a e}, E.atomic a = .ok e → e ≠ .bin .and bs := by
    intro a e h
    match a, h with
    | .atom (.name n) :: args, h =>
      obtain ⟨ts, p, h1, h2, rfl⟩ := atomic_name_ok.1 h
      simp
    | .atom .eq :: args, h =>
      obtain ⟨l, r, h1, _, h2⟩ := atomic_eq_ok.1 h
      obtain ⟨_, rfl⟩ := mkEq_ok.1 h2
      simp
    | [], h => simp [GEnv.atomic] at h
    | .node _ :: _, h => simp [GEnv.atomic] at h
  cases h with
  | not _ => simp
  | assign h1 _ _ => rw [construct_assign (assignOp_assignment h1)]; simp
  | atom _ _ h => exact hat h
  | eq h => exact hat h

theorem ERel.not_and {E : GEnv} {t : Tree} {e : Expr} (h : ERel E false t e) (bs : List Expr) : e ≠ .bin .and bs := by
  cases h with
  | fall => simp [mkForall]
  | when => simp
  | oneof => simp [construct, Cls.isMeta, Expr.ofCls]
  | lit _ h => exact (pEffect_iff.1 h).not_and bs

theorem PRel.tree_free {E : GEnv} {t : Tree} {e : Expr} (h : PRel E t e) {ρ : Str → D} {C : Change D → Prop} :
    treeOutcome I lit t ρ C ↔ ∀ c, C c ↔ treeMakes I lit c t ρ := by
  have key : ∀ w args, t = .node (.atom (.name w) :: args) →
      (treeOutcome I lit t ρ C ↔ ∀ c, C c ↔ treeMakes I lit c t ρ) := by
    rintro w args rfl
    obtain ⟨h1, h2⟩ := h.not_keyword
    simp only [effKeywords, List.mem_cons, List.not_mem_nil, or_false, not_or] at h2
    rw [treeOutcome_name, if_neg (by tauto), if_neg h1, if_neg (by tauto), if_neg (by tauto)]
  cases h with
  | not h => exact key _ _ rfl
  | assign => exact key _ _ rfl
  | atom => exact key _ _ rfl
  | eq h => simp only [treeOutcome]

theorem CRel.free {E : GEnv} {t : Tree} {e : Expr} (h : CRel E t e) : choiceFree e := by
  cases h with
  | @and args es h =>
    have hf : ∀ e ∈ es, choiceFree e := fun e he => by obtain ⟨a, _, ha⟩ := h.mem_right he; exact ha.free
    rcases mkAnd_flat (l := es) (fun e he => by obtain ⟨a, _, ha⟩ := h.mem_right he; exact ha.not_and)
      with ⟨x, h1, h2⟩ | h1
    · rw [h2]; exact hf x (dedupBy_subset (eq := Expr.pyEq) (by rw [h1]; simp))
    · rw [h1]; simp only [choiceFree, choicesFree_iff]
      exact fun a ha => hf a (dedupBy_subset ha)
  | one _ h => exact h.free

theorem CRel.tree_free {E : GEnv} {t : Tree} {e : Expr} (h : CRel E t e) {ρ : Str → D} {C : Change D → Prop} :
    treeOutcome I lit t ρ C ↔ ∀ c, C c ↔ treeMakes I lit c t ρ := by
  cases h with
  | @and args es h =>
    have hl : ∀ a ∈ args, ∀ A, treeOutcome I lit a ρ A ↔ ∀ c, A c ↔ treeMakes I lit c a ρ := fun a ha A => by
      obtain ⟨e, _, he⟩ := h.mem_left ha; exact he.tree_free I lit
    rw [treeOutcome_name, if_neg (by decide), if_pos rfl]
    simp only [treeMakes_name, if_true]
    clear h
    induction args generalizing C with
    | nil => simp [treeOutcomeAll, treeMakesSome]
    | cons a as ih =>
      simp only [treeOutcomeAll, treeMakesSome]
      simp only [ih (fun b hb => hl b (List.mem_cons_of_mem _ hb)), hl a (by simp)]
      constructor
      · rintro ⟨A, B, h1, h2, h3⟩ c
        rw [h3, h1, h2]
      · intro h'
        exact ⟨_, _, fun c => Iff.rfl, fun c => Iff.rfl, h'⟩
  | one _ h => exact h.tree_free I lit

/-- Effects without `oneof` are read as effects without choices. -/
theorem ERel.free {E : GEnv} {top : Bool} {t : Tree} {e : Expr} (h : ERel E top t e) (ho : NoOneof t) :
    choiceFree e := by
  induction h with
  | @and args es hl hr ih =>
    have hf : ∀ e ∈ es, choiceFree e := fun e he => by
      obtain ⟨a, ha⟩ := zip_right hl he
      exact ih (a, e) ha (fun x hx => ho x (hx.trans (.node (by simp [(List.of_mem_zip ha).1]) .refl)))
    rcases mkAnd_flat (l := es) (fun e he => by obtain ⟨a, ha⟩ := zip_right hl he; exact (hr _ ha).not_and)
      with ⟨x, h1, h2⟩ | h1
    · rw [h2]; exact hf x (dedupBy_subset (eq := Expr.pyEq) (by rw [h1]; simp))
    · rw [h1]; simp only [choiceFree, choicesFree_iff]
      exact fun a ha => hf a (dedupBy_subset ha)
  | fall _ _ _ _ ih =>
    simp only [mkForall, choiceFree]
    exact ih (fun x hx => ho x (hx.trans (.node (by simp) .refl)))
  | when _ h => simp only [choiceFree]; exact (condEffect_iff.1 h).free
  | oneof => exact absurd .refl (ho _)
  | lit _ h => exact (pEffect_iff.1 h).free

theorem treeOutcomeAll_of {ts : List Tree} {es : List Expr} {ρ : Str → D}
    (h : List.Forall₂ (fun t e => ∀ A, outcome I e ρ A → treeOutcome I lit t ρ A) ts es) {C : Change D → Prop}
    (ho : outcomeAll I es ρ C) : treeOutcomeAll I lit ts ρ C := by
  induction h generalizing C with
  | nil => exact ho
  | cons h _ ih =>
    obtain ⟨A, B, h1, h2, h3⟩ := ho
    exact ⟨A, B, h _ h1, ih h2, h3⟩

theorem outcomeAll_of {ts : List Tree} {es : List Expr} {ρ : Str → D}
    (h : List.Forall₂ (fun t e => ∀ A, treeOutcome I lit t ρ A → outcome I e ρ A) ts es) {C : Change D → Prop}
    (ho : treeOutcomeAll I lit ts ρ C) : outcomeAll I es ρ C := by
  induction h generalizing C with
  | nil => exact ho
  | cons h _ ih =>
    obtain ⟨A, B, h1, h2, h3⟩ := ho
    exact ⟨A, B, h _ h1, ih h2, h3⟩

/-- What a parsed effect can do is written. -/
theorem ERel.outcome_written {E : GEnv} (hE : ParserEnv E) (hlit : LitOk lit E.float) {top : Bool} {t : Tree} {e : Expr}
    (h : ERel E top t e) (hw : ∀ w, Inside (.atom (.name w)) t → nameRegex w = true) (hk : KeepsOperands E t)
    (hvars : E.ext = [] → ∀ toks r, E.typedVars toks = .ok r → typedListVariable toks = .ok r)
    {ρ : Str → D} {C : Change D → Prop} (hC : outcome I e ρ C) : treeOutcome I lit t ρ C := by
  induction h generalizing ρ C with
  | @and args es hl hr ih =>
    rw [treeOutcome_name, if_neg (by decide), if_pos rfl]
    rw [outcome_mkAnd_eq I (fun e he => by obtain ⟨a, ha⟩ := zip_right hl he; exact (hr _ ha).not_and)] at hC
    refine treeOutcomeAll_of I lit (List.forall₂_iff_zip.2 ⟨hl, fun {a b} hp A => ?_⟩) (outcomeAll_dedup I hC)
    have hi : Inside a (.node (.atom (.name s%"and") :: args)) := .node (by simp [(List.of_mem_zip hp).1]) .refl
    exact ih (a, b) hp (fun w hi' => hw w (hi'.trans hi)) (hk.sub hi)
  | @fall top vs t e toks r vars h1 h2 _ h3 ih =>
    have hi : Inside t (.node [.atom (.name s%"forall"), .node vs, t]) := .node (by simp) .refl
    have hvs : Inside (.node vs) (.node [.atom (.name s%"forall"), .node vs, t]) := .node (by simp) .refl
    have h2' : typedListVariable toks = .ok r := by
      by_cases he : E.ext = []
      · exact hvars he _ _ h2
      · exact hE.typedVars he _ _ h2
    obtain ⟨⟨l, hl⟩, hq⟩ := quant_vars' I (fun w hm => hw w ((Inside.node hm .refl).trans hvs)) h1 h2' h3
    rw [treeOutcome_name, if_neg (by decide), if_neg (by decide), if_pos rfl]
    simp only [mkForall, outcome] at hC
    obtain ⟨S, h4, h5⟩ := hC
    refine ⟨l, hl, S, fun ρ' hr => ih (fun w hi' => hw w (hi'.trans hi)) (hk.sub hi) (h4 ρ' ((hq l hl ρ ρ').1 hr)), ?_⟩
    intro c
    rw [h5]
    simp only [hq l hl ρ]
  | @when top cnd t c' e h1 h2 =>
    have hi : Inside cnd (.node [.atom (.name s%"when"), cnd, t]) := .node (by simp) .refl
    have hi2 : Inside t (.node [.atom (.name s%"when"), cnd, t]) := .node (by simp) .refl
    rw [treeOutcome_name, if_neg (by decide), if_neg (by decide), if_neg (by decide), if_pos rfl]
    simp only [outcome] at hC ⊢
    rw [← (gd_rel h1).sem I lit hE hlit (fun w hi' => hw w (hi'.trans hi)) (hk.sub hi) ρ]
    rcases hC with ⟨h3, h4⟩ | h3
    · refine .inl ⟨h3, ?_⟩
      rw [outcome_free I (condEffect_iff.1 h2).free] at h4
      rw [(condEffect_iff.1 h2).tree_free I lit]
      intro c
      rw [h4, (condEffect_iff.1 h2).sem I lit c hE hlit (hk.sub hi2) ρ]
    · exact .inr h3
  | @oneof top args es _ hl hr _ ih =>
    rw [treeOutcome_name, if_pos rfl, treeOutcomeSome_iff]
    simp only [construct, Cls.isMeta, Expr.ofCls, Bool.false_eq_true, if_false, outcome, outcomeSome_iff] at hC
    obtain ⟨e, he, hC⟩ := hC
    obtain ⟨a, ha⟩ := zip_right hl he
    have hi : Inside a (.node (.atom (.name s%"oneof") :: args)) := .node (by simp [(List.of_mem_zip ha).1]) .refl
    exact ⟨a, (List.of_mem_zip ha).1, ih (a, e) ha (fun w hi' => hw w (hi'.trans hi)) (hk.sub hi) hC⟩
  | @lit top t e hn h =>
    have hp := pEffect_iff.1 h
    rw [outcome_free I hp.free] at hC
    rw [hp.tree_free I lit]
    intro c
    rw [hC, hp.sem I lit c hE hlit hk (fun w args e => by rw [e] at hp; exact hp.not_keyword) ρ]

/-- What is written can happen, if no choice is written twice. -/
theorem ERel.written_outcome {E : GEnv} (hE : ParserEnv E) (hlit : LitOk lit E.float) {top : Bool} {t : Tree} {e : Expr}
    (h : ERel E top t e) (hw : ∀ w, Inside (.atom (.name w)) t → nameRegex w = true) (hk : KeepsOperands E t)
    (hc : ChoicesOnce E.float t)
    (hvars : E.ext = [] → ∀ toks r, E.typedVars toks = .ok r → typedListVariable toks = .ok r)
    {ρ : Str → D} {C : Change D → Prop} (hC : treeOutcome I lit t ρ C) : outcome I e ρ C := by
  induction h generalizing ρ C with
  | @and args es hl hr ih =>
    rw [treeOutcome_name, if_neg (by decide), if_pos rfl] at hC
    rw [outcome_mkAnd_eq I (fun e he => by obtain ⟨a, ha⟩ := zip_right hl he; exact (hr _ ha).not_and)]
    refine outcomeAll_to_dedup I ?_
      (outcomeAll_of I lit (List.forall₂_iff_zip.2 ⟨hl, fun {a b} hp A => ?_⟩) hC)
    · have hp := hc args .refl
      clear hc hk hw ih hC
      unfold OnceEach
      induction args generalizing es with
      | nil => cases es with
        | nil => exact .nil
        | cons _ _ => simp at hl
      | cons a as ih =>
        cases es with
        | nil => simp at hl
        | cons e es =>
          simp only [List.zip_cons_cons, List.mem_cons, forall_eq_or_imp] at hr
          rw [List.pairwise_cons] at hp ⊢
          refine ⟨fun e' he' heq => ?_, ih (by simpa using hl) hr.2 hp.2⟩
          obtain ⟨a', ha'⟩ := zip_right (by simpa using hl) he'
          have h1 := hr.1
          have h2 := hr.2 _ ha'
          rcases hp.1 a' (List.of_mem_zip ha').1
            ⟨E, e, e', hE, rfl, effect_iff.2 h1, effect_iff.2 h2, heq⟩ with hno | hno
          · exact h1.free hno
          · exact choiceFree_congr ((Expr.pyEq_iff _ _).1 heq).symm (h2.free hno)
    · have hi : Inside a (.node (.atom (.name s%"and") :: args)) := .node (by simp [(List.of_mem_zip hp).1]) .refl
      exact ih (a, b) hp (fun w hi' => hw w (hi'.trans hi)) (hk.sub hi) (fun as h => hc as (h.trans hi))
  | @fall top vs t e toks r vars h1 h2 _ h3 ih =>
    have hi : Inside t (.node [.atom (.name s%"forall"), .node vs, t]) := .node (by simp) .refl
    have hvs : Inside (.node vs) (.node [.atom (.name s%"forall"), .node vs, t]) := .node (by simp) .refl
    have h2' : typedListVariable toks = .ok r := by
      by_cases he : E.ext = []
      · exact hvars he _ _ h2
      · exact hE.typedVars he _ _ h2
    obtain ⟨-, hq⟩ := quant_vars' I (fun w hm => hw w ((Inside.node hm .refl).trans hvs)) h1 h2' h3
    rw [treeOutcome_name, if_neg (by decide), if_neg (by decide), if_pos rfl] at hC
    simp only [mkForall, outcome]
    obtain ⟨l, hl, S, h4, h5⟩ := hC
    refine ⟨S, fun ρ' hr => ih (fun w hi' => hw w (hi'.trans hi)) (hk.sub hi) (fun as h => hc as (h.trans hi))
      (h4 ρ' ((hq l hl ρ ρ').2 hr)), ?_⟩
    intro c
    rw [h5]
    simp only [hq l hl ρ]
  | @when top cnd t c' e h1 h2 =>
    have hi : Inside cnd (.node [.atom (.name s%"when"), cnd, t]) := .node (by simp) .refl
    have hi2 : Inside t (.node [.atom (.name s%"when"), cnd, t]) := .node (by simp) .refl
    rw [treeOutcome_name, if_neg (by decide), if_neg (by decide), if_neg (by decide), if_pos rfl] at hC
    simp only [outcome] at hC ⊢
    rw [← (gd_rel h1).sem I lit hE hlit (fun w hi' => hw w (hi'.trans hi)) (hk.sub hi) ρ] at hC
    rcases hC with ⟨h3, h4⟩ | h3
    · refine .inl ⟨h3, ?_⟩
      rw [(condEffect_iff.1 h2).tree_free I lit] at h4
      rw [outcome_free I (condEffect_iff.1 h2).free]
      intro c
      rw [h4, (condEffect_iff.1 h2).sem I lit c hE hlit (hk.sub hi2) ρ]
    · exact .inr h3
  | @oneof top args es _ hl hr _ ih =>
    rw [treeOutcome_name, if_pos rfl, treeOutcomeSome_iff] at hC
    simp only [construct, Cls.isMeta, Expr.ofCls, Bool.false_eq_true, if_false, outcome, outcomeSome_iff]
    obtain ⟨a, ha, hC⟩ := hC
    obtain ⟨e, he, hae⟩ := Pairs.mem_left (R := fun a e => (a, e) ∈ args.zip es) ⟨hl, fun p hp => hp⟩ ha
    have hi : Inside a (.node (.atom (.name s%"oneof") :: args)) := .node (by simp [ha]) .refl
    exact ⟨e, he, ih (a, e) hae (fun w hi' => hw w (hi'.trans hi)) (hk.sub hi) (fun as h => hc as (h.trans hi)) hC⟩
  | @lit top t e hn h =>
    have hp := pEffect_iff.1 h
    rw [outcome_free I hp.free]
    rw [hp.tree_free I lit] at hC
    intro c
    rw [hC, hp.sem I lit c hE hlit hk (fun w args e => by rw [e] at hp; exact hp.not_keyword) ρ]

end Pddl
