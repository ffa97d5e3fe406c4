/-
Conditions and effects are read as `readCond` and `readEff` say.
-/
import Verif.Proofs.AsRead

namespace Pddl
open Spec

variable {D : Type} (I : Interp D) (lit : Str → Option Rat)

theorem readConds_map {F : FloatOf} {ts : List Tree} : readConds F ts = ts.map (readCond F) := by
  induction ts with
  | nil => rfl
  | cons t ts ih => rw [readConds, ih]; rfl

theorem readEffs_map {F : FloatOf} {ts : List Tree} : readEffs F ts = ts.map (readEff F) := by
  induction ts with
  | nil => rfl
  | cons t ts ih => rw [readEffs, ih]; rfl

theorem readCond_name {F : FloatOf} (w : Str) (args : List Tree) : readCond F (.node (.atom (.name w) :: args)) =
    if w ∈ joining then .node (.atom (.name w) :: readConds F args)
    else if w = s%"forall" ∨ w = s%"exists" then
      match args with
      | [.node vs, c] => .node [.atom (.name w), .node vs, readCond F c]
      | args => .node (.atom (.name w) :: args)
    else .node (.atom (.name w) :: args) := by
  rw [readCond.eq_def]; rfl

theorem readCond_comp {F : FloatOf} {k : Tok} (h : ∀ n, k ≠ .name n) (h' : k ≠ .eq) (args : List Tree) :
    readCond F (.node (.atom k :: args)) = .node (.atom k :: readNums F args) := by
  cases k <;> first | exact absurd rfl (h _) | exact absurd rfl h' | (rw [readCond.eq_def])

theorem nrel_values {E : GEnv} (hE : ParserEnv E) (hlit : LitOk lit E.float) {ρ : Str → D} {ts : List Tree} {es : List Expr}
    (h : List.Forall₂ (NRel E) ts es) : values I ρ es = treeValues I lit ρ ts := by
  induction h with
  | nil => rfl
  | cons h _ ih => simp only [values, treeValues]; rw [nrel_value I lit hE hlit h, ih]

theorem nrel_not_terms {E : GEnv} {t : Tree} {e : Expr} (h : NRel E t e) (ts : List Tree) : termsOnly (t :: ts) = false ∧
    ∀ ρ : Str → D, treeTerms I ρ (t :: ts) = none := by
  cases h <;> simp [termsOnly, treeTerms]

/-- A comparison of what is read. -/
theorem holds_read {E : GEnv} (hE : ParserEnv E) (hlit : LitOk lit E.float) {ρ : Str → D} {k : Tok} {op : FOp} (hop : compOp k = some op)
    {ts : List Tree} {es : List Expr} (hne : ts ≠ []) (h : List.Forall₂ (NRel E) ts es) :
    holds I (.bfun op es) ρ ↔ treeHolds I lit (.node (.atom k :: ts)) ρ := by
  have hn : ∀ w, k ≠ .name w := by rintro w rfl; simp [compOp] at hop
  rw [treeHolds_tok I lit k hn, treeCompare, compareSign_compOp, hop]
  cases h with
  | nil => exact absurd rfl hne
  | @cons t e ts es h1 h2 =>
    have hno := nrel_not_terms I h1 ts
    have hv := nrel_values I lit hE hlit (ρ := ρ) (.cons h1 h2)
    rw [sameTerms, hno.2 ρ, hno.1]
    simp only [holds, hv]
    constructor
    · rintro ⟨vs, h1, h2⟩
      exact .inr ⟨by simp, op, vs, rfl, h1, h2⟩
    · rintro (⟨_, _, h⟩ | ⟨_, op', vs, ho, h1, h2⟩)
      · cases h
      · injection ho with ho
        subst ho
        exact ⟨vs, h1, h2⟩

theorem GRel.exact {E : GEnv} (hE : ParserEnv E) (hlit : LitOk lit E.float) {t : Tree} {e : Expr} (h : GRel E t e)
    (hw : ∀ w, Inside (.atom (.name w)) t → nameRegex w = true) (ρ : Str → D) :
    holds I e ρ ↔ treeHolds I lit (readCond E.float t) ρ := by
  induction h generalizing ρ with
  | @and args es hl hr ih =>
    have ih : ∀ p ∈ args.zip es, ∀ ρ, (holds I p.2 ρ ↔ treeHolds I lit (readCond E.float p.1) ρ) := fun p hp => 
      have hi : Inside p.1 (.node (.atom (.name s%"and") :: args)) := .node (by simp [(List.of_mem_zip hp).1]) .refl
      ih p hp (fun w hi' => hw w (hi'.trans hi))
    rw [readCond_name, if_pos (by decide), holds_mkAnd, treeHolds_name, if_pos rfl, treeHoldsAll_iff, readConds_map]
    simp only [List.mem_map, forall_exists_index, and_imp, forall_apply_eq_imp_iff₂]
    constructor
    · intro h t ht
      obtain ⟨e, he, h'⟩ := Pairs.mem_left (R := fun t e => ∀ ρ, (holds I e ρ ↔ treeHolds I lit (readCond E.float t) ρ)) ⟨hl, ih⟩ ht
      exact (h' ρ).1 (h e he)
    · intro h e he
      obtain ⟨t, ht, h'⟩ := Pairs.mem_right (R := fun t e => ∀ ρ, (holds I e ρ ↔ treeHolds I lit (readCond E.float t) ρ)) ⟨hl, ih⟩ he
      exact (h' ρ).2 (h t ht)
  | @or args es hl hr _ ih =>
    have ih : ∀ p ∈ args.zip es, ∀ ρ, (holds I p.2 ρ ↔ treeHolds I lit (readCond E.float p.1) ρ) := fun p hp => 
      have hi : Inside p.1 (.node (.atom (.name s%"or") :: args)) := .node (by simp [(List.of_mem_zip hp).1]) .refl
      ih p hp (fun w hi' => hw w (hi'.trans hi))
    rw [readCond_name, if_pos (by decide), holds_mkOr, treeHolds_name, if_neg (by decide), if_pos rfl, treeHoldsSome_iff, readConds_map]
    simp only [List.mem_map, exists_exists_and_eq_and]
    constructor
    · rintro ⟨e, he, h⟩
      obtain ⟨t, ht, h'⟩ := Pairs.mem_right (R := fun t e => ∀ ρ, (holds I e ρ ↔ treeHolds I lit (readCond E.float t) ρ)) ⟨hl, ih⟩ he
      exact ⟨t, ht, (h' ρ).1 h⟩
    · rintro ⟨t, ht, h⟩
      obtain ⟨e, he, h'⟩ := Pairs.mem_left (R := fun t e => ∀ ρ, (holds I e ρ ↔ treeHolds I lit (readCond E.float t) ρ)) ⟨hl, ih⟩ ht
      exact ⟨e, he, (h' ρ).2 h⟩
  | @not a e _ ih =>
    have hi : Inside a (.node [.atom (.name s%"not"), a]) := .node (by simp) .refl
    rw [readCond_name, if_pos (by decide), treeHolds_name, if_neg (by decide), if_neg (by decide), if_pos rfl, holds]
    simp only [readConds]
    rw [ih (fun w hi' => hw w (hi'.trans hi)) ρ]
  | @imply a b e e' _ _ _ h1 h2 =>
    have ha : Inside a (.node [.atom (.name s%"imply"), a, b]) := .node (by simp) .refl
    have hb : Inside b (.node [.atom (.name s%"imply"), a, b]) := .node (by simp) .refl
    rw [readCond_name, if_pos (by decide), treeHolds_name, if_neg (by decide), if_neg (by decide), if_neg (by decide), if_pos rfl]
    simp only [construct, Cls.isMeta, Bool.false_eq_true, if_false, Expr.ofCls, holds, holdsImply, readConds]
    rw [h1 (fun w hi' => hw w (hi'.trans ha)) ρ, h2 (fun w hi' => hw w (hi'.trans hb)) ρ]
  | @quant q vs c e toks r vars h1 h2 _ hu h3 ih =>
    have hi : Inside c (.node [.atom (.name q.symbol), .node vs, c]) := .node (by simp) .refl
    have hvs : Inside (.node vs) (.node [.atom (.name q.symbol), .node vs, c]) := .node (by simp) .refl
    have ih := ih (fun w hi' => hw w (hi'.trans hi))
    obtain ⟨⟨l, hl⟩, hq⟩ := quant_vars I hE
      (fun w hm => hw w ((Inside.node hm .refl).trans hvs)) hu h1 h2 h3
    cases q with
    | all =>
      simp only [QOp.symbol]
      rw [readCond_name, if_neg (by decide), if_pos (by decide)]
      simp only
      rw [treeHolds_name, if_neg (by decide), if_neg (by decide), if_neg (by decide), if_neg (by decide), if_pos rfl,
        mkQuant, holds]
      constructor
      · intro h
        exact ⟨l, hl, fun ρ' hr => (ih ρ').1 (h ρ' ((hq l hl ρ ρ').1 hr))⟩
      · rintro ⟨l', hl', h⟩ ρ' hr
        exact (ih ρ').2 (h ρ' ((hq l' hl' ρ ρ').2 hr))
    | ex =>
      simp only [QOp.symbol]
      rw [readCond_name, if_neg (by decide), if_pos (by decide)]
      simp only
      rw [treeHolds_name, if_neg (by decide), if_neg (by decide), if_neg (by decide), if_neg (by decide),
        if_neg (by decide), if_pos rfl, mkQuant, holds]
      constructor
      · rintro ⟨ρ', hr, h⟩
        exact ⟨l, hl, ρ', (hq l hl ρ ρ').2 hr, (ih ρ').1 h⟩
      · rintro ⟨l', hl', ρ', hr, h⟩
        exact ⟨ρ', (hq l' hl' ρ ρ').1 hr, (ih ρ').2 h⟩
  | @atom n args ts p hn h1 h2 =>
    obtain ⟨_, _, rfl⟩ := mkPred_ok.1 h2
    simp only [gdKeywords, List.mem_cons, List.not_mem_nil, or_false, not_or] at hn
    obtain ⟨n1, n2, n3, n4, n5, n6⟩ := hn
    rw [readCond_name, if_neg (by simp [joining, n1, n2, n3, n4]), if_neg (by simp [n5, n6]), treeHolds_name, if_neg n1, if_neg n2,
      if_neg n3, if_neg n4, if_neg n5, if_neg n6, (terms_sem I (ρ := ρ) hE h1).1, holds]
    simp
  | @eq args l r e hs h1 _ h2 =>
    obtain ⟨_, rfl⟩ := mkEq_ok.1 h2
    obtain ⟨ht, hto⟩ := terms_sem I (ρ := ρ) hE h1
    rw [readCond, if_pos hto, treeHolds_tok I lit .eq (by simp), holds, sameTerms, ht, hto]
    simp only [List.map_cons, List.map_nil, Option.some.injEq, List.cons.injEq, and_true, true_and,
      not_true_eq_false, false_and, or_false]
    constructor
    · intro h; exact ⟨_, rfl, h.symm⟩
    · rintro ⟨d, h1, h2⟩; rw [h1, h2]
  | @comp t op a b e e' hop hst h1 h2 =>
    have hr : List.Forall₂ (NRel E) (readNums E.float [a, b]) [e, e'] := by
      simpa [readNums] using ⟨(fExp_rel h1).asRead hE, (fExp_rel h2).asRead hE⟩
    have hn : ∀ w, t ≠ .name w := by rintro w rfl; simp [compOp] at hop
    by_cases ht : t = .eq
    · subst ht
      have ho : op = .eq := by simp [compOp] at hop; exact hop.symm
      subst ho
      rw [readCond, if_neg (by rw [(startsWithTerm_false I (hst rfl) (by simp)).1]; simp)]
      obtain ⟨kept, dropped, h3, h4⟩ := firsts_rel hE hr .nil
      have hl : leavesAll (.fop .eq) [e, e'] = [e, e'] := by
        have : ∀ {t : Tree} {e : Expr}, FRel E t e → leaves (.fop .eq) e = [e] := by
          intro t e h
          have := h.not_eq
          cases e with
          | bfun o as => rw [leaves, if_neg (by intro h; injection h with h; subst h; exact this as rfl)]
          | bin o as => rw [leaves, if_neg (by simp)]
          | _ => rfl
        simp [leavesAll, this (fExp_rel h1), this (fExp_rel h2)]
      rw [(Props.C09_exact (o := .eq) rfl (by simp) (hl.symm ▸ h3)).1]
      refine holds_read I lit hE hlit hop (by simp [firsts, readNums]) (by simpa using h4)
    · rw [readCond_comp hn ht]
      have hc : construct (.fop op) [e, e'] = .bfun op [e, e'] := by
        have : (Cls.fop op).isMeta = false := by
          cases t <;> simp [compOp] at hop <;> subst hop <;> first | rfl | exact absurd rfl ht
        simp [construct, this, Expr.ofCls]
      rw [hc]
      exact holds_read I lit hE hlit hop (by simp [readNums]) hr

/-! ### Effects -/

variable (c : Change D)

theorem readEff_name {F : FloatOf} (w : Str) (args : List Tree) : readEff F (.node (.atom (.name w) :: args)) =
    if w = s%"and" ∨ w = s%"oneof" then .node (.atom (.name w) :: readEffs F args)
    else if w = s%"forall" then
      match args with
      | [.node vs, e] => .node [.atom (.name w), .node vs, readEff F e]
      | args => .node (.atom (.name w) :: args)
    else if w = s%"when" then
      match args with
      | [c, e] => .node [.atom (.name w), readCond F c, readEff F e]
      | args => .node (.atom (.name w) :: args)
    else match updateWord w, args with
      | some _, [h, x] => .node [.atom (.name w), h, readNum F x]
      | _, args => .node (.atom (.name w) :: args) := by
  rw [readEff.eq_def]; rfl

theorem PRel.exact {E : GEnv} (hE : ParserEnv E) (hlit : LitOk lit E.float) {t : Tree} {e : Expr} (h : PRel E t e)
    (hn : ∀ w args, t = .node (.atom (.name w) :: args) → w ≠ s%"and" ∧ w ∉ effKeywords)
    (ρ : Str → D) : makes I c e ρ ↔ treeMakes I lit c (readEff E.float t) ρ := by
  cases h with
  | @not a e h =>
    have hu : updateWord s%"not" = none := by decide
    rw [readEff_name, if_neg (by decide), if_neg (by decide), if_neg (by decide), hu]
    simp only
    rw [treeMakes_name, if_neg (by decide), if_neg (by decide), if_neg (by decide), if_pos rfl, makes]
    match a, h with
    | .atom (.name n) :: args, h =>
      obtain ⟨ts, p, h1, h2, rfl⟩ := atomic_name_ok.1 h
      obtain ⟨_, _, rfl⟩ := mkPred_ok.1 h2
      simp [deletes, treeDelete, (terms_sem I (ρ := ρ) hE h1).1]
    | .atom .eq :: args, h =>
      obtain ⟨l, r, h1, _, h2⟩ := atomic_eq_ok.1 h
      obtain ⟨_, rfl⟩ := mkEq_ok.1 h2
      simp [deletes, treeDelete]
    | [], h => simp [GEnv.atomic] at h
    | .node _ :: _, h => simp [GEnv.atomic] at h
  | @assign w op hd x f e hop h1 h2 =>
    obtain ⟨n1, n2, n3, n4⟩ := assignOp_not_word hop
    have hu := assignOp_updates hop
    have n5 : w ≠ s%"oneof" := by rintro rfl; revert hop; simp [assignOp]
    rw [readEff_name, if_neg (by tauto), if_neg n2, if_neg n3, updateWord_eq, hop]
    simp only
    rw [treeMakes_name, if_neg n1, if_neg n2, if_neg n3, if_neg n4, updateWord_eq, hop]
    have hc : construct (.fop op) [.nfun f, e] = .bfun op [.nfun f, e] := by
      have : (Cls.fop op).isMeta = false := by cases op <;> simp [updates] at hu <;> rfl
      simp [construct, this, Expr.ofCls]
    rw [hc]
    simp only [makes, updated, treeUpdate, fHead_sem I hE h1, hu, true_and]
    rw [(fExp_rel h2).value I lit hE hlit]
    constructor
    · rintro ⟨v, hv, rfl⟩; exact ⟨_, _, v, rfl, hv, rfl⟩
    · rintro ⟨_, _, v, he, hv, rfl⟩
      injection he with he
      injection he with h1 h2
      subst h1 h2
      exact ⟨v, hv, rfl⟩
  | @atom w args e h1 h2 h3 =>
    obtain ⟨ts, p, h4, h5, rfl⟩ := atomic_name_ok.1 h3
    obtain ⟨_, _, rfl⟩ := mkPred_ok.1 h5
    obtain ⟨n1, n2⟩ := hn w args rfl
    simp only [effKeywords, List.mem_cons, List.not_mem_nil, or_false, not_or] at n2
    rw [readEff_name, if_neg (by tauto), if_neg (by tauto), if_neg (by tauto), updateWord_eq, h2]
    simp only
    rw [treeMakes_name, if_neg n1, if_neg (by tauto), if_neg (by tauto), if_neg h1, updateWord_eq, h2]
    simp [makes, (terms_sem I (ρ := ρ) hE h4).1]
  | @eq args e h =>
    obtain ⟨l, r, h1, _, h2⟩ := atomic_eq_ok.1 h
    obtain ⟨_, rfl⟩ := mkEq_ok.1 h2
    rw [readEff.eq_def]
    simp [makes, treeMakes]

theorem makes_reads {F : FloatOf} {ρ : Str → D} {args : List Tree} {es : List Expr} (hl : args.length = es.length)
    (ih : ∀ p ∈ args.zip es, makes I c p.2 ρ ↔ treeMakes I lit c (readEff F p.1) ρ) :
    makes I c (mkAnd es) ρ ↔ treeMakes I lit c (readEff F (.node (.atom (.name s%"and") :: args))) ρ := by
  rw [readEff_name, if_pos (.inl rfl), treeMakes_name, if_pos rfl, makes_mkAnd, treeMakesSome_iff, readEffs_map]
  simp only [List.mem_map, exists_exists_and_eq_and]
  constructor
  · rintro ⟨e, he, hm⟩
    obtain ⟨t, ht, h'⟩ := Pairs.mem_right (R := fun t e => makes I c e ρ ↔ treeMakes I lit c (readEff F t) ρ) ⟨hl, ih⟩ he
    exact ⟨t, ht, h'.1 hm⟩
  · rintro ⟨t, ht, hm⟩
    obtain ⟨e, he, h'⟩ := Pairs.mem_left (R := fun t e => makes I c e ρ ↔ treeMakes I lit c (readEff F t) ρ) ⟨hl, ih⟩ ht
    exact ⟨e, he, h'.2 hm⟩

theorem CRel.exact {E : GEnv} (hE : ParserEnv E) (hlit : LitOk lit E.float) {t : Tree} {e : Expr} (h : CRel E t e)
    (ρ : Str → D) : makes I c e ρ ↔ treeMakes I lit c (readEff E.float t) ρ := by
  cases h with
  | @and args es h =>
    exact makes_reads I lit c h.1 fun p hp =>
      (h.2 p hp).exact I lit c hE hlit (fun w args e => by have := h.2 p hp; rw [e] at this; exact this.not_keyword) ρ
  | one hn h =>
    exact h.exact I lit c hE hlit (fun w args e => by rw [e] at h; exact h.not_keyword) ρ

theorem ERel.exact {E : GEnv} (hE : ParserEnv E) (hlit : LitOk lit E.float) {top : Bool} {t : Tree} {e : Expr}
    (h : ERel E top t e) (hw : ∀ w, Inside (.atom (.name w)) t → nameRegex w = true)
    (ho : NoOneof t) (hvars : E.ext = [] → ∀ toks r, E.typedVars toks = .ok r → typedListVariable toks = .ok r)
    (ρ : Str → D) : makes I c e ρ ↔ treeMakes I lit c (readEff E.float t) ρ := by
  induction h generalizing ρ with
  | @and args es hl hr ih =>
    exact makes_reads I lit c hl fun p hp =>
      have hi : Inside p.1 (.node (.atom (.name s%"and") :: args)) := .node (by simp [(List.of_mem_zip hp).1]) .refl
      ih p hp (fun w hi' => hw w (hi'.trans hi)) (fun a h => ho a (h.trans hi)) ρ
  | @fall top vs t e toks r vars h1 h2 _ h3 ih =>
    have hi : Inside t (.node [.atom (.name s%"forall"), .node vs, t]) := .node (by simp) .refl
    have hvs : Inside (.node vs) (.node [.atom (.name s%"forall"), .node vs, t]) := .node (by simp) .refl
    have ih := ih (fun w hi' => hw w (hi'.trans hi)) (fun a h => ho a (h.trans hi))
    have h2' : typedListVariable toks = .ok r := by
      by_cases he : E.ext = []
      · exact hvars he _ _ h2
      · exact hE.typedVars he _ _ h2
    obtain ⟨⟨l, hl⟩, hq⟩ := quant_vars' I (fun w hm => hw w ((Inside.node hm .refl).trans hvs)) h1 h2' h3
    rw [readEff_name, if_neg (by decide), if_pos rfl]
    simp only
    rw [treeMakes_name, if_neg (by decide), if_pos rfl, mkForall, makes]
    constructor
    · rintro ⟨ρ', hr, h⟩
      exact ⟨l, hl, ρ', (hq l hl ρ ρ').2 hr, (ih ρ').1 h⟩
    · rintro ⟨l', hl', ρ', hr, h⟩
      exact ⟨ρ', (hq l' hl' ρ ρ').1 hr, (ih ρ').2 h⟩
  | @when top cnd t c' e h1 h2 =>
    have hi : Inside cnd (.node [.atom (.name s%"when"), cnd, t]) := .node (by simp) .refl
    rw [readEff_name, if_neg (by decide), if_neg (by decide), if_pos rfl]
    simp only
    rw [treeMakes_name, if_neg (by decide), if_neg (by decide), if_pos rfl, makes]
    simp only
    rw [(gd_rel h1).exact I lit hE hlit (fun w hi' => hw w (hi'.trans hi)) ρ,
      (condEffect_iff.1 h2).exact I lit c hE hlit ρ]
  | oneof => exact absurd .refl (ho _)
  | @lit top t e hn h =>
    have hp := pEffect_iff.1 h
    exact hp.exact I lit c hE hlit (fun w args e => by rw [e] at hp; exact hp.not_keyword) ρ

end Pddl
