/-
Parsed conditions mean what is written.
-/
import Verif.Spec.TextSem
import Verif.Proofs.Provenance
import Verif.Proofs.Sem
import Verif.Props.Formula
import Verif.Model.ParseProblem

namespace Pddl
open Spec

variable {D : Type} (I : Interp D) (lit : Str → Option Rat)

theorem variable_name {E : GEnv} (hE : ParserEnv E) {n : Str} {t : Term} (h : E.variable n = .ok t) :
    ∃ v : Var, t = .var v ∧ v.name = n := by
  unfold GEnv.variable at h
  split at h
  · rename_i u hu
    simp only [pure_ok, Except.ok.injEq] at h
    subst h
    exact hE.params _ _ hu
  · obtain ⟨u, hu, h⟩ := bind_ok_iff.1 h
    obtain ⟨_, _, rfl⟩ := mkVar_set_ok.1 hu
    simp only [pure_ok, Except.ok.injEq] at h
    exact ⟨_, h.symm, rfl⟩

theorem terms_sem {E : GEnv} (hE : ParserEnv E) {ρ : Str → D} {args : List Tree} {ts : List Term}
    (h : E.terms args = .ok ts) : treeTerms I ρ args = some (ts.map (denote I ρ)) ∧ termsOnly args = true := by
  induction args using GEnv.terms.induct generalizing ts with
  | case1 => simp [GEnv.terms] at h; subst h; simp [treeTerms, termsOnly]
  | case2 n args ih =>
    simp only [GEnv.terms, bind_ok_iff, pure_ok, Except.ok.injEq] at h
    obtain ⟨t, ht, r, hr, rfl⟩ := h
    obtain ⟨tag, rfl⟩ := hE.constant n t ht
    simp [treeTerms, termsOnly, ih hr, denote]
  | case3 n args ih =>
    simp only [GEnv.terms, bind_ok_iff, pure_ok, Except.ok.injEq] at h
    obtain ⟨t, ht, r, hr, rfl⟩ := h
    obtain ⟨v, rfl, rfl⟩ := variable_name hE ht
    simp [treeTerms, termsOnly, ih hr, denote]
  | case4 => simp [GEnv.terms] at h

theorem Spec.KeepsOperands.sub {E : GEnv} {s t : Tree} (h : KeepsOperands E t) (hs : Inside s t) :
    KeepsOperands E s where
  plus a es hi := h.plus a es (hi.trans hs)
  times a es hi := h.times a es (hi.trans hs)
  divide a es hi := h.divide a es (hi.trans hs)
  eq a es hi := h.eq a es (hi.trans hs)

theorem values_pairs {ρ : Str → D} {args : List Tree} {es : List Expr} (hl : args.length = es.length)
    (h : ∀ p ∈ args.zip es, value I ρ p.2 = treeValue I lit ρ p.1) :
    values I ρ es = treeValues I lit ρ args := by
  induction args generalizing es with
  | nil => cases es with
    | nil => rfl
    | cons _ _ => simp at hl
  | cons a args ih =>
    cases es with
    | nil => simp at hl
    | cons e es =>
      simp only [values, treeValues]
      rw [h (a, e) (by simp), ih (by simpa using hl) (fun p hp => h p (by simp [hp]))]

theorem construct_minus1 (e : Expr) : construct (.fop .minus) [e] = .bfun .minus [e] := by
  simp [construct, Cls.isMeta, simplOperands, Cls.idempotent, Expr.ofCls]

theorem FRel.sem {E : GEnv} (hE : ParserEnv E) (hlit : LitOk lit E.float) {ρ : Str → D} {t : Tree} {e : Expr}
    (h : FRel E t e) (hk : KeepsOperands E t) : value I ρ e = treeValue I lit ρ t := by
  induction h with
  | num h => simp [value, treeValue, hlit _ _ h]
  | @plus args es h2 hl hr ih =>
    have hes : E.fExps args = .ok es := fExps_ok.2 ⟨hl, fun p hp => fExp_of_rel (hr p hp)⟩
    rw [Props.C09_plus_nested_partial I ρ es (by omega) (hk.plus args es .refl hes),
      values_pairs I lit hl (fun p hp => ih p hp (hk.sub (.node (by simp [(List.of_mem_zip hp).1]) .refl)))]
    simp [treeValue]
  | @times args es h2 hl hr ih =>
    have hes : E.fExps args = .ok es := fExps_ok.2 ⟨hl, fun p hp => fExp_of_rel (hr p hp)⟩
    rw [Props.C09_times_nested_partial I ρ es (by omega) (hk.times args es .refl hes),
      values_pairs I lit hl (fun p hp => ih p hp (hk.sub (.node (by simp [(List.of_mem_zip hp).1]) .refl)))]
    simp [treeValue]
  | @divide a b e e' h1 h2 i1 i2 =>
    have hes : E.fExps [a, b] = .ok [e, e'] := fExps_ok.2
      ⟨rfl, by simp [fExp_of_rel h1, fExp_of_rel h2]⟩
    obtain ⟨hd, hf⟩ := hk.divide _ _ .refl hes
    rw [Props.C09_partial I ρ .divide _ hd hf]
    simp only [treeValue, values, treeValues]
    rw [i1 (hk.sub (.node (by simp) .refl)), i2 (hk.sub (.node (by simp) .refl))]
  | @minus a e h1 i1 =>
    rw [construct_minus1]
    simp only [treeValue, value, values, treeValues]
    rw [i1 (hk.sub (.node (by simp) .refl))]
  | fn0 h =>
    obtain ⟨_, rfl⟩ := mkNFun_ok.1 h
    simp [value, treeValue]
  | fn h h' =>
    obtain ⟨_, rfl⟩ := mkNFun_ok.1 h'
    simp [value, treeValue, (terms_sem I (ρ := ρ) hE h).1]

/-! ### Quantified variables -/

theorem rebind_cover {A B : List Var} {ρ ρ' : Str → D}
    (h : ∀ v ∈ B, ∃ w ∈ A, w.name = v.name ∧ SameTypes w.tags v.tags)
    (h' : ∀ v ∈ A, ∃ w ∈ B, w.name = v.name) : Rebind I A ρ ρ' → Rebind I B ρ ρ' := by
  rintro ⟨h1, h2⟩
  refine ⟨?_, ?_⟩
  · intro n hn
    apply h1
    intro v hv e
    obtain ⟨w, hw, hwn⟩ := h' v hv
    exact hn w hw (hwn.trans e)
  · intro v hv
    obtain ⟨w, hw, hn, ht⟩ := h v hv
    have := h2 w hw
    rw [hn] at this
    rcases this with he | ⟨t, htm, h⟩
    · left
      rw [List.eq_nil_iff_forall_not_mem]
      intro x hx
      have := (ht x).2 hx
      rw [he] at this
      simp at this
    · right; exact ⟨t, (ht t).1 htm, h⟩

theorem quant_vars' {vs : List Tree} {toks : List TTok} {r : List (Str × List Str)}
    {vars : List Var} (hw : ∀ w, .atom (.name w) ∈ vs → nameRegex w = true)
    (h1 : typedVarToks false vs = some toks) (h2 : typedListVariable toks = .ok r) (h3 : mkVars r = .ok vars) :
    (∃ l, VarsText vs l) ∧ ∀ l, VarsText vs l → ∀ ρ ρ' : Str → D,
      (Rebind I l.varList ρ ρ' ↔ Rebind I (dedupBy Var.pyEq vars) ρ ρ') := by
  constructor
  · obtain ⟨l, hl, _⟩ := typedVarToks_iff.1 h1
    exact ⟨l, hl⟩
  · intro l hl ρ ρ'
    have ht : toks = l.tokens := by
      have := typedVarToks_iff.2 ⟨l, hl, rfl⟩
      rw [h1] at this
      injection this
    have h2' := h2
    rw [ht] at h2'
    obtain ⟨ok, hc, rfl⟩ := typedListVariable_ok hl hw h2'
    have hv : vars = builtVars l := by
      have hb := parseTypedVars_eq hl ok hc
      unfold parseTypedVars at hb
      rw [h1, ht] at hb
      simp only [h2', ok_bind] at hb
      rw [h3] at hb
      injection hb
    subst hv
    have a1 : ∀ v ∈ l.varList, ∃ w ∈ dedupBy Var.pyEq (builtVars l), w.name = v.name ∧ SameTypes w.tags v.tags := by
      intro v hv
      simp only [TypedList.varList, List.mem_map] at hv
      obtain ⟨p, hp, rfl⟩ := hv
      have hm : (⟨p.1, dd p.2⟩ : Var) ∈ builtVars l := List.mem_map.2 ⟨p, hp, rfl⟩
      obtain ⟨w, hw, he⟩ := memBy_iff.1 (dedupBy_cover (eq := Var.pyEq) (fun v => by simp [Var.pyEq, setEq_iff]) hm)
      simp only [Var.pyEq, Bool.and_eq_true, decide_eq_true_eq, setEq_iff] at he
      refine ⟨w, hw, he.1.symm, ?_⟩
      intro x
      have := he.2 x
      rw [dd_mem] at this
      exact this.symm
    have a2 : ∀ v ∈ dedupBy Var.pyEq (builtVars l), ∃ w ∈ l.varList, w.name = v.name ∧ SameTypes w.tags v.tags := by
      intro v hv
      have := dedupBy_subset hv
      simp only [builtVars, List.mem_map] at this
      obtain ⟨p, hp, rfl⟩ := this
      exact ⟨⟨p.1, p.2⟩, List.mem_map.2 ⟨p, hp, rfl⟩, rfl, fun x => dd_mem.symm⟩
    constructor
    · exact rebind_cover I a2 (fun v hv => by obtain ⟨w, h, h', _⟩ := a1 v hv; exact ⟨w, h, h'⟩)
    · exact rebind_cover I a1 (fun v hv => by obtain ⟨w, h, h', _⟩ := a2 v hv; exact ⟨w, h, h'⟩)

theorem quant_vars {E : GEnv} (hE : ParserEnv E) {vs : List Tree} {toks : List TTok} {r : List (Str × List Str)}
    {vars : List Var} (hw : ∀ w, .atom (.name w) ∈ vs → nameRegex w = true) {rs : List Req} (hu : E.hasAny rs = true)
    (h1 : typedVarToks false vs = some toks) (h2 : E.typedVars toks = .ok r) (h3 : mkVars r = .ok vars) :
    (∃ l, VarsText vs l) ∧ ∀ l, VarsText vs l → ∀ ρ ρ' : Str → D,
      (Rebind I l.varList ρ ρ' ↔ Rebind I (dedupBy Var.pyEq vars) ρ ρ') := by
  refine quant_vars' I hw h1 (hE.typedVars ?_ _ _ h2) h3
  intro he
  simp [GEnv.hasAny, he] at hu

theorem treeHoldsAll_iff {ts : List Tree} {ρ : Str → D} :
    treeHoldsAll I lit ts ρ ↔ ∀ t ∈ ts, treeHolds I lit t ρ := by
  induction ts with
  | nil => simp [treeHoldsAll]
  | cons t ts ih => simp [treeHoldsAll, ih]

theorem treeHoldsSome_iff {ts : List Tree} {ρ : Str → D} :
    treeHoldsSome I lit ts ρ ↔ ∃ t ∈ ts, treeHolds I lit t ρ := by
  induction ts with
  | nil => simp [treeHoldsSome]
  | cons t ts ih => simp [treeHoldsSome, ih]

theorem treeHolds_name (w : Str) (args : List Tree) (ρ : Str → D) :
    treeHolds I lit (.node (.atom (.name w) :: args)) ρ =
    if w = s%"and" then treeHoldsAll I lit args ρ
    else if w = s%"or" then treeHoldsSome I lit args ρ
    else if w = s%"not" then
      match args with
      | [a] => ¬ treeHolds I lit a ρ
      | _ => False
    else if w = s%"imply" then
      match args with
      | [a, b] => treeHolds I lit a ρ → treeHolds I lit b ρ
      | _ => False
    else if w = s%"forall" then
      match args with
      | [.node vs, c] => ∃ l, VarsText vs l ∧ ∀ ρ', Rebind I l.varList ρ ρ' → treeHolds I lit c ρ'
      | _ => False
    else if w = s%"exists" then
      match args with
      | [.node vs, c] => ∃ l, VarsText vs l ∧ ∃ ρ', Rebind I l.varList ρ ρ' ∧ treeHolds I lit c ρ'
      | _ => False
    else ∃ ds, treeTerms I ρ args = some ds ∧ I.pred w ds := by
  rw [treeHolds.eq_def]; rfl

theorem treeHolds_tok (t : Tok) (hn : ∀ w, t ≠ .name w) (args : List Tree) (ρ : Str → D) :
    treeHolds I lit (.node (.atom t :: args)) ρ =
    ((t = .eq ∧ sameTerms I args ρ) ∨ (¬ (t = .eq ∧ termsOnly args = true) ∧ treeCompare I lit t args ρ)) := by
  cases t <;> first | (exact absurd rfl (hn _)) | (rw [treeHolds.eq_def])

theorem compareSign_compOp (t : Tok) : compareSign t = compOp t := by cases t <;> rfl

theorem holds_comp (op : FOp) (hop : ∃ t, compOp t = some op) (e e' : Expr) (ρ : Str → D)
    (hd : op = .eq → Distinct [e, e'] ∧ ∀ x ∈ [e, e'], ∀ as, x ≠ .bfun .eq as) :
    holds I (construct (.fop op) [e, e']) ρ ↔ ∃ vs, values I ρ [e, e'] = some vs ∧ compareVals op vs := by
  have hc : construct (.fop op) [e, e'] = .bfun op [e, e'] := by
    obtain ⟨t, ht⟩ := hop
    by_cases hm : op = .eq
    · subst hm
      obtain ⟨hd, hf⟩ := hd rfl
      have hca : Canonical (.fop .eq) [e, e'] := by
        refine ⟨fun e he => ?_, ?_⟩
        · cases h : e.operandsIf (.fop .eq) with
          | none => rfl
          | some as => exact absurd (ofCls_operandsIf.mp h) (hf e he as)
        · refine List.Pairwise.imp ?_ hd
          intro a b e
          cases e' : b.pyEq a with
          | false => rfl
          | true => rw [Expr.pyEq_symm e'] at e; simp at e
      exact hca.stable (by simp [Cls.idempotent])
    · have : (Cls.fop op).isMeta = false := by
        cases t <;> simp [compOp] at ht <;> subst ht <;> first | rfl | exact absurd rfl hm
      simp [construct, this, Expr.ofCls]
  rw [hc]
  simp [holds]

/-- What `f_exp` gives is not a comparison. -/
theorem FRel.not_eq {E : GEnv} {t : Tree} {e : Expr} (h : FRel E t e) (as : List Expr) : e ≠ .bfun .eq as := by
  have hc : ∀ (o : FOp) es, o ≠ .eq → construct (.fop o) es ≠ .bfun .eq as := by
    intro o es ho he
    unfold construct at he
    split at he
    · simp only at he
      split at he
      · simp only [Cls.idempotent, Bool.false_eq_true, if_false, Expr.ofCls, Expr.bfun.injEq] at he
        exact ho he.1
      · simp only [Expr.ofCls, Expr.bfun.injEq] at he
        exact ho he.1
    · simp only [Expr.ofCls, Expr.bfun.injEq] at he
      exact ho he.1
  cases h with
  | num _ => simp
  | plus _ _ _ => exact hc _ _ (by simp)
  | times _ _ _ => exact hc _ _ (by simp)
  | divide _ _ => exact hc _ _ (by simp)
  | minus _ => exact hc _ _ (by simp)
  | fn0 _ => simp
  | fn _ _ => simp

theorem startsWithTerm_false {args : List Tree} (h : startsWithTerm args = false) (hne : args ≠ []) :
    termsOnly args = false ∧ ∀ ρ : Str → D, treeTerms I ρ args = none := by
  match args, hne, h with
  | .node _ :: _, _, _ => simp [termsOnly, treeTerms]
  | .atom t :: _, _, h => cases t <;> simp [startsWithTerm] at h <;> simp [termsOnly, treeTerms]

theorem GRel.sem {E : GEnv} (hE : ParserEnv E) (hlit : LitOk lit E.float) {t : Tree} {e : Expr} (h : GRel E t e)
    (hw : ∀ w, Inside (.atom (.name w)) t → nameRegex w = true) (hk : KeepsOperands E t) (ρ : Str → D) :
    holds I e ρ ↔ treeHolds I lit t ρ := by
  induction h generalizing ρ with
  | @and args es hl hr ih =>
    have ih : ∀ p ∈ args.zip es, ∀ ρ, (holds I p.2 ρ ↔ treeHolds I lit p.1 ρ) := fun p hp => 
      have hi : Inside p.1 (.node (.atom (.name s%"and") :: args)) := .node (by simp [(List.of_mem_zip hp).1]) .refl
      ih p hp (fun w hi' => hw w (hi'.trans hi)) (hk.sub hi)
    rw [holds_mkAnd, treeHolds_name, if_pos rfl, treeHoldsAll_iff]
    constructor
    · intro h t ht
      obtain ⟨e, he, h'⟩ := Pairs.mem_left (R := fun t e => ∀ ρ, (holds I e ρ ↔ treeHolds I lit t ρ)) ⟨hl, ih⟩ ht
      exact (h' ρ).1 (h e he)
    · intro h e he
      obtain ⟨t, ht, h'⟩ := Pairs.mem_right (R := fun t e => ∀ ρ, (holds I e ρ ↔ treeHolds I lit t ρ)) ⟨hl, ih⟩ he
      exact (h' ρ).2 (h t ht)
  | @or args es hl hr _ ih =>
    have ih : ∀ p ∈ args.zip es, ∀ ρ, (holds I p.2 ρ ↔ treeHolds I lit p.1 ρ) := fun p hp => 
      have hi : Inside p.1 (.node (.atom (.name s%"or") :: args)) := .node (by simp [(List.of_mem_zip hp).1]) .refl
      ih p hp (fun w hi' => hw w (hi'.trans hi)) (hk.sub hi)
    rw [holds_mkOr, treeHolds_name, if_neg (by decide), if_pos rfl, treeHoldsSome_iff]
    constructor
    · rintro ⟨e, he, h⟩
      obtain ⟨t, ht, h'⟩ := Pairs.mem_right (R := fun t e => ∀ ρ, (holds I e ρ ↔ treeHolds I lit t ρ)) ⟨hl, ih⟩ he
      exact ⟨t, ht, (h' ρ).1 h⟩
    · rintro ⟨t, ht, h⟩
      obtain ⟨e, he, h'⟩ := Pairs.mem_left (R := fun t e => ∀ ρ, (holds I e ρ ↔ treeHolds I lit t ρ)) ⟨hl, ih⟩ ht
      exact ⟨e, he, (h' ρ).2 h⟩
  | @not a e _ ih =>
    have hi : Inside a (.node [.atom (.name s%"not"), a]) := .node (by simp) .refl
    rw [treeHolds_name, if_neg (by decide), if_neg (by decide), if_pos rfl, holds]
    simp only
    rw [ih (fun w hi' => hw w (hi'.trans hi)) (hk.sub hi) ρ]
  | @imply a b e e' _ _ _ h1 h2 =>
    have ha : Inside a (.node [.atom (.name s%"imply"), a, b]) := .node (by simp) .refl
    have hb : Inside b (.node [.atom (.name s%"imply"), a, b]) := .node (by simp) .refl
    rw [treeHolds_name, if_neg (by decide), if_neg (by decide), if_neg (by decide), if_pos rfl]
    simp only [construct, Cls.isMeta, Bool.false_eq_true, if_false, Expr.ofCls, holds, holdsImply]
    rw [h1 (fun w hi' => hw w (hi'.trans ha)) (hk.sub ha) ρ, h2 (fun w hi' => hw w (hi'.trans hb)) (hk.sub hb) ρ]
  | @quant q vs c e toks r vars h1 h2 _ hu h3 ih =>
    have hi : Inside c (.node [.atom (.name q.symbol), .node vs, c]) := .node (by simp) .refl
    have hvs : Inside (.node vs) (.node [.atom (.name q.symbol), .node vs, c]) := .node (by simp) .refl
    have ih := ih (fun w hi' => hw w (hi'.trans hi)) (hk.sub hi)
    obtain ⟨⟨l, hl⟩, hq⟩ := quant_vars I hE
      (fun w hm => hw w ((Inside.node hm .refl).trans hvs)) hu h1 h2 h3
    cases q with
    | all =>
      simp only [QOp.symbol]
      rw [treeHolds_name, if_neg (by decide), if_neg (by decide), if_neg (by decide), if_neg (by decide), if_pos rfl,
        mkQuant, holds]
      constructor
      · intro h
        exact ⟨l, hl, fun ρ' hr => (ih ρ').1 (h ρ' ((hq l hl ρ ρ').1 hr))⟩
      · rintro ⟨l', hl', h⟩ ρ' hr
        exact (ih ρ').2 (h ρ' ((hq l' hl' ρ ρ').2 hr))
    | ex =>
      simp only [QOp.symbol]
      rw [treeHolds_name, if_neg (by decide), if_neg (by decide), if_neg (by decide), if_neg (by decide),
        if_neg (by decide), if_pos rfl, mkQuant, holds]
      constructor
      · rintro ⟨ρ', hr, h⟩
        exact ⟨l, hl, ρ', (hq l hl ρ ρ').2 hr, (ih ρ').1 h⟩
      · rintro ⟨l', hl', ρ', hr, h⟩
        exact ⟨ρ', (hq l' hl' ρ ρ').1 hr, (ih ρ').2 h⟩
  | @atom n args ts p hn h1 h2 =>
    obtain ⟨_, _, rfl⟩ := mkPred_ok.1 h2
    simp only [gdKeywords, List.mem_cons, List.not_mem_nil, or_false, not_or] at hn
    obtain ⟨n1, n2, n3, n4, n5, n6⟩ := hn
    rw [treeHolds_name, if_neg n1, if_neg n2, if_neg n3, if_neg n4, if_neg n5, if_neg n6,
      (terms_sem I (ρ := ρ) hE h1).1, holds]
    simp
  | @eq args l r e hs h1 _ h2 =>
    obtain ⟨_, rfl⟩ := mkEq_ok.1 h2
    obtain ⟨ht, hto⟩ := terms_sem I (ρ := ρ) hE h1
    rw [treeHolds_tok I lit .eq (by simp), holds, sameTerms, ht, hto]
    simp only [List.map_cons, List.map_nil, Option.some.injEq, List.cons.injEq, and_true, true_and,
      not_true_eq_false, false_and, or_false]
    constructor
    · intro h; exact ⟨_, rfl, h.symm⟩
    · rintro ⟨d, h1, h2⟩; rw [h1, h2]
  | @comp t op a b e e' hop hst h1 h2 =>
    have ha : Inside a (.node [.atom t, a, b]) := .node (by simp) .refl
    have hb : Inside b (.node [.atom t, a, b]) := .node (by simp) .refl
    have hes : E.fExps [a, b] = .ok [e, e'] := fExps_ok.2 ⟨rfl, by simp [h1, h2]⟩
    have hn : ∀ w, t ≠ .name w := by rintro w rfl; simp [compOp] at hop
    have heq : t = .eq ↔ op = .eq := by cases t <;> simp [compOp] at hop <;> subst hop <;> simp
    rw [holds_comp I op ⟨t, hop⟩ e e' ρ, treeHolds_tok I lit t hn, treeCompare, compareSign_compOp, hop]
    · rw [values_pairs I lit (args := [a, b]) (es := [e, e']) rfl]
      · constructor
        · rintro ⟨vs, hv, hc⟩
          right
          refine ⟨?_, op, vs, rfl, hv, hc⟩
          rintro ⟨rfl, ht⟩
          rw [(startsWithTerm_false I (hst rfl) (by simp)).1] at ht
          simp at ht
        · rintro (⟨rfl, d, hd⟩ | ⟨_, op', vs, ho, hv, hc⟩)
          · rw [(startsWithTerm_false I (hst rfl) (by simp)).2] at hd
            simp at hd
          · injection ho with ho; subst ho
            exact ⟨vs, hv, hc⟩
      · intro p hp
        simp only [List.zip_cons_cons, List.zip_nil_right, List.mem_cons, List.not_mem_nil, or_false] at hp
        rcases hp with rfl | rfl
        · exact (fExp_rel h1).sem I lit hE hlit (hk.sub ha)
        · exact (fExp_rel h2).sem I lit hE hlit (hk.sub hb)
    · intro ho
      have ht := heq.2 ho
      subst ht
      refine ⟨hk.eq _ _ .refl (startsWithTerm_false I (hst rfl) (by simp)).1 hes, ?_⟩
      intro x hx as
      simp only [List.mem_cons, List.not_mem_nil, or_false] at hx
      rcases hx with rfl | rfl
      · exact (fExp_rel h1).not_eq as
      · exact (fExp_rel h2).not_eq as


theorem goalEnv_ok (F : FloatOf) : ParserEnv (goalEnv F) where
  constant n t h := ⟨none, mkConst_const h⟩
  params n t h := by simp [goalEnv, dictGet] at h
  typedVars h := absurd rfl h

theorem env_ok {σ : PState} (hc : ConstsOk σ) (hp : ∀ p ∈ σ.params, ∃ v : Var, p = (v.name, .var v)) (F : FloatOf) :
    ParserEnv (σ.env F) where
  constant n t h := constant_const hc n t h
  params n t h := by
    obtain ⟨v, hv⟩ := hp _ (mem_of_dictGet h)
    injection hv with h1 h2
    exact ⟨v, h2, h1.symm⟩
  typedVars _ toks r h := h

end Pddl
