/-
The formula callbacks as relations, one rule for each way to succeed.
-/
import Verif.Model.ParseDomain
import Verif.Model.Print
import Verif.Proofs.Basic
import Verif.Proofs.Names
import Verif.Proofs.Good

namespace Pddl
open Spec

/-- Induction over trees. -/
theorem Tree.ind {P : Tree → Prop} (hatom : ∀ t, P (.atom t))
    (hnode : ∀ l, (∀ t ∈ l, P t) → P (.node l)) (t : Tree) : P t := by
  refine Tree.rec (motive_1 := P) (motive_2 := fun l => ∀ t ∈ l, P t) hatom hnode ?_ ?_ t
  · simp
  · intro a l ha hl t ht
    rcases List.mem_cons.1 ht with rfl | h
    · exact ha
    · exact hl t h

/-- Elementwise relation of two lists of the same length. -/
def Pairs {α β} (R : α → β → Prop) (as : List α) (bs : List β) : Prop :=
  as.length = bs.length ∧ ∀ p ∈ as.zip bs, R p.1 p.2

theorem Pairs.nil {α β} {R : α → β → Prop} : Pairs R [] [] := ⟨rfl, by simp⟩

theorem Pairs.cons_iff {α β} {R : α → β → Prop} {a : α} {b : β} {as : List α} {bs : List β} :
    Pairs R (a :: as) (b :: bs) ↔ R a b ∧ Pairs R as bs := by
  simp only [Pairs, List.length_cons, Nat.add_right_cancel_iff, List.zip_cons_cons, List.mem_cons,
    forall_eq_or_imp]
  tauto

theorem Pairs.mem_left {α β} {R : α → β → Prop} {as : List α} {bs : List β} (h : Pairs R as bs)
    {a : α} (ha : a ∈ as) : ∃ b ∈ bs, R a b := by
  induction as generalizing bs with
  | nil => simp at ha
  | cons x xs ih =>
    cases bs with
    | nil => exact absurd h.1 (by simp)
    | cons y ys =>
      rw [Pairs.cons_iff] at h
      rcases List.mem_cons.1 ha with rfl | ha
      · exact ⟨y, by simp, h.1⟩
      · obtain ⟨b, hb, hr⟩ := ih h.2 ha
        exact ⟨b, by simp [hb], hr⟩

theorem Pairs.mem_right {α β} {R : α → β → Prop} {as : List α} {bs : List β} (h : Pairs R as bs)
    {b : β} (hb : b ∈ bs) : ∃ a ∈ as, R a b := by
  induction bs generalizing as with
  | nil => simp at hb
  | cons y ys ih =>
    cases as with
    | nil => exact absurd h.1 (by simp)
    | cons x xs =>
      rw [Pairs.cons_iff] at h
      rcases List.mem_cons.1 hb with rfl | hb
      · exact ⟨x, by simp, h.1⟩
      · obtain ⟨a, ha, hr⟩ := ih h.2 hb
        exact ⟨a, by simp [ha], hr⟩

theorem Pairs.imp {α β} {R S : α → β → Prop} {as : List α} {bs : List β} (h : Pairs R as bs)
    (hi : ∀ p ∈ as.zip bs, R p.1 p.2 → S p.1 p.2) : Pairs S as bs :=
  ⟨h.1, fun p hp => hi p hp (h.2 p hp)⟩

/-! ### Numeric expressions -/

theorem fExps_ok {E : GEnv} {ts : List Tree} {es : List Expr} :
    E.fExps ts = .ok es ↔ Pairs (fun t e => E.fExp t = .ok e) ts es := by
  induction ts generalizing es with
  | nil => cases es <;> simp [GEnv.fExps, Pairs]
  | cons t ts ih =>
    cases es with
    | nil => simp [GEnv.fExps, Pairs, bind_ok_iff]
    | cons e es => simp [GEnv.fExps, Pairs.cons_iff, bind_ok_iff, ih]

/-- `f_exp`. -/
inductive FRel (E : GEnv) : Tree → Expr → Prop
  | num {s n} : numLiteral E.float s = .ok n → FRel E (.atom (.num s)) (.num n)
  | plus {args es} : 2 ≤ args.length → args.length = es.length →
      (∀ p ∈ args.zip es, FRel E p.1 p.2) →
      FRel E (.node (.atom .plus :: args)) (construct (.fop .plus) es)
  | times {args es} : 2 ≤ args.length → args.length = es.length →
      (∀ p ∈ args.zip es, FRel E p.1 p.2) →
      FRel E (.node (.atom .times :: args)) (construct (.fop .times) es)
  | divide {a b e e'} : FRel E a e → FRel E b e' →
      FRel E (.node [.atom .divide, a, b]) (construct (.fop .divide) [e, e'])
  | minus {a e} : FRel E a e → FRel E (.node [.atom .minus, a]) (construct (.fop .minus) [e])
  | fn0 {n f} : mkNFun n [] = .ok f → FRel E (.atom (.name n)) (.nfun f)
  | fn {n args ts f} : E.terms args = .ok ts → mkNFun n ts = .ok f →
      FRel E (.node (.atom (.name n) :: args)) (.nfun f)

theorem length_two {α} {l : List α} (h : l.length = 2) : ∃ a b, l = [a, b] := by
  match l, h with
  | [a, b], _ => exact ⟨a, b, rfl⟩

theorem length_one {α} {l : List α} (h : l.length = 1) : ∃ a, l = [a] := by
  match l, h with
  | [a], _ => exact ⟨a, rfl⟩

theorem fExp_rel {E : GEnv} {t : Tree} : ∀ {e}, E.fExp t = .ok e → FRel E t e := by
  induction t using Tree.ind with
  | hatom t =>
    intro e h
    cases t <;> simp [GEnv.fExp, GEnv.fHead, bind_ok_iff] at h
    · obtain ⟨f, hf, rfl⟩ := h; exact .fn0 hf
    · obtain ⟨f, hf, rfl⟩ := h; exact .num hf
  | hnode l ih =>
    intro e h
    have hall : ∀ {args es}, (∀ t ∈ args, t ∈ l) → E.fExps args = .ok es →
        args.length = es.length ∧ ∀ p ∈ args.zip es, FRel E p.1 p.2 := by
      intro args es hsub he
      have := fExps_ok.1 he
      exact ⟨this.1, fun p hp => ih p.1 (hsub p.1 (List.of_mem_zip hp).1) (this.2 p hp)⟩
    match l, h with
    | [], h => simp [GEnv.fExp] at h
    | .node _ :: _, h => simp [GEnv.fExp] at h
    | .atom t :: args, h =>
      have hsub : ∀ t' ∈ args, t' ∈ Tree.atom t :: args := fun t' h => by simp [h]
      cases t <;> simp [GEnv.fExp, GEnv.fHead, bind_ok_iff, check_ok] at h
      · obtain ⟨es, he, hl, rfl⟩ := h
        obtain ⟨a, rfl⟩ := length_one hl
        obtain ⟨h1, h2⟩ := hall hsub he
        obtain ⟨x, rfl⟩ := length_one h1.symm
        exact .minus (h2 (a, x) (by simp))
      · obtain ⟨es, he, hl, rfl⟩ := h
        obtain ⟨h1, h2⟩ := hall hsub he
        exact .plus hl h1 h2
      · obtain ⟨es, he, hl, rfl⟩ := h
        obtain ⟨h1, h2⟩ := hall hsub he
        exact .times hl h1 h2
      · obtain ⟨es, he, hl, rfl⟩ := h
        obtain ⟨a, b, rfl⟩ := length_two hl
        obtain ⟨h1, h2⟩ := hall hsub he
        obtain ⟨x, y, rfl⟩ := length_two h1.symm
        exact .divide (h2 (a, x) (by simp)) (h2 (b, y) (by simp))
      · obtain ⟨ts, ht, f, hf, rfl⟩ := h
        exact .fn ht hf

theorem fExp_of_rel {E : GEnv} {t : Tree} {e : Expr} (h : FRel E t e) : E.fExp t = .ok e := by
  induction h with
  | num h => simp [GEnv.fExp, h]
  | plus h2 hl _ ih =>
    simp [GEnv.fExp, fExps_ok.2 ⟨hl, ih⟩, check, h2]
  | times h2 hl _ ih =>
    simp [GEnv.fExp, fExps_ok.2 ⟨hl, ih⟩, check, h2]
  | divide _ _ h1 h2 => simp [GEnv.fExp, GEnv.fExps, h1, h2, check]
  | minus _ h1 => simp [GEnv.fExp, GEnv.fExps, h1, check]
  | fn0 h => simp [GEnv.fExp, GEnv.fHead, h]
  | fn h1 h2 => simp [GEnv.fExp, GEnv.fHead, h1, h2]

theorem fExp_iff {E : GEnv} {t : Tree} {e : Expr} : E.fExp t = .ok e ↔ FRel E t e :=
  ⟨fExp_rel, fExp_of_rel⟩

/-! ### Conditions -/

theorem gds_ok {E : GEnv} {ts : List Tree} {es : List Expr} :
    E.gds ts = .ok es ↔ Pairs (fun t e => E.gd t = .ok e) ts es := by
  induction ts generalizing es with
  | nil => cases es <;> simp [GEnv.gds, Pairs]
  | cons t ts ih =>
    cases es with
    | nil => simp [GEnv.gds, Pairs, bind_ok_iff]
    | cons e es => simp [GEnv.gds, Pairs.cons_iff, bind_ok_iff, ih]

/-- The words that start something else than an atom in a condition. -/
def gdKeywords : List Str := [s%"and", s%"or", s%"not", s%"imply", s%"forall", s%"exists"]

/-- The requirement tested for a quantifier, besides `:quantified-preconditions` and `:adl`. -/
def QOp.req : QOp → Req
  | .all => .universalPrecondition
  | .ex => .existentialPrecondition

/-- `gd`. -/
inductive GRel (E : GEnv) : Tree → Expr → Prop
  | and {args es} : args.length = es.length → (∀ p ∈ args.zip es, GRel E p.1 p.2) →
      GRel E (.node (.atom (.name s%"and") :: args)) (mkAnd es)
  | or {args es} : args.length = es.length → (∀ p ∈ args.zip es, GRel E p.1 p.2) →
      E.hasAny [.disPrecondition, .adl] = true →
      GRel E (.node (.atom (.name s%"or") :: args)) (mkOr es)
  | not {a e} : GRel E a e → GRel E (.node [.atom (.name s%"not"), a]) (.not e)
  | imply {a b e e'} : GRel E a e → GRel E b e' → E.hasAny [.disPrecondition, .adl] = true →
      GRel E (.node [.atom (.name s%"imply"), a, b]) (construct (.bop .imply) [e, e'])
  | quant {q vs c e toks l vars} : typedVarToks false vs = some toks → E.typedVars toks = .ok l →
      GRel E c e → E.hasAny [q.req, .quantifiedPrecondition, .adl] = true → mkVars l = .ok vars →
      GRel E (.node [.atom (.name q.symbol), .node vs, c]) (mkQuant q e vars)
  | atom {n args ts p} : n ∉ gdKeywords → E.terms args = .ok ts → mkPred n ts = .ok p →
      GRel E (.node (.atom (.name n) :: args)) (.pred p)
  | eq {args l r e} : startsWithTerm args = true → E.terms args = .ok [l, r] →
      E.hasAny [.equality] = true → mkEq l r = .ok e → GRel E (.node (.atom .eq :: args)) e
  | comp {t op a b e e'} : compOp t = some op → (t = .eq → startsWithTerm [a, b] = false) →
      E.fExp a = .ok e → E.fExp b = .ok e' →
      GRel E (.node [.atom t, a, b]) (construct (.fop op) [e, e'])

theorem terms_nil {E : GEnv} : E.terms [] = .ok [] := rfl

theorem quantifier_ok {E : GEnv} {q : QOp} {r : Req} {vs : List Tree} {c : Except Exc Expr} {e : Expr} :
    E.quantifier q r vs c = .ok e ↔ ∃ toks l e' vars, typedVarToks false vs = some toks ∧
      E.typedVars toks = .ok l ∧ c = .ok e' ∧ E.hasAny [r, .quantifiedPrecondition, .adl] = true ∧
      mkVars l = .ok vars ∧ e = mkQuant q e' vars := by
  unfold GEnv.quantifier
  cases h : typedVarToks false vs with
  | none => simp
  | some toks =>
    simp only [bind_ok_iff, check_ok, pure_ok, Except.ok.injEq, Option.some.injEq]
    constructor
    · rintro ⟨l, hl, e', he, u, hu, vars, hv, rfl⟩
      exact ⟨toks, l, e', vars, rfl, hl, he, hu, hv, rfl⟩
    · rintro ⟨_, l, e', vars, rfl, hl, he, hu, hv, rfl⟩
      exact ⟨l, hl, e', he, (), hu, vars, hv, rfl⟩

theorem atomic_eq_ok {E : GEnv} {args : List Tree} {e : Expr} :
    E.atomic (.atom .eq :: args) = .ok e ↔ ∃ l r, E.terms args = .ok [l, r] ∧
      E.hasAny [.equality] = true ∧ mkEq l r = .ok e := by
  simp only [GEnv.atomic, bind_ok_iff]
  constructor
  · rintro ⟨ts, ht, h⟩
    match ts, h with
    | [l, r], h =>
      simp only [bind_ok_iff, check_ok] at h
      obtain ⟨u, hu, h⟩ := h
      exact ⟨l, r, ht, hu, h⟩
    | [], h => simp at h
    | [_], h => simp at h
    | _ :: _ :: _ :: _, h => simp at h
  · rintro ⟨l, r, ht, hu, h⟩
    exact ⟨[l, r], ht, by simp [hu, h]⟩

theorem atomic_name_ok {E : GEnv} {n : Str} {args : List Tree} {e : Expr} :
    E.atomic (.atom (.name n) :: args) = .ok e ↔ ∃ ts p, E.terms args = .ok ts ∧ mkPred n ts = .ok p ∧
      e = .pred p := by
  simp only [GEnv.atomic, bind_ok_iff, pure_ok, Except.ok.injEq]
  constructor
  · rintro ⟨ts, ht, p, hp, rfl⟩; exact ⟨ts, p, ht, hp, rfl⟩
  · rintro ⟨ts, p, ht, hp, rfl⟩; exact ⟨ts, ht, p, hp, rfl⟩

theorem comparison_ok {E : GEnv} {op : FOp} {args : List Tree} {e : Expr} :
    E.comparison op args = .ok e ↔ ∃ a b x y, args = [a, b] ∧ E.fExp a = .ok x ∧ E.fExp b = .ok y ∧
      e = construct (.fop op) [x, y] := by
  simp only [GEnv.comparison, bind_ok_iff, check_ok, pure_ok, Except.ok.injEq, decide_eq_true_eq, fExps_ok]
  constructor
  · rintro ⟨es, he, u, hl, rfl⟩
    obtain ⟨a, b, rfl⟩ := length_two hl
    obtain ⟨x, y, rfl⟩ := length_two he.1.symm
    simp only [Pairs.cons_iff] at he
    exact ⟨a, b, x, y, rfl, he.1, he.2.1, rfl⟩
  · rintro ⟨a, b, x, y, rfl, hx, hy, rfl⟩
    exact ⟨[x, y], by simp [Pairs.cons_iff, hx, hy, Pairs.nil], (), rfl, rfl⟩

theorem gd_name (E : GEnv) (w : Str) (args : List Tree) : E.gd (.node (.atom (.name w) :: args)) =
    if w = s%"and" then do
      let es ← E.gds args
      pure (mkAnd es)
    else if w = s%"or" then do
      let es ← E.gds args
      check (E.hasAny [.disPrecondition, .adl]) .missingReq
      pure (mkOr es)
    else if w = s%"not" then
      match args with
      | [a] => do
        let e ← E.gd a
        pure (.not e)
      | _ => .error .lark
    else if w = s%"imply" then
      match args with
      | [a, b] => do
        let e ← E.gd a
        let e' ← E.gd b
        check (E.hasAny [.disPrecondition, .adl]) .missingReq
        pure (construct (.bop .imply) [e, e'])
      | _ => .error .lark
    else if w = s%"forall" then
      match args with
      | [.node vs, c] => E.quantifier .all .universalPrecondition vs (E.gd c)
      | _ => .error .lark
    else if w = s%"exists" then
      match args with
      | [.node vs, c] => E.quantifier .ex .existentialPrecondition vs (E.gd c)
      | _ => .error .lark
    else E.atomic (.atom (.name w) :: args) := by
  rw [GEnv.gd.eq_def]; rfl

theorem gd_rel {E : GEnv} {t : Tree} : ∀ {e}, E.gd t = .ok e → GRel E t e := by
  induction t using Tree.ind with
  | hatom t => intro e h; simp [GEnv.gd] at h
  | hnode l ih =>
    intro e h
    have hall : ∀ {args es}, (∀ t ∈ args, t ∈ l) → E.gds args = .ok es →
        args.length = es.length ∧ ∀ p ∈ args.zip es, GRel E p.1 p.2 := by
      intro args es hsub he
      have := gds_ok.1 he
      exact ⟨this.1, fun p hp => ih p.1 (hsub p.1 (List.of_mem_zip hp).1) (this.2 p hp)⟩
    match l, h with
    | [], h => simp [GEnv.gd] at h
    | .node _ :: _, h => simp [GEnv.gd] at h
    | .atom t :: args, h =>
      have hsub : ∀ t' ∈ args, t' ∈ Tree.atom t :: args := fun t' h => by simp [h]
      by_cases hn : ∃ w, t = .name w
      · obtain ⟨w, rfl⟩ := hn
        rw [gd_name] at h
        by_cases h1 : w = s%"and"
        · subst h1
          simp only [if_true, bind_ok_iff, pure_ok, Except.ok.injEq] at h
          obtain ⟨es, he, rfl⟩ := h
          obtain ⟨a, b⟩ := hall hsub he
          exact .and a b
        rw [if_neg h1] at h
        by_cases h2 : w = s%"or"
        · subst h2
          simp only [if_true, bind_ok_iff, pure_ok, Except.ok.injEq, check_ok] at h
          obtain ⟨es, he, u, hu, rfl⟩ := h
          obtain ⟨a, b⟩ := hall hsub he
          exact .or a b hu
        rw [if_neg h2] at h
        by_cases h3 : w = s%"not"
        · subst h3
          simp only [if_true] at h
          split at h
          · rename_i a
            simp only [bind_ok_iff, pure_ok, Except.ok.injEq] at h
            obtain ⟨e', he, rfl⟩ := h
            exact .not (ih a (by simp) he)
          · simp at h
        rw [if_neg h3] at h
        by_cases h4 : w = s%"imply"
        · subst h4
          simp only [if_true] at h
          split at h
          · rename_i a b
            simp only [bind_ok_iff, pure_ok, Except.ok.injEq, check_ok] at h
            obtain ⟨e1, he1, e2, he2, u, hu, rfl⟩ := h
            exact .imply (ih a (by simp) he1) (ih b (by simp) he2) hu
          · simp at h
        rw [if_neg h4] at h
        by_cases h5 : w = s%"forall"
        · subst h5
          simp only [if_true] at h
          split at h
          · rename_i vs c
            obtain ⟨toks, l, e', vars, a1, a2, a3, a4, a5, rfl⟩ := quantifier_ok.1 h
            exact .quant (q := .all) a1 a2 (ih c (by simp) a3) a4 a5
          · simp at h
        rw [if_neg h5] at h
        by_cases h6 : w = s%"exists"
        · subst h6
          simp only [if_true] at h
          split at h
          · rename_i vs c
            obtain ⟨toks, l, e', vars, a1, a2, a3, a4, a5, rfl⟩ := quantifier_ok.1 h
            exact .quant (q := .ex) a1 a2 (ih c (by simp) a3) a4 a5
          · simp at h
        rw [if_neg h6] at h
        obtain ⟨ts, p, ht, hp, rfl⟩ := atomic_name_ok.1 h
        exact .atom (by simp [gdKeywords, h1, h2, h3, h4, h5, h6]) ht hp
      · have h' : (match compOp t with
            | some op => if t = .eq ∧ startsWithTerm args = true then E.atomic (.atom .eq :: args)
                else E.comparison op args
            | none => .error .lark) = Except.ok e := by
          cases t <;> first | exact absurd ⟨_, rfl⟩ hn | (rw [GEnv.gd.eq_def] at h; exact h)
        cases hc : compOp t with
        | none => rw [hc] at h'; simp at h'
        | some op =>
          rw [hc] at h'
          simp only at h'
          split at h'
          · rename_i hcond
            obtain ⟨rfl, hst⟩ := hcond
            obtain ⟨l, r, ht, hu, he⟩ := atomic_eq_ok.1 h'
            exact .eq hst ht hu he
          · rename_i hcond
            obtain ⟨a, b, x, y, rfl, hx, hy, rfl⟩ := comparison_ok.1 h'
            refine .comp hc ?_ hx hy
            intro ht
            simpa [ht] using hcond

theorem mkPred_valid {n : Str} {ts : List Term} {p : Pred} (h : mkPred n ts = .ok p) : ValidName n := by
  simp only [mkPred, bind_ok_iff] at h
  obtain ⟨n', hn, _⟩ := h
  exact (parseName_ok.1 hn).2

theorem gd_of_rel {E : GEnv} {t : Tree} {e : Expr} (h : GRel E t e) : E.gd t = .ok e := by
  induction h with
  | and hl _ ih => simp [gd_name, gds_ok.2 ⟨hl, ih⟩]
  | or hl _ hu ih => simp [gd_name, gds_ok.2 ⟨hl, ih⟩, hu]
  | not _ ih => simp [gd_name, ih]
  | imply _ _ hu h1 h2 => simp [gd_name, h1, h2, hu]
  | @quant q vs c e toks l vars h1 h2 _ h4 h5 ih =>
    cases q
    · have := quantifier_ok (q := .all) |>.2 ⟨toks, l, e, vars, h1, h2, ih, h4, h5, rfl⟩
      simpa [gd_name, QOp.symbol, QOp.req] using this
    · have := quantifier_ok (q := .ex) |>.2 ⟨toks, l, e, vars, h1, h2, ih, h4, h5, rfl⟩
      simpa [gd_name, QOp.symbol, QOp.req] using this
  | atom hn h1 h2 =>
    simp only [gdKeywords, List.mem_cons, List.not_mem_nil, or_false, not_or] at hn
    have := atomic_name_ok.2 ⟨_, _, h1, h2, rfl⟩
    simp [gd_name, hn, this]
  | eq hs h1 h2 h3 =>
    have := atomic_eq_ok.2 ⟨_, _, h1, h2, h3⟩
    simp [GEnv.gd, hs, this, compOp]
  | @comp t op a b e e' hc hs h1 h2 =>
    have := comparison_ok.2 ⟨a, b, e, e', rfl, h1, h2, (rfl : construct (.fop op) [e, e'] = _)⟩
    cases t <;> simp [compOp] at hc <;> subst hc <;> simp_all [GEnv.gd, compOp]

theorem gd_iff {E : GEnv} {t : Tree} {e : Expr} : E.gd t = .ok e ↔ GRel E t e := ⟨gd_rel, gd_of_rel⟩

/-! ### Effects -/

/-- `p_effect`, `num_effect`. -/
inductive PRel (E : GEnv) : Tree → Expr → Prop
  | not {a e} : E.atomic a = .ok e → PRel E (.node [.atom (.name s%"not"), .node a]) (.not e)
  | assign {w op h x f e} : assignOp w = some op → E.fHead h = .ok f → E.fExp x = .ok e →
      PRel E (.node [.atom (.name w), h, x]) (construct (.fop op) [.nfun f, e])
  | atom {w args e} : w ≠ s%"not" → assignOp w = none → E.atomic (.atom (.name w) :: args) = .ok e →
      PRel E (.node (.atom (.name w) :: args)) e
  | eq {args e} : E.atomic (.atom .eq :: args) = .ok e → PRel E (.node (.atom .eq :: args)) e

theorem pEffect_name (E : GEnv) (w : Str) (args : List Tree) : E.pEffect (.node (.atom (.name w) :: args)) =
    if w = s%"not" then
      match args with
      | [.node a] => do
        let e ← E.atomic a
        pure (.not e)
      | _ => .error .lark
    else
      match assignOp w with
      | some op =>
        match args with
        | [h, x] => do
          let f ← E.fHead h
          let e ← E.fExp x
          pure (construct (.fop op) [.nfun f, e])
        | _ => .error .lark
      | none => E.atomic (.atom (.name w) :: args) := by
  rw [GEnv.pEffect.eq_def]; rfl

theorem pEffect_iff {E : GEnv} {t : Tree} {e : Expr} : E.pEffect t = .ok e ↔ PRel E t e := by
  constructor
  · intro h
    match t, h with
    | .atom _, h => simp [GEnv.pEffect] at h
    | .node [], h => simp [GEnv.pEffect] at h
    | .node (.node _ :: _), h => simp [GEnv.pEffect] at h
    | .node (.atom t :: args), h =>
      by_cases hn : ∃ w, t = .name w
      · obtain ⟨w, rfl⟩ := hn
        rw [pEffect_name] at h
        by_cases h1 : w = s%"not"
        · subst h1
          simp only [if_true] at h
          split at h
          · simp only [bind_ok_iff, pure_ok, Except.ok.injEq] at h
            obtain ⟨e', he, rfl⟩ := h
            exact .not he
          · simp at h
        rw [if_neg h1] at h
        cases ha : assignOp w with
        | none =>
          rw [ha] at h
          exact .atom h1 ha h
        | some op =>
          rw [ha] at h
          simp only at h
          split at h
          · simp only [bind_ok_iff, pure_ok, Except.ok.injEq] at h
            obtain ⟨f, hf, e', he, rfl⟩ := h
            exact .assign ha hf he
          · simp at h
      · by_cases he : t = .eq
        · subst he; exact .eq h
        · exfalso
          cases t <;> first | exact hn ⟨_, rfl⟩ | exact he rfl | (simp [GEnv.pEffect] at h)
  · intro h
    cases h with
    | not h => simp [pEffect_name, h]
    | @assign w op h x f e ha hf he =>
      have h1 : w ≠ s%"not" := by rintro rfl; simp [assignOp] at ha
      rw [pEffect_name, if_neg h1, ha]
      simp [hf, he]
    | atom h1 ha h => rw [pEffect_name, if_neg h1, ha]; exact h
    | eq h => exact h

theorem pEffects_ok {E : GEnv} {ts : List Tree} {es : List Expr} :
    E.pEffects ts = .ok es ↔ Pairs (fun t e => E.pEffect t = .ok e) ts es := by
  induction ts generalizing es with
  | nil => cases es <;> simp [GEnv.pEffects, Pairs]
  | cons t ts ih =>
    cases es with
    | nil => simp [GEnv.pEffects, Pairs, bind_ok_iff]
    | cons e es => simp [GEnv.pEffects, Pairs.cons_iff, bind_ok_iff, ih]

/-- `cond_effect`. -/
inductive CRel (E : GEnv) : Tree → Expr → Prop
  | and {args es} : Pairs (PRel E) args es →
      CRel E (.node (.atom (.name s%"and") :: args)) (mkAnd es)
  | one {t e} : (∀ args, t ≠ .node (.atom (.name s%"and") :: args)) → PRel E t e → CRel E t e

theorem condEffect_iff {E : GEnv} {t : Tree} {e : Expr} : E.condEffect t = .ok e ↔ CRel E t e := by
  by_cases ht : ∃ args, t = .node (.atom (.name s%"and") :: args)
  · obtain ⟨args, rfl⟩ := ht
    simp only [GEnv.condEffect, if_true, bind_ok_iff, pure_ok, Except.ok.injEq, pEffects_ok]
    constructor
    · rintro ⟨es, he, rfl⟩
      exact .and ⟨he.1, fun p hp => pEffect_iff.1 (he.2 p hp)⟩
    · intro h
      generalize hg : Tree.node (.atom (.name s%"and") :: args) = t at h
      cases h with
      | and he =>
        injection hg with hg; injection hg with _ hg; subst hg
        exact ⟨_, ⟨he.1, fun p hp => pEffect_iff.2 (he.2 p hp)⟩, rfl⟩
      | one hne _ => exact absurd hg.symm (hne args)
  · have hne : ∀ args, t ≠ .node (.atom (.name s%"and") :: args) := fun args h => ht ⟨args, h⟩
    have e1 : E.condEffect t = E.pEffect t := by
      unfold GEnv.condEffect
      split
      · rename_i w args
        rw [if_neg]
        rintro rfl
        exact hne args rfl
      · rfl
    rw [e1, pEffect_iff]
    constructor
    · exact .one hne
    · intro h
      cases h with
      | and _ => exact absurd rfl (hne _)
      | one _ h => exact h

/-- The words that start a compound effect. -/
def effKeywords : List Str := [s%"forall", s%"when", s%"oneof"]

/-- `effect` (flag `true`) and `c_effect`. -/
inductive ERel (E : GEnv) : Bool → Tree → Expr → Prop
  | and {args es} : args.length = es.length → (∀ p ∈ args.zip es, ERel E false p.1 p.2) →
      ERel E true (.node (.atom (.name s%"and") :: args)) (mkAnd es)
  | fall {top vs t e toks l vars} : typedVarToks false vs = some toks → E.typedVars toks = .ok l →
      ERel E true t e → mkVars l = .ok vars →
      ERel E top (.node [.atom (.name s%"forall"), .node vs, t]) (mkForall e vars)
  | when {top c t c' e} : E.gd c = .ok c' → E.condEffect t = .ok e →
      ERel E top (.node [.atom (.name s%"when"), c, t]) (.when c' e)
  | oneof {top args es} : 1 ≤ args.length → args.length = es.length →
      (∀ p ∈ args.zip es, ERel E true p.1 p.2) → E.hasAny [.nonDeterministic] = true →
      ERel E top (.node (.atom (.name s%"oneof") :: args)) (construct (.bop .oneof) es)
  | lit {top t e} :
      (∀ w args, t = .node (.atom (.name w) :: args) → w ∉ effKeywords ∧ (top = true → w ≠ s%"and")) →
      E.pEffect t = .ok e → ERel E top t e

theorem effects_ok {E : GEnv} {top : Bool} {ts : List Tree} {es : List Expr} :
    E.effects top ts = .ok es ↔ Pairs (fun t e => E.effect top t = .ok e) ts es := by
  induction ts generalizing es with
  | nil => cases es <;> simp [GEnv.effects, Pairs]
  | cons t ts ih =>
    cases es with
    | nil => simp [GEnv.effects, Pairs, bind_ok_iff]
    | cons e es => simp [GEnv.effects, Pairs.cons_iff, bind_ok_iff, ih]

theorem effect_name (E : GEnv) (top : Bool) (w : Str) (args : List Tree) :
    E.effect top (.node (.atom (.name w) :: args)) =
    if top ∧ w = s%"and" then do
      let es ← E.effects false args
      pure (mkAnd es)
    else if w = s%"forall" then
      match args with
      | [.node vs, e] =>
        match typedVarToks false vs with
        | none => .error .lark
        | some toks => do
          let l ← E.typedVars toks
          let e' ← E.effect true e
          let vars ← mkVars l
          pure (mkForall e' vars)
      | _ => .error .lark
    else if w = s%"when" then
      match args with
      | [c, e] => do
        let c' ← E.gd c
        let e' ← E.condEffect e
        pure (.when c' e')
      | _ => .error .lark
    else if w = s%"oneof" then do
      let es ← E.effects true args
      check (decide (1 ≤ args.length)) .lark
      check (E.hasAny [.nonDeterministic]) .missingReq
      pure (construct (.bop .oneof) es)
    else E.pEffect (.node (.atom (.name w) :: args)) := by
  rw [GEnv.effect.eq_def]; rfl

theorem effect_rel {E : GEnv} {t : Tree} : ∀ {top e}, E.effect top t = .ok e → ERel E top t e := by
  induction t using Tree.ind with
  | hatom t => intro top e h; simp [GEnv.effect, GEnv.pEffect] at h
  | hnode l ih =>
    intro top e h
    have hall : ∀ {top args es}, (∀ t ∈ args, t ∈ l) → E.effects top args = .ok es →
        args.length = es.length ∧ ∀ p ∈ args.zip es, ERel E top p.1 p.2 := by
      intro top args es hsub he
      have := effects_ok.1 he
      exact ⟨this.1, fun p hp => ih p.1 (hsub p.1 (List.of_mem_zip hp).1) (this.2 p hp)⟩
    match l, h with
    | [], h => simp [GEnv.effect, GEnv.pEffect] at h
    | .node _ :: _, h => simp [GEnv.effect, GEnv.pEffect] at h
    | .atom t :: args, h =>
      have hsub : ∀ t' ∈ args, t' ∈ Tree.atom t :: args := fun t' h => by simp [h]
      by_cases hn : ∃ w, t = .name w
      · obtain ⟨w, rfl⟩ := hn
        rw [effect_name] at h
        by_cases h1 : top = true ∧ w = s%"and"
        · obtain ⟨rfl, rfl⟩ := h1
          simp only [and_self, if_true, bind_ok_iff, pure_ok, Except.ok.injEq] at h
          obtain ⟨es, he, rfl⟩ := h
          obtain ⟨a, b⟩ := hall hsub he
          exact .and a b
        rw [if_neg h1] at h
        by_cases h2 : w = s%"forall"
        · subst h2
          simp only [if_true] at h
          split at h
          · rename_i vs c
            split at h
            · simp at h
            · rename_i toks ht
              simp only [bind_ok_iff, pure_ok, Except.ok.injEq] at h
              obtain ⟨l, hl, e', he, vars, hv, rfl⟩ := h
              exact .fall ht hl (ih c (by simp) he) hv
          · simp at h
        rw [if_neg h2] at h
        by_cases h3 : w = s%"when"
        · subst h3
          simp only [if_true] at h
          split at h
          · simp only [bind_ok_iff, pure_ok, Except.ok.injEq] at h
            obtain ⟨c', hc, e', he, rfl⟩ := h
            exact .when hc he
          · simp at h
        rw [if_neg h3] at h
        by_cases h4 : w = s%"oneof"
        · subst h4
          simp only [if_true, bind_ok_iff, check_ok, pure_ok, Except.ok.injEq, decide_eq_true_eq] at h
          obtain ⟨es, he, u, hu, u', hu', rfl⟩ := h
          obtain ⟨a, b⟩ := hall hsub he
          exact .oneof hu a b hu'
        rw [if_neg h4] at h
        refine .lit ?_ h
        intro w' args' e'
        injection e' with e'; injection e' with e' _; injection e' with e'; injection e' with e'
        subst e'
        exact ⟨by simp [effKeywords, h2, h3, h4], fun ht hw => h1 ⟨ht, hw⟩⟩
      · have h' : E.pEffect (.node (.atom t :: args)) = .ok e := by
          cases t <;> first | exact absurd ⟨_, rfl⟩ hn | simpa [GEnv.effect] using h
        refine .lit ?_ h'
        intro w' args' e'
        injection e' with e'; injection e' with e' _; injection e' with e'
        exact absurd ⟨w', e'⟩ hn

theorem effect_of_rel {E : GEnv} {top : Bool} {t : Tree} {e : Expr} (h : ERel E top t e) :
    E.effect top t = .ok e := by
  induction h with
  | and hl _ ih => simp [effect_name, effects_ok.2 ⟨hl, ih⟩]
  | fall h1 h2 _ h4 ih => simp [effect_name, h1, h2, h4, ih]
  | when h1 h2 => simp [effect_name, h1, h2]
  | oneof h1 hl _ hu ih => simp [effect_name, effects_ok.2 ⟨hl, ih⟩, hu, check, h1]
  | @lit top t e hk h =>
    unfold GEnv.effect
    split
    · rename_i w args
      obtain ⟨hk1, hk2⟩ := hk w args rfl
      simp only [effKeywords, List.mem_cons, List.not_mem_nil, or_false, not_or] at hk1
      rw [if_neg (fun hh => hk2 hh.1 hh.2), if_neg hk1.1, if_neg hk1.2.1, if_neg hk1.2.2]
      exact h
    · exact h

theorem effect_iff {E : GEnv} {top : Bool} {t : Tree} {e : Expr} :
    E.effect top t = .ok e ↔ ERel E top t e := ⟨effect_rel, effect_of_rel⟩

end Pddl
