/- Reading a text with names in place of variables. -/
import Verif.Spec.Replace
import Verif.Proofs.Sub
import Verif.Proofs.GroundSem

namespace Pddl
open Spec

variable {m : Mapping} {r : Str → Option Str} {E E' : GEnv}

theorem writeIns_cons {t : Tree} {ts : List Tree} (h : t ≠ .atom .qmark) :
    writeIns r (t :: ts) = writeIn r t :: writeIns r ts := by
  rw [writeIns.eq_def]
  split
  · next he => cases he
  · next he => cases he; exact absurd rfl h
  · next he => cases he; rfl

theorem writeIns_map {l : List Tree} (h : ∀ t ∈ l, t ≠ .atom .qmark) : writeIns r l = l.map (writeIn r) := by
  induction l with
  | nil => simp [writeIns]
  | cons t l ih =>
    rw [writeIns_cons (h t (by simp)), ih (fun t ht => h t (List.mem_cons_of_mem _ ht)), List.map_cons]

theorem startsWithTerm_writeIns (l : List Tree) : startsWithTerm (writeIns r l) = startsWithTerm l := by
  match l with
  | [] => simp [writeIns]
  | .atom .qmark :: .atom (.name n) :: ts =>
    rw [writeIns]
    cases r n <;> rfl
  | t :: ts =>
    by_cases h : t = .atom .qmark
    · subst h
      cases ts with
      | nil => simp [writeIns, writeIn, startsWithTerm]
      | cons u us =>
        rw [writeIns.eq_def]
        split
        · next he => cases he
        · next he => cases he; cases r _ <;> rfl
        · next he => cases he; rfl
    · rw [writeIns_cons h]
      cases t with
      | atom k => cases k <;> simp_all [writeIn, startsWithTerm]
      | node l => rfl

/-- What the two readings have in common. -/
structure Swap (m : Mapping) (r : Str → Option Str) (E E' : GEnv) : Prop where
  const : ∀ n t t', E.constant n = .ok t → E'.constant n = .ok t' → (substTerm m t).norm = t'.norm
  param : ∀ n a t t', r n = some a → E.variable n = .ok t → E'.constant a = .ok t' → (substTerm m t).norm = t'.norm
  other : ∀ n t t', r n = none → E.variable n = .ok t → E'.variable n = .ok t' → (substTerm m t).norm = t'.norm
  float : E.float = E'.float
  typedVars : ∀ toks l l', E.typedVars toks = .ok l → E'.typedVars toks = .ok l' → l = l'

/-- What a list of terms is. -/
inductive TermsRel (E : GEnv) : List Tree → List Term → Prop
  | nil : TermsRel E [] []
  | name {n t l ts} : E.constant n = .ok t → TermsRel E l ts → TermsRel E (.atom (.name n) :: l) (t :: ts)
  | var {n t l ts} : E.variable n = .ok t → TermsRel E l ts → TermsRel E (.atom .qmark :: .atom (.name n) :: l) (t :: ts)

theorem terms_rel {l : List Tree} {ts : List Term} : E.terms l = .ok ts ↔ TermsRel E l ts := by
  constructor
  · induction hk : l.length using Nat.strongRecOn generalizing l ts with
    | _ k ih =>
      subst hk
      intro h
      unfold GEnv.terms at h
      split at h
      · simp only [pure_ok, Except.ok.injEq] at h
        subst h
        exact .nil
      · obtain ⟨t, ht, h⟩ := bind_ok_iff.1 h
        obtain ⟨us, hu, h⟩ := bind_ok_iff.1 h
        simp only [pure_ok, Except.ok.injEq] at h
        subst h
        exact .name ht (ih _ (by simp) rfl hu)
      · obtain ⟨t, ht, h⟩ := bind_ok_iff.1 h
        obtain ⟨us, hu, h⟩ := bind_ok_iff.1 h
        simp only [pure_ok, Except.ok.injEq] at h
        subst h
        exact .var ht (ih _ (by simp; omega) rfl hu)
      · cases h
  · intro h
    induction h with
    | nil => rfl
    | name h1 _ ih => simp only [GEnv.terms, h1, ih, ok_bind]; rfl
    | var h1 _ ih => simp only [GEnv.terms, h1, ih, ok_bind]; rfl

theorem Swap.terms (S : Swap m r E E') {args : List Tree} {ts ts' : List Term} (h : E.terms args = .ok ts)
    (h' : E'.terms (writeIns r args) = .ok ts') : (ts.map (substTerm m)).map Term.norm = ts'.map Term.norm := by
  rw [terms_rel] at h h'
  induction h generalizing ts' with
  | nil =>
    rw [writeIns] at h'
    cases h'
    rfl
  | name h1 _ ih =>
    rw [writeIns_cons (by simp), writeIn] at h'
    cases h' with
    | name h2 h' => simp only [List.map_cons, S.const _ _ _ h1 h2, ih h']
  | @var n t l ts h1 _ ih =>
    rw [writeIns] at h'
    cases hr : r n with
    | some a =>
      rw [hr] at h'
      cases h' with
      | name h2 h' => simp only [List.map_cons, S.param _ _ _ _ hr h1 h2, ih h']
    | none =>
      rw [hr] at h'
      cases h' with
      | var h2 h' => simp only [List.map_cons, S.other _ _ _ hr h1 h2, ih h']

theorem FRel.notMark {t : Tree} {e : Expr} (h : FRel E t e) : t ≠ .atom .qmark := by
  cases h <;> simp

theorem GRel.notMark {t : Tree} {e : Expr} (h : GRel E t e) : t ≠ .atom .qmark := by
  cases h <;> simp

theorem sorted_fop {o : FOp} {l : List Expr} (hg : ∀ a ∈ l, Numeric a ∧ WellSorted a) :
    Numeric (construct (.fop o) l) ∧ WellSorted (construct (.fop o) l) := by
  have hop : ∀ (e : Expr) as, e.operandsIf (.fop o) = some as → Numeric e ∧ WellSorted e → ∀ a ∈ as, Numeric a ∧ WellSorted a := by
    intro e as he h b hb
    rw [ofCls_operandsIf] at he
    subst he
    exact ⟨h.2.1 b hb, wellSorteds_iff.1 h.2.2 b hb⟩
  rcases construct_cases (.fop o) l with ⟨_, _, _, hi⟩ | ⟨as, he, _, hmem⟩
  · simp [Cls.idempotent] at hi
  · have : ∀ a ∈ as, Numeric a ∧ WellSorted a := by
      intro a ha
      rcases List.mem_append.1 (hmem a ha) with h | h
      · exact flatten_closed (P := fun a => Numeric a ∧ WellSorted a) (.fop o) hop l hg a h
      · exact hg a h
    rw [he]
    exact ⟨trivial, fun a ha => (this a ha).1, wellSorteds_iff.2 (fun a ha => (this a ha).2)⟩

/-- The results are well sorted. -/
theorem FRel.sorted {t : Tree} {e : Expr} (h : FRel E t e) : Numeric e ∧ WellSorted e := by
  induction h with
  | num _ => exact ⟨trivial, trivial⟩
  | plus _ hl _ ih =>
    refine sorted_fop (fun a ha => ?_)
    obtain ⟨t, _, hr⟩ := Pairs.mem_right (R := fun _ e => Numeric e ∧ WellSorted e) ⟨hl, ih⟩ ha
    exact hr
  | times _ hl _ ih =>
    refine sorted_fop (fun a ha => ?_)
    obtain ⟨t, _, hr⟩ := Pairs.mem_right (R := fun _ e => Numeric e ∧ WellSorted e) ⟨hl, ih⟩ ha
    exact hr
  | divide _ _ ih1 ih2 => exact sorted_fop (by simpa using ⟨ih1, ih2⟩)
  | minus _ ih => exact sorted_fop (by simpa using ih)
  | fn0 _ => exact ⟨trivial, trivial⟩
  | fn _ _ => exact ⟨trivial, trivial⟩

theorem zip_notMark {R : Tree → Expr → Prop} (hR : ∀ {t e}, R t e → t ≠ .atom .qmark) {args : List Tree} {es : List Expr}
    (hl : args.length = es.length) (h : ∀ p ∈ args.zip es, R p.1 p.2) : ∀ t ∈ args, t ≠ .atom .qmark := by
  intro t ht
  obtain ⟨e, _, hr⟩ := Pairs.mem_left (R := R) ⟨hl, h⟩ ht
  exact hR hr

/-- Elementwise readings give equal lists. -/
theorem norms_zip {R' : Tree → Expr → Prop} {args : List Tree} {es es' : List Expr} (hl : args.length = es.length)
    (hl' : (args.map (writeIn r)).length = es'.length) (h' : ∀ p ∈ (args.map (writeIn r)).zip es', R' p.1 p.2)
    (h : ∀ p ∈ args.zip es, ∀ e', R' (writeIn r p.1) e' → (p.2.sub m).norm = e'.norm) :
    Expr.norms (es.map (Expr.sub m)) = Expr.norms es' := by
  induction args generalizing es es' with
  | nil =>
    cases es with
    | nil => cases es' with
      | nil => rfl
      | cons => simp at hl'
    | cons => simp at hl
  | cons t args ih =>
    cases es with
    | nil => simp at hl
    | cons e es =>
      cases es' with
      | nil => simp at hl'
      | cons e' es' =>
        simp only [List.map_cons, Expr.norms]
        rw [h (t, e) (by simp) e' (h' (writeIn r t, e') (by simp)),
          ih (by simpa using hl) (by simpa using hl') (fun p hp => h' p (by simp [hp])) (fun p hp => h p (by simp [hp]))]

theorem FRel.swap (S : Swap m r E E') {t : Tree} {e e' : Expr} (h : FRel E t e) (h' : FRel E' (writeIn r t) e') :
    (e.sub m).norm = e'.norm := by
  have hsort : ∀ {args : List Tree} {es : List Expr}, args.length = es.length → (∀ p ∈ args.zip es, FRel E p.1 p.2) →
      ∀ a ∈ es, Numeric a ∧ WellSorted a := by
    intro args es hl hall a ha
    obtain ⟨t, _, hr⟩ := Pairs.mem_right (R := FRel E) ⟨hl, hall⟩ ha
    exact hr.sorted
  induction h generalizing e' with
  | num hn =>
    rw [writeIn] at h'
    cases h' with
    | num hn' => rw [S.float, hn'] at hn; injection hn with hn; rw [hn]; rfl
  | @plus args es h2 hl hall ih =>
    have hq := zip_notMark (R := FRel E) FRel.notMark hl hall
    rw [writeIn, writeIns_cons (by simp), writeIn, writeIns_map hq] at h'
    generalize hg : Tree.node _ = t' at h'
    cases h' <;> simp at hg
    next args' es' _ hl' hall' =>
      subst hg
      rw [sub_construct_fop (hsort hl hall)]
      exact construct_congr (norms_zip hl hl' hall' (fun p hp e' => ih p hp))
  | @times args es h2 hl hall ih =>
    have hq := zip_notMark (R := FRel E) FRel.notMark hl hall
    rw [writeIn, writeIns_cons (by simp), writeIn, writeIns_map hq] at h'
    generalize hg : Tree.node _ = t' at h'
    cases h' <;> simp at hg
    next args' es' _ hl' hall' =>
      subst hg
      rw [sub_construct_fop (hsort hl hall)]
      exact construct_congr (norms_zip hl hl' hall' (fun p hp e' => ih p hp))
  | @divide a b x y h1 h2 ih1 ih2 =>
    rw [writeIn, writeIns_map (by simpa using ⟨h1.notMark, h2.notMark⟩)] at h'
    simp only [List.map_cons, List.map_nil, writeIn] at h'
    cases h' with
    | divide k1 k2 =>
      rw [sub_construct_fop (by simpa using ⟨h1.sorted, h2.sorted⟩)]
      refine construct_congr ?_
      simp only [List.map_cons, List.map_nil, Expr.norms, ih1 k1, ih2 k2]
  | @minus a x h1 ih =>
    rw [writeIn, writeIns_map (by simpa using h1.notMark)] at h'
    simp only [List.map_cons, List.map_nil, writeIn] at h'
    cases h' with
    | minus k1 =>
      rw [sub_construct_fop (by simpa using h1.sorted)]
      refine construct_congr ?_
      simp only [List.map_cons, List.map_nil, Expr.norms, ih k1]
  | fn0 hf =>
    rw [writeIn] at h'
    cases h' with
    | fn0 hf' => rw [hf'] at hf; injection hf with hf; subst hf; obtain ⟨_, rfl⟩ := mkNFun_ok.1 hf'; rfl
  | @fn n args ts f ht hf =>
    rw [writeIn, writeIns_cons (by simp), writeIn] at h'
    generalize hg : Tree.node _ = t' at h'
    cases h' <;> simp at hg
    next n' args' ts' f' ht' hf' =>
      obtain ⟨rfl, rfl⟩ := hg
      obtain ⟨_, rfl⟩ := mkNFun_ok.1 hf
      obtain ⟨_, rfl⟩ := mkNFun_ok.1 hf'
      simp only [Expr.sub, Expr.norm, S.terms ht ht']

theorem sub_mkAnd {es : List Expr} (hg : ∀ a ∈ es, a.Good) : (mkAnd es).sub m = mkAnd (es.map (Expr.sub m)) :=
  sub_construct_bop (fun a ha => (hg a ha).tidy)

theorem sub_mkOr {es : List Expr} (hg : ∀ a ∈ es, a.Good) : (mkOr es).sub m = mkOr (es.map (Expr.sub m)) :=
  sub_construct_bop (fun a ha => (hg a ha).tidy)

theorem names_writeIns {l : List Tree} {ns : List Str} (h : namesOnly l = some ns) : writeIns r l = l := by
  induction l generalizing ns with
  | nil => simp [writeIns]
  | cons t l ih =>
    unfold namesOnly at h
    split at h
    · next he => cases he
    · next he =>
      cases he
      obtain ⟨_, h1, _⟩ := Option.map_eq_some_iff.1 h
      rw [writeIns_cons (by simp), writeIn, ih h1]
    · cases h

theorem typeDef_writeIn {t : Tree} {l : List Str} (h : typeDef t = some l) : writeIn r t = t := by
  unfold typeDef at h
  split at h
  · rw [writeIn]
  · next body =>
    split at h
    · next u us hd =>
      rw [writeIn]
      unfold dropKeyword at hd
      split at hd
      · next w rest =>
        rw [writeIns_cons (by simp), writeIn]
        split at hd
        · split at hd
          · injection hd with hd
            rw [hd, names_writeIns h]
          · split at hd
            · injection hd with hd
              injection hd with hd hd'
              subst hd hd'
              have := names_writeIns (r := r) h
              rw [writeIns_cons (by simp), writeIn] at this
              injection this with _ this
              rw [this]
            · cases hd
        · cases hd
      · cases hd
    · cases h
  · cases h

/-- A list of variables that is still one after the replacement is as before. -/
theorem vars_writeIns {vs : List Tree} {b : Bool} {toks toks' : List TTok} (h : typedVarToks b vs = some toks)
    (h' : typedVarToks b (writeIns r vs) = some toks') : writeIns r vs = vs := by
  induction hk : vs.length using Nat.strongRecOn generalizing vs b toks toks' with
  | _ k ih =>
    subst hk
    unfold typedVarToks at h
    split at h
    · simp [writeIns]
    · next n ts =>
      obtain ⟨l, hl, _⟩ := Option.map_eq_some_iff.1 h
      rw [writeIns] at h' ⊢
      cases hr : r n with
      | some a =>
        rw [hr] at h'
        simp [typedVarToks] at h'
      | none =>
        rw [hr] at h'
        simp only at h'
        rw [typedVarToks] at h'
        obtain ⟨l', hl', _⟩ := Option.map_eq_some_iff.1 h'
        rw [ih _ (by simp; omega) hl hl' rfl]
    · next t ts =>
      split at h
      · next l toks1 h1 h2 =>
        have ht : t ≠ .atom .qmark := by rintro rfl; simp [typeDef] at h1
        rw [writeIns_cons (by simp), writeIn, writeIns_cons ht] at h' ⊢
        have he : writeIn r t = t := typeDef_writeIn h1
        rw [he] at h' ⊢
        simp only [typedVarToks] at h'
        split at h'
        · next l' toks2 h3 h4 => rw [ih _ (by simp; omega) h2 h4 rfl]
        · cases h'
      · cases h
    · cases h

theorem GRel.swap (S : Swap m r E E') {t : Tree} {e e' : Expr} (h : GRel E t e) (h' : GRel E' (writeIn r t) e') :
    (e.sub m).norm = e'.norm := by
  have hgood : ∀ {args : List Tree} {es : List Expr}, args.length = es.length → (∀ p ∈ args.zip es, GRel E p.1 p.2) →
      ∀ a ∈ es, a.Good := by
    intro args es hl hall a ha
    obtain ⟨t, _, hr⟩ := Pairs.mem_right (R := GRel E) ⟨hl, hall⟩ ha
    exact hr.good
  induction h generalizing e' with
  | @and args es hl hall ih =>
    have hq := zip_notMark (R := GRel E) GRel.notMark hl hall
    rw [writeIn, writeIns_cons (by simp), writeIn, writeIns_map hq] at h'
    generalize hg : Tree.node _ = t' at h'
    cases h' <;> simp at hg
    case and args' es' hl' hall' =>
      subst hg
      rw [sub_mkAnd (hgood hl hall)]
      exact construct_congr (norms_zip hl hl' hall' (fun p hp e' => ih p hp))
    case quant q _ _ _ _ _ _ _ _ _ _ _ => cases q <;> simp [QOp.symbol] at hg
    case comp hc _ _ _ => rw [← hg.1] at hc; cases hc
    case atom hk _ _ => exact absurd (hg.1 ▸ by simp [gdKeywords]) hk
  | @or args es hl hall hr ih =>
    have hq := zip_notMark (R := GRel E) GRel.notMark hl hall
    rw [writeIn, writeIns_cons (by simp), writeIn, writeIns_map hq] at h'
    generalize hg : Tree.node _ = t' at h'
    cases h' <;> simp at hg
    case or args' es' hl' hall' _ =>
      subst hg
      rw [sub_mkOr (hgood hl hall)]
      exact construct_congr (norms_zip hl hl' hall' (fun p hp e' => ih p hp))
    case quant q _ _ _ _ _ _ _ _ _ _ _ => cases q <;> simp [QOp.symbol] at hg
    case comp hc _ _ _ => rw [← hg.1] at hc; cases hc
    case atom hk _ _ => exact absurd (hg.1 ▸ by simp [gdKeywords]) hk
  | @not a x h1 ih =>
    rw [writeIn, writeIns_map (by simpa using h1.notMark)] at h'
    simp only [List.map_cons, List.map_nil, writeIn] at h'
    generalize hg : Tree.node _ = t' at h'
    cases h' <;> simp at hg
    case not k => subst hg; simp only [Expr.sub, Expr.norm, ih k]
    case atom hk _ _ => exact absurd (hg.1 ▸ by simp [gdKeywords]) hk
  | @imply a b x y h1 h2 hr ih1 ih2 =>
    rw [writeIn, writeIns_map (by simpa using ⟨h1.notMark, h2.notMark⟩)] at h'
    simp only [List.map_cons, List.map_nil, writeIn] at h'
    generalize hg : Tree.node _ = t' at h'
    cases h' <;> simp at hg
    case imply k1 k2 _ =>
      obtain ⟨rfl, rfl⟩ := hg
      rw [sub_construct_bop (by simpa using ⟨h1.good.tidy, h2.good.tidy⟩)]
      refine construct_congr ?_
      simp only [List.map_cons, List.map_nil, Expr.norms, ih1 k1, ih2 k2]
    case quant q _ _ _ _ _ _ _ _ _ _ _ => cases q <;> simp [QOp.symbol] at hg
    case comp hc _ _ _ => rw [← hg.1] at hc; cases hc
    case atom hk _ _ => exact absurd (hg.1 ▸ by simp [gdKeywords]) hk
  | @quant q vs c x toks l vars h1 h2 h3 h4 h5 ih =>
    rw [writeIn, writeIns_map (by simpa using h3.notMark)] at h'
    simp only [List.map_cons, List.map_nil, writeIn] at h'
    generalize hg : Tree.node _ = t' at h'
    cases h' <;> simp at hg
    case and => cases q <;> simp [QOp.symbol] at hg
    case or => cases q <;> simp [QOp.symbol] at hg
    case imply => cases q <;> simp [QOp.symbol] at hg
    case quant q' vs' c' x' toks' l' vars' k1 k2 k3 k4 k5 =>
      obtain ⟨hq, rfl, rfl⟩ := hg
      have : q = q' := by cases q <;> cases q' <;> simp [QOp.symbol] at hq ⊢
      subst this
      rw [vars_writeIns h1 k1, h1] at k1
      injection k1 with k1
      subst k1
      have := S.typedVars _ _ _ h2 k2
      subst this
      rw [h5] at k5
      injection k5 with k5
      subst k5
      simp only [Expr.sub, mkQuant, Expr.norm, varsNorm_dedup, ih k3]
    case comp hc _ _ _ => rw [← hg.1] at hc; cases hc
    case atom hk _ _ => exact absurd (hg.1 ▸ by cases q <;> simp [gdKeywords, QOp.symbol]) hk
  | @atom n args ts p hk ht hp =>
    rw [writeIn, writeIns_cons (by simp), writeIn] at h'
    generalize hg : Tree.node _ = t' at h'
    cases h' <;> simp at hg
    case atom n' args' ts' p' hk' ht' hp' =>
      obtain ⟨rfl, rfl⟩ := hg
      obtain ⟨_, _, rfl⟩ := mkPred_ok.1 hp
      obtain ⟨_, _, rfl⟩ := mkPred_ok.1 hp'
      simp only [Expr.sub, Expr.norm, S.terms ht ht']
    case quant q _ _ _ _ _ _ _ _ _ _ _ => exact absurd (hg.1 ▸ by cases q <;> simp [gdKeywords, QOp.symbol]) hk
    case comp hc _ _ _ => rw [← hg.1] at hc; cases hc
    all_goals exact absurd (hg.1 ▸ by simp [gdKeywords]) hk
  | @eq args l r' x hs ht hr he =>
    rw [writeIn, writeIns_cons (by simp), writeIn] at h'
    generalize hg : Tree.node _ = t' at h'
    cases h' <;> simp at hg
    case eq args' l2 r2 hs' ht' hr' he' =>
      subst hg
      obtain ⟨_, rfl⟩ := mkEq_ok.1 he
      obtain ⟨_, rfl⟩ := mkEq_ok.1 he'
      have := S.terms ht ht'
      simp only [List.map_cons, List.map_nil, List.cons.injEq, and_true] at this
      simp only [Expr.sub, Expr.norm, this.1, this.2]
    case comp t op a b x y k1 k2 k3 k4 =>
      obtain ⟨rfl, hg⟩ := hg
      have := k2 rfl
      rw [← hg, startsWithTerm_writeIns, hs] at this
      cases this
  | @comp t op a b x y h1 h2 h3 h4 =>
    have f1 := fExp_iff.1 h3
    have f2 := fExp_iff.1 h4
    have ht : t ≠ .qmark := by rintro rfl; cases h1
    have hn : ∀ w, t ≠ .name w := by rintro w rfl; cases h1
    rw [writeIn, writeIns_map (by simpa using ⟨ht, f1.notMark, f2.notMark⟩)] at h'
    simp only [List.map_cons, List.map_nil, writeIn] at h'
    generalize hg : Tree.node _ = t' at h'
    cases h' <;> simp at hg
    case eq args' l2 r2 hs' ht' hr' he' =>
      obtain ⟨rfl, rfl⟩ := hg
      have := h2 rfl
      have e := writeIns_map (r := r) (l := [a, b]) (by simpa using ⟨f1.notMark, f2.notMark⟩)
      simp only [List.map_cons, List.map_nil] at e
      rw [← startsWithTerm_writeIns (r := r), e, hs'] at this
      cases this
    case comp t2 op2 a2 b2 x2 y2 k1 k2 k3 k4 =>
      obtain ⟨rfl, rfl, rfl⟩ := hg
      rw [h1] at k1
      injection k1 with k1
      subst k1
      rw [sub_construct_fop (by simpa using ⟨f1.sorted, f2.sorted⟩)]
      refine construct_congr ?_
      simp only [List.map_cons, List.map_nil, Expr.norms, f1.swap S (fExp_iff.1 k3), f2.swap S (fExp_iff.1 k4)]
    all_goals exact absurd hg.1 (hn _)

/-! ### Effects -/

theorem Swap.atomic (S : Swap m r E E') {a : List Tree} {e e' : Expr} (h : E.atomic a = .ok e)
    (h' : E'.atomic (writeIns r a) = .ok e') : (e.sub m).norm = e'.norm := by
  unfold GEnv.atomic at h
  split at h
  · rw [writeIns_cons (by simp), writeIn] at h'
    unfold GEnv.atomic at h'
    simp only at h'
    obtain ⟨ts, ht, h⟩ := bind_ok_iff.1 h
    obtain ⟨ts', ht', h'⟩ := bind_ok_iff.1 h'
    have := S.terms ht ht'
    split at h
    · obtain ⟨_, _, h⟩ := bind_ok_iff.1 h
      obtain ⟨_, rfl⟩ := mkEq_ok.1 h
      split at h'
      · obtain ⟨_, _, h'⟩ := bind_ok_iff.1 h'
        obtain ⟨_, rfl⟩ := mkEq_ok.1 h'
        simp only [List.map_cons, List.map_nil, List.cons.injEq, and_true] at this
        simp only [Expr.sub, Expr.norm, this.1, this.2]
      · cases h'
    · cases h
  · rw [writeIns_cons (by simp), writeIn] at h'
    unfold GEnv.atomic at h'
    simp only at h'
    obtain ⟨ts, ht, h⟩ := bind_ok_iff.1 h
    obtain ⟨ts', ht', h'⟩ := bind_ok_iff.1 h'
    obtain ⟨p, hp, h⟩ := bind_ok_iff.1 h
    obtain ⟨p', hp', h'⟩ := bind_ok_iff.1 h'
    simp only [pure_ok, Except.ok.injEq] at h h'
    subst h h'
    obtain ⟨_, _, rfl⟩ := mkPred_ok.1 hp
    obtain ⟨_, _, rfl⟩ := mkPred_ok.1 hp'
    simp only [Expr.sub, Expr.norm, S.terms ht ht']
  · cases h

theorem fHead_rel {t : Tree} {f : NFun} (h : E.fHead t = .ok f) : FRel E t (.nfun f) := by
  unfold GEnv.fHead at h
  split at h
  · exact .fn0 h
  · obtain ⟨ts, ht, h⟩ := bind_ok_iff.1 h
    exact .fn ht h
  · cases h

theorem PRel.notMark {t : Tree} {e : Expr} (h : PRel E t e) : t ≠ .atom .qmark := by
  cases h <;> simp

theorem CRel.notMark {t : Tree} {e : Expr} (h : CRel E t e) : t ≠ .atom .qmark := by
  cases h with
  | and _ => simp
  | one _ h => exact h.notMark

theorem ERel.notMark {top : Bool} {t : Tree} {e : Expr} (h : ERel E top t e) : t ≠ .atom .qmark := by
  cases h with
  | lit _ h => exact (pEffect_iff.1 h).notMark
  | _ => simp

theorem PRel.swap (S : Swap m r E E') {t : Tree} {e e' : Expr} (h : PRel E t e) (h' : PRel E' (writeIn r t) e') :
    (e.sub m).norm = e'.norm := by
  cases h with
  | @not a x ha =>
    rw [writeIn, writeIns_map (by simp)] at h'
    simp only [List.map_cons, List.map_nil, writeIn] at h'
    cases h' with
    | not ha' => simp only [Expr.sub, Expr.norm, S.atomic ha ha']
    | atom hw _ _ => exact absurd rfl hw
  | @assign w op hd x f y ho hf hx =>
    have f1 := fHead_rel hf
    have f2 := fExp_iff.1 hx
    rw [writeIn, writeIns_map (by simpa using ⟨f1.notMark, f2.notMark⟩)] at h'
    simp only [List.map_cons, List.map_nil, writeIn] at h'
    generalize hg : Tree.node _ = t' at h'
    cases h' <;> simp at hg
    case assign w' op' h2 x2 f' y' ho' hf' hx' =>
      obtain ⟨rfl, rfl, rfl⟩ := hg
      rw [ho] at ho'
      injection ho' with ho'
      subst ho'
      rw [sub_construct_fop (by simpa using ⟨f1.sorted, f2.sorted⟩)]
      refine construct_congr ?_
      simp only [List.map_cons, List.map_nil, Expr.norms, f1.swap S (fHead_rel hf'), f2.swap S (fExp_iff.1 hx')]
    case atom hw ho' _ =>
      rw [← hg.1, ho] at ho'
      cases ho'
  | @atom w args x hw ho ha =>
    rw [writeIn, writeIns_cons (by simp), writeIn] at h'
    generalize hg : Tree.node _ = t' at h'
    cases h' <;> simp at hg
    case not => exact absurd hg.1 hw
    case assign ho' _ _ =>
      rw [← hg.1, ho] at ho'
      cases ho'
    case atom w' args' _ _ ha' =>
      obtain ⟨rfl, rfl⟩ := hg
      exact S.atomic ha (by rw [writeIns_cons (by simp), writeIn]; exact ha')
  | @eq args x ha =>
    rw [writeIn, writeIns_cons (by simp), writeIn] at h'
    generalize hg : Tree.node _ = t' at h'
    cases h' <;> simp at hg
    case eq args' ha' =>
      subst hg
      exact S.atomic ha (by rw [writeIns_cons (by simp), writeIn]; exact ha')

/-- The first word stays. -/
theorem PRel.head {t : Tree} {e : Expr} {w : Str} {args' : List Tree} (h : PRel E t e)
    (hg : writeIn r t = .node (.atom (.name w) :: args')) : ∃ args, t = .node (.atom (.name w) :: args) := by
  cases h <;> rw [writeIn, writeIns_cons (by simp), writeIn] at hg <;> simp at hg
  all_goals obtain ⟨rfl, _⟩ := hg; exact ⟨_, rfl⟩

theorem CRel.swap (S : Swap m r E E') {t : Tree} {e e' : Expr} (h : CRel E t e) (h' : CRel E' (writeIn r t) e') :
    (e.sub m).norm = e'.norm := by
  cases h with
  | @and args es hp =>
    have hq := zip_notMark (R := PRel E) PRel.notMark hp.1 hp.2
    rw [writeIn, writeIns_cons (by simp), writeIn, writeIns_map hq] at h'
    generalize hg : Tree.node _ = t' at h'
    cases h' with
    | @and args' es' hp' =>
      simp at hg
      subst hg
      rw [sub_mkAnd (fun a ha => by obtain ⟨t, _, hr⟩ := Pairs.mem_right hp ha; exact hr.good)]
      exact construct_congr (norms_zip hp.1 hp'.1 hp'.2 (fun p hm e' => (hp.2 p hm).swap S))
    | one hne _ => exact absurd hg.symm (hne _)
  | one hne hp =>
    generalize hg : writeIn r t = t' at h'
    cases h' with
    | @and args' es' hp' =>
      obtain ⟨args, rfl⟩ := hp.head hg
      exact absurd rfl (hne args)
    | one _ hp' => rw [← hg] at hp'; exact hp.swap S hp'

theorem ERel.swap (S : Swap m r E E') {top : Bool} {t : Tree} {e e' : Expr} (h : ERel E top t e)
    (h' : ERel E' top (writeIn r t) e') : (e.sub m).norm = e'.norm := by
  have hgood : ∀ {top} {args : List Tree} {es : List Expr}, args.length = es.length → (∀ p ∈ args.zip es, ERel E top p.1 p.2) →
      ∀ a ∈ es, a.Good := by
    intro top args es hl hall a ha
    obtain ⟨t, _, hr⟩ := Pairs.mem_right (R := ERel E top) ⟨hl, hall⟩ ha
    exact hr.good
  induction h generalizing e' with
  | @and args es hl hall ih =>
    have hq := zip_notMark (R := ERel E false) ERel.notMark hl hall
    rw [writeIn, writeIns_cons (by simp), writeIn, writeIns_map hq] at h'
    generalize hg : Tree.node _ = t' at h'
    generalize htop : true = top at h'
    cases h' <;> try simp at hg
    case and args' es' hl' hall' =>
      subst hg
      rw [sub_mkAnd (hgood hl hall)]
      exact construct_congr (norms_zip hl hl' hall' (fun p hp e' => ih p hp))
    case lit hw _ => exact absurd rfl ((hw _ _ hg.symm).2 htop.symm)
  | @fall top vs t x toks l vars h1 h2 h3 h5 ih =>
    rw [writeIn, writeIns_map (by simpa using h3.notMark)] at h'
    simp only [List.map_cons, List.map_nil, writeIn] at h'
    generalize hg : Tree.node _ = t' at h'
    cases h' <;> try simp at hg
    case fall vs' c' x' toks' l' vars' k1 k2 k3 k5 =>
      obtain ⟨rfl, rfl⟩ := hg
      rw [vars_writeIns h1 k1, h1] at k1
      injection k1 with k1
      subst k1
      have := S.typedVars _ _ _ h2 k2
      subst this
      rw [h5] at k5
      injection k5 with k5
      subst k5
      simp only [Expr.sub, mkForall, Expr.norm, varsNorm_dedup, ih k3]
    case lit hw _ => exact absurd (by simp [effKeywords]) (hw _ _ hg.symm).1
  | @when top c t x y h1 h2 =>
    have g1 := gd_iff.1 h1
    have g2 := condEffect_iff.1 h2
    rw [writeIn, writeIns_map (by simpa using ⟨g1.notMark, g2.notMark⟩)] at h'
    simp only [List.map_cons, List.map_nil, writeIn] at h'
    generalize hg : Tree.node _ = t' at h'
    cases h' <;> try simp at hg
    case when k1 k2 =>
      obtain ⟨rfl, rfl⟩ := hg
      simp only [Expr.sub, Expr.norm, g1.swap S (gd_iff.1 k1), g2.swap S (condEffect_iff.1 k2)]
    case lit hw _ => exact absurd (by simp [effKeywords]) (hw _ _ hg.symm).1
  | @oneof top args es h1 hl hall hr ih =>
    have hq := zip_notMark (R := ERel E true) ERel.notMark hl hall
    rw [writeIn, writeIns_cons (by simp), writeIn, writeIns_map hq] at h'
    generalize hg : Tree.node _ = t' at h'
    cases h' <;> try simp at hg
    case oneof args' es' h1' hl' hall' _ =>
      subst hg
      rw [sub_construct_bop (fun a ha => (hgood hl hall a ha).tidy)]
      exact construct_congr (norms_zip hl hl' hall' (fun p hp e' => ih p hp))
    case lit hw _ => exact absurd (by simp [effKeywords]) (hw _ _ hg.symm).1
  | @lit top t x hw hp =>
    have g := pEffect_iff.1 hp
    generalize hg : writeIn r t = t' at h'
    cases h' with
    | lit _ hp' => rw [← hg] at hp'; exact g.swap S (pEffect_iff.1 hp')
    | and _ _ =>
      obtain ⟨args, rfl⟩ := g.head hg
      exact absurd rfl ((hw _ _ rfl).2 rfl)
    | _ =>
      obtain ⟨args, rfl⟩ := g.head hg
      exact absurd (by simp [effKeywords]) (hw _ _ rfl).1

end Pddl
