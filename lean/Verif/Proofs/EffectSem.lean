/-
Parsed effects do what is written.
-/
import Verif.Spec.Effect
import Verif.Proofs.TextSem

namespace Pddl
open Spec

variable {D : Type} (I : Interp D) (lit : Str → Option Rat) (c : Change D)

theorem makesSome_iff {as : List Expr} {ρ : Str → D} : makesSome I c as ρ ↔ ∃ a ∈ as, makes I c a ρ := by
  induction as with
  | nil => simp [makesSome]
  | cons a as ih => simp [makesSome, ih]

theorem treeMakesSome_iff {ts : List Tree} {ρ : Str → D} :
    treeMakesSome I lit c ts ρ ↔ ∃ t ∈ ts, treeMakes I lit c t ρ := by
  induction ts with
  | nil => simp [treeMakesSome]
  | cons a as ih => simp [treeMakesSome, ih]

theorem deletes_congr {a b : Expr} (h : a.norm = b.norm) (ρ : Str → D) : deletes I c ρ a ↔ deletes I c ρ b := by
  cases a <;> cases b <;> simp [Expr.norm] at h <;> simp [deletes]
  rw [h.1, denote_terms I h.2]

theorem updated_congr {o : FOp} {as bs : List Expr} (h : Expr.norms as = Expr.norms bs) (ρ : Str → D) :
    updated I c o ρ as ↔ updated I c o ρ bs := by
  have key : ∀ as bs : List Expr, Expr.norms as = Expr.norms bs → updated I c o ρ as → updated I c o ρ bs := by
    intro as bs h hu
    match as, hu with
    | [.nfun f, e], hu =>
      match bs, h with
      | [b, e'], h =>
        simp only [Expr.norms, List.cons.injEq, and_true] at h
        cases b <;> simp [Expr.norm] at h
        rename_i g
        obtain ⟨⟨h1, h2⟩, h3⟩ := h
        simp only [updated] at hu ⊢
        rw [← value_congr I h3, ← h1, ← denote_terms I h2]
        exact hu
      | [], h => simp [Expr.norms] at h
      | [_], h => simp [Expr.norms] at h
      | _ :: _ :: _ :: _, h => simp [Expr.norms] at h
  exact ⟨key as bs h, key bs as h.symm⟩

theorem makes_congr {a b : Expr} (h : a.norm = b.norm) (ρ : Str → D) : makes I c a ρ ↔ makes I c b ρ := by
  induction a using Expr.ind generalizing b ρ with
  | hpred p =>
    cases b <;> simp [Expr.norm] at h
    simp [makes, h.1, denote_terms I h.2]
  | heq l r => cases b <;> simp [Expr.norm] at h; simp [makes]
  | hnfun f => cases b <;> simp [Expr.norm] at h <;> simp [makes]
  | hnum n => cases b <;> simp [Expr.norm] at h <;> simp [makes]
  | hbfun o as ih =>
    cases b <;> simp [Expr.norm] at h
    obtain ⟨rfl, h⟩ := h
    simp only [makes]
    exact updated_congr I c h ρ
  | hbin o as ih =>
    cases b with
    | bin o' bs =>
      simp [Expr.norm] at h
      obtain ⟨rfl, h⟩ := h
      cases o with
      | and =>
        simp only [makes]
        induction as generalizing bs with
        | nil => cases bs <;> simp_all [Expr.norms]
        | cons a as ihl =>
          cases bs with
          | nil => simp [Expr.norms] at h
          | cons b bs =>
            simp only [Expr.norms, List.cons.injEq] at h
            simp only [makesSome]
            rw [ih a (by simp) h.1 ρ, ihl (fun x hx => ih x (List.mem_cons_of_mem _ hx)) _ h.2]
      | _ => simp [makes]
    | _ => simp [Expr.norm] at h
  | hnot a ih =>
    cases b <;> simp [Expr.norm] at h
    simp only [makes]
    exact deletes_congr I c h ρ
  | hquant q vs c ih => cases b <;> simp [Expr.norm] at h; simp [makes]
  | hwhen c e _ ih =>
    cases b <;> simp [Expr.norm] at h
    simp only [makes]
    rw [ih h.2 ρ, holds_congr_norm I h.1 ρ]
  | hfall vs e ih =>
    cases b <;> simp [Expr.norm] at h
    simp only [makes]
    simp [rebind_congr I h.1, ih h.2]

theorem makes_dedup (ρ : Str → D) (l : List Expr) :
    (∃ a ∈ dedupBy Expr.pyEq l, makes I c a ρ) ↔ ∃ a ∈ l, makes I c a ρ := by
  constructor
  · rintro ⟨a, ha, h⟩; exact ⟨a, dedupBy_subset ha, h⟩
  · rintro ⟨a, ha, h⟩
    obtain ⟨y, hy, e⟩ := memBy_iff.mp (dedupBy_cover Expr.pyEq_refl ha)
    exact ⟨y, hy, (makes_congr I c ((Expr.pyEq_iff _ _).1 e) ρ).1 h⟩

theorem makes_flatten (ρ : Str → D) (l : List Expr) :
    (∃ a ∈ flattenEs (.bop .and) l, makes I c a ρ) ↔ ∃ a ∈ l, makes I c a ρ := by
  have key : ∀ n, ∀ l : List Expr, Expr.sizes l = n →
      ((∃ a ∈ flattenEs (.bop .and) l, makes I c a ρ) ↔ ∃ a ∈ l, makes I c a ρ) := by
    intro n
    induction n using Nat.strongRecOn with
    | _ n ih =>
      intro l hn
      match l with
      | [] => simp [flattenEs]
      | e :: rest =>
        have hpos : 0 < e.size := by cases e <;> simp [Expr.size]
        simp only [Expr.sizes] at hn
        have hrest := ih (Expr.sizes rest) (by omega) rest rfl
        have happ : ∀ a b : List Expr, (∃ x ∈ a ++ b, makes I c x ρ) ↔
            (∃ x ∈ a, makes I c x ρ) ∨ ∃ x ∈ b, makes I c x ρ := by
          intro a b; simp only [List.mem_append, or_and_right, exists_or]
        rw [flattenEs, happ, hrest]
        simp only [List.mem_cons, exists_eq_or_imp]
        cases ho : e.operandsIf (.bop .and) with
        | none => rw [flattenE_none ho]; simp
        | some bs =>
          rw [flattenE_some ho]
          have hs := Expr.size_operands ho
          rw [ih (Expr.sizes bs) (by omega) bs rfl]
          rw [ofCls_operandsIf] at ho
          subst ho
          simp [Expr.ofCls, makes, makesSome_iff]
  exact key _ l rfl

theorem makes_simpl (ρ : Str → D) (l : List Expr) :
    (∃ a ∈ simplOperands (.bop .and) l, makes I c a ρ) ↔ ∃ a ∈ l, makes I c a ρ := by
  rw [← makes_dedup I c ρ l]
  by_cases h : 2 ≤ (dedupBy Expr.pyEq l).length
  · rw [simplOperands_loop (by simpa [Cls.idempotent] using h)]
    simp only [Cls.idempotent, if_true]
    rw [makes_dedup, makes_flatten]
  · have : simplOperands (.bop .and) l = dedupBy Expr.pyEq l := by
      simp only [simplOperands, Cls.idempotent, if_true]
      match hd : dedupBy Expr.pyEq l, h with
      | [], _ => rfl
      | [x], _ => rfl
      | _ :: _ :: _, h => simp at h
    rw [this]

theorem makes_mkAnd (ρ : Str → D) (l : List Expr) : makes I c (mkAnd l) ρ ↔ ∃ a ∈ l, makes I c a ρ := by
  rw [← makes_simpl]
  simp only [mkAnd, construct, Cls.isMeta, Cls.idempotent, if_true]
  split
  · next x hx => simp [hx]
  · next ops hx => simp [Expr.ofCls, makes, makesSome_iff]

theorem treeMakes_name (w : Str) (args : List Tree) (ρ : Str → D) :
    treeMakes I lit c (.node (.atom (.name w) :: args)) ρ =
    if w = s%"and" then treeMakesSome I lit c args ρ
    else if w = s%"forall" then
      match args with
      | [.node vs, e] => ∃ l, VarsText vs l ∧ ∃ ρ', Rebind I l.varList ρ ρ' ∧ treeMakes I lit c e ρ'
      | _ => False
    else if w = s%"when" then
      match args with
      | [cond, e] => treeHolds I lit cond ρ ∧ treeMakes I lit c e ρ
      | _ => False
    else if w = s%"not" then treeDelete I c ρ args
    else match updateWord w with
      | some op => treeUpdate I lit c op ρ args
      | none => ∃ ds, treeTerms I ρ args = some ds ∧ c = .add w ds := by
  rw [treeMakes.eq_def]; rfl

theorem updateWord_eq (w : Str) : updateWord w = assignOp w := rfl

theorem assignOp_updates {w : Str} {op : FOp} (h : assignOp w = some op) : updates op = true := by
  unfold assignOp at h
  repeat' split at h
  all_goals first | (injection h with h; subst h; rfl) | cases h

theorem assignOp_not_word {w : Str} {op : FOp} (h : assignOp w = some op) :
    w ≠ s%"and" ∧ w ≠ s%"forall" ∧ w ≠ s%"when" ∧ w ≠ s%"not" := by
  refine ⟨?_, ?_, ?_, ?_⟩ <;> (rintro rfl; revert h; simp [assignOp])

theorem fHead_sem {E : GEnv} (hE : ParserEnv E) {ρ : Str → D} {t : Tree} {f : NFun} (h : E.fHead t = .ok f) :
    treeFluent I ρ t = some (f.name, f.terms.map (denote I ρ)) := by
  unfold GEnv.fHead at h
  split at h
  · obtain ⟨_, rfl⟩ := mkNFun_ok.1 h
    simp [treeFluent]
  · obtain ⟨ts, ht, h⟩ := bind_ok_iff.1 h
    obtain ⟨_, rfl⟩ := mkNFun_ok.1 h
    simp [treeFluent, (terms_sem I (ρ := ρ) hE ht).1]
  · simp at h

theorem PRel.sem {E : GEnv} (hE : ParserEnv E) (hlit : LitOk lit E.float) {t : Tree} {e : Expr} (h : PRel E t e)
    (hk : KeepsOperands E t) (hn : ∀ w args, t = .node (.atom (.name w) :: args) → w ≠ s%"and" ∧ w ∉ effKeywords)
    (ρ : Str → D) : makes I c e ρ ↔ treeMakes I lit c t ρ := by
  cases h with
  | @not a e h =>
    rw [treeMakes_name, if_neg (by decide), if_neg (by decide), if_neg (by decide), if_pos rfl, makes]
    match a, h with
    | .atom (.name n) :: args, h =>
      obtain ⟨ts, p, h1, h2, rfl⟩ := atomic_name_ok.1 h
      obtain ⟨_, _, rfl⟩ := mkPred_ok.1 h2
      simp [deletes, treeDelete, (terms_sem I (ρ := ρ) hE h1).1]
    | .atom .eq :: args, h =>
      obtain ⟨l, r, h1, _, h2⟩ := atomic_eq_ok.1 h
      obtain ⟨_, rfl⟩ := mkEq_ok.1 h2
      simp [deletes, treeDelete]
    | [], h => simp [GEnv.atomic] at h
    | .node _ :: _, h => simp [GEnv.atomic] at h
  | @assign w op hd x f e hop h1 h2 =>
    obtain ⟨n1, n2, n3, n4⟩ := assignOp_not_word hop
    have hu := assignOp_updates hop
    rw [treeMakes_name, if_neg n1, if_neg n2, if_neg n3, if_neg n4, updateWord_eq, hop]
    have hc : construct (.fop op) [.nfun f, e] = .bfun op [.nfun f, e] := by
      have : (Cls.fop op).isMeta = false := by cases op <;> simp [updates] at hu <;> rfl
      simp [construct, this, Expr.ofCls]
    rw [hc]
    simp only [makes, updated, treeUpdate, fHead_sem I hE h1, hu, true_and]
    rw [(fExp_rel h2).sem I lit hE hlit (hk.sub (.node (by simp) .refl))]
    constructor
    · rintro ⟨v, hv, rfl⟩; exact ⟨_, _, v, rfl, hv, rfl⟩
    · rintro ⟨_, _, v, he, hv, rfl⟩
      injection he with he
      injection he with h1 h2
      subst h1 h2
      exact ⟨v, hv, rfl⟩
  | @atom w args e h1 h2 h3 =>
    obtain ⟨ts, p, h4, h5, rfl⟩ := atomic_name_ok.1 h3
    obtain ⟨_, _, rfl⟩ := mkPred_ok.1 h5
    obtain ⟨n1, n2⟩ := hn w args rfl
    simp only [effKeywords, List.mem_cons, List.not_mem_nil, or_false, not_or] at n2
    rw [treeMakes_name, if_neg n1, if_neg (by tauto), if_neg (by tauto), if_neg h1, updateWord_eq, h2]
    simp [makes, (terms_sem I (ρ := ρ) hE h4).1]
  | @eq args e h =>
    obtain ⟨l, r, h1, _, h2⟩ := atomic_eq_ok.1 h
    obtain ⟨_, rfl⟩ := mkEq_ok.1 h2
    simp [makes, treeMakes]

/-- A literal that starts with a keyword is rejected. -/
theorem PRel.not_keyword {E : GEnv} {w : Str} {args : List Tree} {e : Expr}
    (h : PRel E (.node (.atom (.name w) :: args)) e) : w ≠ s%"and" ∧ w ∉ effKeywords := by
  have hv : ∀ n, ValidName n → n ≠ s%"and" ∧ n ∉ effKeywords := by
    intro n hn
    have : ∀ k ∈ s%"and" :: effKeywords, ¬ ValidName k := by decide
    refine ⟨fun e => this _ (by simp) (e ▸ hn), fun e => this n (List.mem_cons_of_mem _ e) hn⟩
  cases h with
  | not _ => exact ⟨by decide, by decide⟩
  | assign h _ _ =>
    obtain ⟨n1, n2, n3, n4⟩ := assignOp_not_word h
    refine ⟨n1, ?_⟩
    simp only [effKeywords, List.mem_cons, List.not_mem_nil, or_false, not_or]
    refine ⟨?_, ?_, ?_⟩ <;> (rintro rfl; revert h; simp [assignOp])
  | atom _ _ h =>
    obtain ⟨ts, p, h4, h5, rfl⟩ := atomic_name_ok.1 h
    exact hv w (mkPred_valid h5)

theorem CRel.sem {E : GEnv} (hE : ParserEnv E) (hlit : LitOk lit E.float) {t : Tree} {e : Expr} (h : CRel E t e)
    (hk : KeepsOperands E t) (ρ : Str → D) : makes I c e ρ ↔ treeMakes I lit c t ρ := by
  cases h with
  | @and args es h =>
    have ih : ∀ p ∈ args.zip es, makes I c p.2 ρ ↔ treeMakes I lit c p.1 ρ := fun p hp =>
      (h.2 p hp).sem I lit c hE hlit (hk.sub (.node (by simp [(List.of_mem_zip hp).1]) .refl))
        (fun w args e => by have := h.2 p hp; rw [e] at this; exact this.not_keyword) ρ
    rw [treeMakes_name, if_pos rfl, makes_mkAnd, treeMakesSome_iff]
    constructor
    · rintro ⟨e, he, hm⟩
      obtain ⟨t, ht, h'⟩ := Pairs.mem_right (R := fun t e => makes I c e ρ ↔ treeMakes I lit c t ρ) ⟨h.1, ih⟩ he
      exact ⟨t, ht, h'.1 hm⟩
    · rintro ⟨t, ht, hm⟩
      obtain ⟨e, he, h'⟩ := Pairs.mem_left (R := fun t e => makes I c e ρ ↔ treeMakes I lit c t ρ) ⟨h.1, ih⟩ ht
      exact ⟨e, he, h'.2 hm⟩
  | one hn h =>
    exact h.sem I lit c hE hlit hk (fun w args e => by rw [e] at h; exact h.not_keyword) ρ

theorem ERel.sem {E : GEnv} (hE : ParserEnv E) (hlit : LitOk lit E.float) {top : Bool} {t : Tree} {e : Expr}
    (h : ERel E top t e) (hw : ∀ w, Inside (.atom (.name w)) t → nameRegex w = true) (hk : KeepsOperands E t)
    (ho : NoOneof t) (hvars : E.ext = [] → ∀ toks r, E.typedVars toks = .ok r → typedListVariable toks = .ok r)
    (ρ : Str → D) : makes I c e ρ ↔ treeMakes I lit c t ρ := by
  induction h generalizing ρ with
  | @and args es hl hr ih =>
    have ih : ∀ p ∈ args.zip es, makes I c p.2 ρ ↔ treeMakes I lit c p.1 ρ := fun p hp =>
      have hi : Inside p.1 (.node (.atom (.name s%"and") :: args)) := .node (by simp [(List.of_mem_zip hp).1]) .refl
      ih p hp (fun w hi' => hw w (hi'.trans hi)) (hk.sub hi) (fun a h => ho a (h.trans hi)) ρ
    rw [treeMakes_name, if_pos rfl, makes_mkAnd, treeMakesSome_iff]
    constructor
    · rintro ⟨e, he, hm⟩
      obtain ⟨t, ht, h'⟩ := Pairs.mem_right (R := fun t e => makes I c e ρ ↔ treeMakes I lit c t ρ) ⟨hl, ih⟩ he
      exact ⟨t, ht, h'.1 hm⟩
    · rintro ⟨t, ht, hm⟩
      obtain ⟨e, he, h'⟩ := Pairs.mem_left (R := fun t e => makes I c e ρ ↔ treeMakes I lit c t ρ) ⟨hl, ih⟩ ht
      exact ⟨e, he, h'.2 hm⟩
  | @fall top vs t e toks r vars h1 h2 _ h3 ih =>
    have hi : Inside t (.node [.atom (.name s%"forall"), .node vs, t]) := .node (by simp) .refl
    have hvs : Inside (.node vs) (.node [.atom (.name s%"forall"), .node vs, t]) := .node (by simp) .refl
    have ih := ih (fun w hi' => hw w (hi'.trans hi)) (hk.sub hi) (fun a h => ho a (h.trans hi))
    have h2' : typedListVariable toks = .ok r := by
      by_cases he : E.ext = []
      · exact hvars he _ _ h2
      · exact hE.typedVars he _ _ h2
    obtain ⟨⟨l, hl⟩, hq⟩ := quant_vars' I (fun w hm => hw w ((Inside.node hm .refl).trans hvs)) h1 h2' h3
    rw [treeMakes_name, if_neg (by decide), if_pos rfl, mkForall, makes]
    constructor
    · rintro ⟨ρ', hr, h⟩
      exact ⟨l, hl, ρ', (hq l hl ρ ρ').2 hr, (ih ρ').1 h⟩
    · rintro ⟨l', hl', ρ', hr, h⟩
      exact ⟨ρ', (hq l' hl' ρ ρ').1 hr, (ih ρ').2 h⟩
  | @when top cnd t c' e h1 h2 =>
    have hi : Inside cnd (.node [.atom (.name s%"when"), cnd, t]) := .node (by simp) .refl
    have hi2 : Inside t (.node [.atom (.name s%"when"), cnd, t]) := .node (by simp) .refl
    rw [treeMakes_name, if_neg (by decide), if_neg (by decide), if_pos rfl, makes]
    simp only
    rw [(gd_rel h1).sem I lit hE hlit (fun w hi' => hw w (hi'.trans hi)) (hk.sub hi) ρ,
      (condEffect_iff.1 h2).sem I lit c hE hlit (hk.sub hi2) ρ]
  | oneof => exact absurd .refl (ho _)
  | @lit top t e hn h =>
    have hp := pEffect_iff.1 h
    exact hp.sem I lit c hE hlit hk (fun w args e => by rw [e] at hp; exact hp.not_keyword) ρ

end Pddl
