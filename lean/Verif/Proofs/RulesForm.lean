/-
The rules for conditions and effects and the callbacks for them.
-/
import Verif.Proofs.RulesGd

namespace Pddl.Rules
open Pddl Spec Spec.Rules Grammar

variable {Γ : Scope} {E : GEnv}

theorem qok_cls' (c : Cls) (as : List Expr) :
    (QOk (.ofCls c as) ∧ NoEffect (.ofCls c as)) ↔ ∀ a ∈ as, QOk a ∧ NoEffect a := by
  have : NoEffect (.ofCls c as) ↔ NoEffects as := by cases c <;> rfl
  rw [qOk_cls, this, noEffects_iff]
  exact ⟨fun h a ha => ⟨h.1 a ha, h.2 a ha⟩, fun h => ⟨fun a ha => (h a ha).1, fun a ha => (h a ha).2⟩⟩

theorem zip_all {α β : Type} {P : β → Prop} {as : List α} {bs : List β} (hl : as.length = bs.length)
    (h : ∀ p ∈ as.zip bs, P p.2) : ∀ b ∈ bs, P b := by
  intro b hb
  obtain ⟨a, _, hp⟩ := Pairs.mem_right (R := fun _ b => P b) ⟨hl, h⟩ hb
  exact hp

theorem zip_all' {α β : Type} {P : α → Prop} {as : List α} {bs : List β} (hl : as.length = bs.length)
    (h : ∀ p ∈ as.zip bs, P p.1) : ∀ a ∈ as, P a := by
  intro a ha
  obtain ⟨b, _, hp⟩ := Pairs.mem_left (R := fun a _ => P a) ⟨hl, h⟩ ha
  exact hp

theorem mem_varList {w : Str} {vs : List Tree} {q : Tree} {c : Tree} (h : WordsOk (.node [q, .node vs, c]))
    (hw : .atom (.name w) ∈ vs) : nameRegex w = true :=
  h w (.node (t := .node vs) (by simp) (.node hw .refl))

theorem GRel.qok (hE : EnvIn Γ E) {t : Tree} {e : Expr} (h : GRel E t e) : WordsOk t → QOk e ∧ NoEffect e := by
  induction h with
  | and hl _ ih =>
    intro hw
    exact construct_keeps (P := fun e => QOk e ∧ NoEffect e) qok_cls'
      (zip_all hl fun p hp => ih p hp (hw.sub (by simp [(List.of_mem_zip hp).1])))
  | or hl _ _ ih =>
    intro hw
    exact construct_keeps (P := fun e => QOk e ∧ NoEffect e) qok_cls'
      (zip_all hl fun p hp => ih p hp (hw.sub (by simp [(List.of_mem_zip hp).1])))
  | not _ ih => intro hw; exact ih (hw.sub (by simp))
  | imply _ _ _ h1 h2 =>
    intro hw
    exact construct_keeps (P := fun e => QOk e ∧ NoEffect e) qok_cls' (by
      simp only [List.mem_cons, List.not_mem_nil, or_false, forall_eq_or_imp, forall_eq]
      exact ⟨h1 (hw.sub (by simp)), h2 (hw.sub (by simp))⟩)
  | @quant q vs c e toks l vars h1 h2 _ h4 h5 ih =>
    intro hw
    obtain ⟨tl, t1, t2, t3, rfl⟩ := (hE.typed_iff (fun w hm => mem_varList hw hm)).1 ⟨toks, l, h1, h2, h5⟩
    obtain ⟨q1, q2⟩ := ih (hw.sub (by simp))
    exact ⟨⟨dedup_vars_ok (built_ok t2 t3), q1⟩, q2⟩
  | atom _ _ _ => intro _; simp [QOk, NoEffect]
  | eq _ _ _ he => intro _; obtain ⟨_, rfl⟩ := mkEq_ok.1 he; simp [QOk, NoEffect]
  | comp _ _ h1 h2 =>
    intro _
    exact construct_keeps (P := fun e => QOk e ∧ NoEffect e) qok_cls' (by
      simp only [List.mem_cons, List.not_mem_nil, or_false, forall_eq_or_imp, forall_eq]
      exact ⟨frel_qok (fExp_rel h1), frel_qok (fExp_rel h2)⟩)

theorem GRel.reg (hE : EnvIn Γ E) {t : Tree} {e : Expr} (h : GRel E t e) (hw : WordsOk t) : Reg E e :=
  ⟨h.from, (GRel.qok hE h hw).1⟩

/-! ### Requirements -/

theorem hasAny_iff (hE : EnvIn Γ E) {l : List Req} : E.hasAny l = true ↔ ∃ r ∈ l, InForce Γ.reqs r := by
  unfold GEnv.hasAny
  rw [List.any_eq_true]
  constructor
  · rintro ⟨r, hr, h⟩; exact ⟨r, hr, (hE.ext r).1 (of_decide_eq_true h)⟩
  · rintro ⟨r, hr, h⟩; exact ⟨r, hr, decide_eq_true ((hE.ext r).2 h)⟩

theorem disj_iff (hE : EnvIn Γ E) : E.hasAny [.disPrecondition, .adl] = true ↔ InForce Γ.reqs .disPrecondition := by
  rw [hasAny_iff hE]
  constructor
  · rintro ⟨r, hr, h⟩
    simp only [List.mem_cons, List.not_mem_nil, or_false] at hr
    rcases hr with rfl | rfl
    · exact h
    · exact Props.inForce_adl h (.inl rfl)
  · intro h; exact ⟨_, by simp, h⟩

theorem quant_iff (hE : EnvIn Γ E) {q : QOp} :
    E.hasAny [q.req, .quantifiedPrecondition, .adl] = true ↔ InForce Γ.reqs q.req := by
  rw [hasAny_iff hE]
  constructor
  · rintro ⟨r, hr, h⟩
    simp only [List.mem_cons, List.not_mem_nil, or_false] at hr
    rcases hr with rfl | rfl | rfl
    · exact h
    · exact Props.inForce_quant h (by cases q <;> simp [QOp.req])
    · exact Props.inForce_adl h (by cases q <;> simp [QOp.req])
  · intro h; exact ⟨_, by simp, h⟩

theorem one_iff (hE : EnvIn Γ E) {r : Req} : E.hasAny [r] = true ↔ InForce Γ.reqs r := by
  rw [hasAny_iff hE]; simp

/-! ### Atoms -/

theorem agrees_iff {ρ : Retyping} {ts l : List Term} (h : List.Forall₂ SameT ts l) :
    Agrees ρ l ↔ Consistent ts ∧ ∀ τ, ρ = some τ → Consistent (ts.map (retype τ)) := by
  unfold Agrees
  rw [consistent_same h]
  refine and_congr Iff.rfl (forall₂_congr fun τ _ => ?_)
  exact (consistent_same (forall₂_map_same h (TypesLike.refl τ))).symm

theorem acc_pred {ok : Str → Prop} {ρ : Retyping} {p : Pred} :
    Acc ok ρ (.pred p) ↔ ∀ τ, ρ = some τ → Consistent (p.terms.map (retype τ)) := by
  simp [Acc, BindersOk, binders, fits]

theorem acc_eq {ok : Str → Prop} {ρ : Retyping} {l r : Term} :
    Acc ok ρ (.eq l r) ↔ ∀ τ, ρ = some τ → Consistent ([l, r].map (retype τ)) := by
  simp [Acc, BindersOk, binders, fits]

theorem EnvIn.pred_in (hE : EnvIn Γ E) {ok : Str → Prop} {ρ : Retyping} {kws : List Str} {n : Str} {args : List Tree}
    {ts : List Term} {p : Pred} (hn : n ∉ kws) (h1 : E.terms args = .ok ts) (h2 : mkPred n ts = .ok p)
    (h : Acc ok ρ (.pred p)) : AtomIn Γ ρ kws (.node (word n :: args)) := by
  obtain ⟨h3, h4, rfl⟩ := mkPred_ok.1 h2
  obtain ⟨l, h5, h6⟩ := hE.terms_ok h1
  exact .predicate hn (parseName_iff.1 h3) h5 ((agrees_iff h6).2 ⟨consistent_iff.1 h4, acc_pred.1 h⟩)

theorem EnvIn.eq_in (hE : EnvIn Γ E) {ok : Str → Prop} {ρ : Retyping} {kws : List Str} {args : List Tree}
    {l r : Term} {e : Expr} (h1 : E.terms args = .ok [l, r]) (h2 : E.hasAny [.equality] = true) (h3 : mkEq l r = .ok e)
    (h : Acc ok ρ e) : AtomIn Γ ρ kws (.node (.atom .eq :: args)) := by
  obtain ⟨h4, rfl⟩ := mkEq_ok.1 h3
  obtain ⟨k, h5, h6⟩ := hE.terms_ok h1
  have ha := (agrees_iff (ρ := ρ) h6).2 ⟨consistent_iff.1 h4, acc_eq.1 h⟩
  cases h6 with
  | cons _ h6 =>
    cases h6 with
    | cons _ h6 =>
      cases h6
      exact .equal h5 ha ((one_iff hE).1 h2)

/-- Atoms as they are read, with the words that may not start them. -/
def AtomRel (E : GEnv) (kws : List Str) (t : Tree) (e : Expr) : Prop :=
  ∃ a, t = .node a ∧ E.atomic a = .ok e ∧ ∀ n args, a = word n :: args → n ∉ kws

theorem EnvIn.atom_in (hE : EnvIn Γ E) {ok : Str → Prop} {ρ : Retyping} {kws : List Str} {t : Tree} {e : Expr}
    (h : AtomRel E kws t e) (ha : Acc ok ρ e) : AtomIn Γ ρ kws t := by
  obtain ⟨a, rfl, h1, h2⟩ := h
  match a, h1 with
  | .atom (.name n) :: args, h1 =>
    obtain ⟨ts, p, h3, h4, rfl⟩ := atomic_name_ok.1 h1
    exact hE.pred_in (h2 n args rfl) h3 h4 ha
  | .atom .eq :: args, h1 =>
    obtain ⟨l, r, h3, hr, h4⟩ := atomic_eq_ok.1 h1
    exact hE.eq_in h3 hr h4 ha
  | [], h1 => simp [GEnv.atomic] at h1
  | .node _ :: _, h1 => simp [GEnv.atomic] at h1

theorem EnvIn.in_atom (hE : EnvIn Γ E) {ok : Str → Prop} {ρ : Retyping} {kws : List Str} {t : Tree}
    (h : AtomIn Γ ρ kws t) : ∃ e, AtomRel E kws t e ∧ Acc ok ρ e := by
  cases h with
  | @predicate n ts l hn hv ht ha =>
    obtain ⟨us, h1, h2⟩ := hE.terms_of ht
    obtain ⟨h3, h4⟩ := (agrees_iff h2).1 ha
    refine ⟨.pred ⟨n, us⟩, ⟨_, rfl, ?_, ?_⟩, acc_pred.2 h4⟩
    · exact atomic_name_ok.2 ⟨us, _, h1, mkPred_ok.2 ⟨parseName_iff.2 hv, consistent_iff.2 h3, rfl⟩, rfl⟩
    · intro m args e
      injection e with e _
      injection e with e
      injection e with e
      exact e ▸ hn
  | @equal ts a b ht ha hr =>
    obtain ⟨us, h1, h2⟩ := hE.terms_of ht
    obtain ⟨h3, h4⟩ := (agrees_iff h2).1 ha
    cases h2 with
    | @cons x _ _ _ _ h2 =>
      cases h2 with
      | @cons y _ _ _ _ h2 =>
        cases h2
        refine ⟨.eq x y, ⟨_, rfl, ?_, ?_⟩, acc_eq.2 h4⟩
        · exact atomic_eq_ok.2 ⟨x, y, h1, (one_iff hE).2 hr, mkEq_ok.2 ⟨consistent_iff.2 h3, rfl⟩⟩
        · intro m args e
          injection e with e _
          injection e with e
          cases e

/-! ### Conditions -/

theorem acc_quant {ok : Str → Prop} {ρ : Retyping} {q : QOp} {e : Expr} {tl : TypedList} (hE : EnvIn Γ E)
    (hr : Reg E e) (hc : Compatible tl.itemsOf) :
    Acc ok ρ (mkQuant q e (builtVars tl)) ↔
      (∀ v ∈ builtVars tl, ∀ x ∈ v.tags, ok x) ∧ Acc ok (bindRetyping tl.vars ρ) e := by
  have hf : ∀ τ, fits (bindVars (dedupBy Var.pyEq (builtVars tl)) τ) e ↔ fits (Spec.Rules.bindTypes tl.vars τ) e := by
    intro τ
    have := bind_like built_matches (fun p hp q hq e => compatible_vars hc hp hq e) (TypesLike.refl τ)
    exact ⟨fits_norm hE.constFn hE.varFn hr hr rfl this, fits_norm hE.constFn hE.varFn hr hr rfl this.symm⟩
  unfold Acc mkQuant bindRetyping
  simp only [BindersOk, binders, List.forall_mem_append, fits, hf]
  constructor
  · rintro ⟨⟨h1, h2⟩, h3⟩
    refine ⟨built_tags h1, h2, ?_⟩
    intro τ e
    cases ρ with
    | none => simp at e
    | some σ =>
      simp only [Option.map_some, Option.some.injEq] at e
      rw [← e]
      exact h3 σ rfl
  · rintro ⟨h1, h2, h3⟩
    refine ⟨⟨fun v hv => h1 v (dedupBy_subset hv), h2⟩, ?_⟩
    rintro τ rfl
    exact h3 _ rfl

theorem startsWithTerm_of {args : List Tree} {l r : Term} (h : E.terms args = .ok [l, r]) : startsWithTerm args = true := by
  match args, h with
  | [], h => simp [GEnv.terms] at h
  | .atom (.name n) :: _, _ => rfl
  | [.atom .qmark], h => simp [GEnv.terms] at h
  | .atom .qmark :: _ :: _, _ => rfl
  | .node _ :: _, h => simp [GEnv.terms] at h
  | .atom .lpar :: _, h => simp [GEnv.terms] at h
  | .atom .rpar :: _, h => simp [GEnv.terms] at h
  | .atom .minus :: _, h => simp [GEnv.terms] at h
  | .atom .eq :: _, h => simp [GEnv.terms] at h

theorem gdWords_iff {n : Str} : n ∈ gdWords ↔ n ∈ gdKeywords := by
  simp only [gdWords, gdKeywords, List.mem_cons, List.not_mem_nil, or_false]
  tauto

theorem acc_frel {ok : Str → Prop} {ρ : Retyping} {t : Tree} {e : Expr} (h : FRel E t e) : Acc ok ρ e :=
  ⟨frel_binders h, fun _ _ => frel_fits h⟩

theorem GRel.in (hE : EnvIn Γ E) {t : Tree} {e : Expr} (h : GRel E t e) :
    WordsOk t → ∀ {ρ : Retyping}, Acc Γ.typeOk ρ e → GdIn Γ ρ t := by
  have hl : ∀ {c : Cls} {args : List Tree} {es : List Expr} {x : Tree} {ρ : Retyping}, args.length = es.length → WordsOk (.node (x :: args)) →
      (∀ p ∈ args.zip es, GRel E p.1 p.2) →
      (∀ p ∈ args.zip es, WordsOk p.1 → ∀ {ρ : Retyping}, Acc Γ.typeOk ρ p.2 → GdIn Γ ρ p.1) →
      Acc Γ.typeOk ρ (construct c es) → ∀ t ∈ args, GdIn Γ ρ t := by
    intro c args es x ρ hl hw hg ih ha
    have hr : ∀ e ∈ es, Reg E e := zip_all hl fun p hp => GRel.reg hE (hg p hp) (hw.sub (by simp [(List.of_mem_zip hp).1]))
    have ha := (acc_construct hE.constFn hE.varFn hr).1 ha
    exact zip_all' hl fun p hp => ih p hp (hw.sub (by simp [(List.of_mem_zip hp).1])) (ha p.2 (List.of_mem_zip hp).2)
  induction h with
  | and hlen hg ih => intro hw ρ ha; exact .and (hl hlen hw hg ih ha)
  | or hlen hg hu ih => intro hw ρ ha; exact .or (hl hlen hw hg ih ha) ((disj_iff hE).1 hu)
  | not _ ih => intro hw ρ ha; exact .not (ih (hw.sub (by simp)) ha)
  | @imply a b e e' g1 g2 hu h1 h2 =>
    intro hw ρ ha
    have hr : ∀ x ∈ [e, e'], Reg E x := by
      simp only [List.mem_cons, List.not_mem_nil, or_false, forall_eq_or_imp, forall_eq]
      exact ⟨GRel.reg hE g1 (hw.sub (by simp)), GRel.reg hE g2 (hw.sub (by simp))⟩
    have ha := (acc_construct hE.constFn hE.varFn hr).1 ha
    exact .imply (h1 (hw.sub (by simp)) (ha e (by simp))) (h2 (hw.sub (by simp)) (ha e' (by simp))) ((disj_iff hE).1 hu)
  | @quant q vs c e toks l vars h1 h2 hg h4 h5 ih =>
    intro hw ρ ha
    obtain ⟨tl, t1, t2, t3, rfl⟩ := (hE.typed_iff (fun w hm => mem_varList hw hm)).1 ⟨toks, l, h1, h2, h5⟩
    obtain ⟨a1, a2⟩ := (acc_quant hE (GRel.reg hE hg (hw.sub (by simp))) t3).1 ha
    have hv := in_vars t1 t2 t3 a1
    have hb := ih (hw.sub (by simp)) a2
    have hr := (quant_iff hE).1 h4
    cases q with
    | all => exact .forall hv hb hr
    | ex => exact .exists hv hb hr
  | atom hn h1 h2 => intro _ ρ ha; exact .atomic (hE.pred_in (by rw [gdWords_iff]; exact hn) h1 h2 ha)
  | eq _ h1 h2 h3 => intro _ ρ ha; exact .atomic (hE.eq_in h1 h2 h3 ha)
  | @comp t op a b e e' hc hs h1 h2 =>
    intro _ ρ _
    have f1 := hE.fExp_iff.1 ⟨_, h1⟩
    have f2 := hE.fExp_iff.1 ⟨_, h2⟩
    by_cases ht : t = .eq
    · subst ht
      refine .equal (fun n e => ?_) f1 f2
      subst e
      simpa [word, startsWithTerm] using hs rfl
    · refine .compare ?_ f1 f2
      cases t <;> simp [compOp] at hc ht ⊢

theorem GdIn.rel (hE : EnvIn Γ E) {ρ : Retyping} {t : Tree} (h : GdIn Γ ρ t) :
    WordsOk t → ∃ e, GRel E t e ∧ Acc Γ.typeOk ρ e := by
  have hl : ∀ {ρ : Retyping} {args : List Tree} {x : Tree}, WordsOk (.node (x :: args)) →
      (∀ t ∈ args, WordsOk t → ∃ e, GRel E t e ∧ Acc Γ.typeOk ρ e) →
      ∃ es, args.length = es.length ∧ (∀ p ∈ args.zip es, GRel E p.1 p.2) ∧
        ∀ c, Acc Γ.typeOk ρ (construct c es) := by
    intro ρ args x hw ih
    obtain ⟨es, h1, h2⟩ := pairs_of (R := fun t e => GRel E t e ∧ Acc Γ.typeOk ρ e)
      (fun t ht => ih t ht (hw.sub (by simp [ht])))
    refine ⟨es, h1, fun p hp => (h2 p hp).1, fun c => ?_⟩
    have hr : ∀ e ∈ es, Reg E e := zip_all h1 fun p hp => GRel.reg hE (h2 p hp).1 (hw.sub (by simp [(List.of_mem_zip hp).1]))
    exact (acc_construct hE.constFn hE.varFn hr).2 (zip_all h1 fun p hp => (h2 p hp).2)
  induction h with
  | @atomic ρ t h =>
    intro _
    obtain ⟨e, ⟨a, rfl, h1, h2⟩, h3⟩ := hE.in_atom (ok := Γ.typeOk) h
    refine ⟨e, ?_, h3⟩
    match a, h1 with
    | .atom (.name n) :: args, h1 =>
      obtain ⟨ts, p, g3, g4, rfl⟩ := atomic_name_ok.1 h1
      exact .atom (by rw [← gdWords_iff]; exact h2 n args rfl) g3 g4
    | .atom .eq :: args, h1 =>
      obtain ⟨l, r, h3, hr, h4⟩ := atomic_eq_ok.1 h1
      exact .eq (startsWithTerm_of h3) h3 hr h4
    | [], h1 => simp [GEnv.atomic] at h1
    | .node _ :: _, h1 => simp [GEnv.atomic] at h1
  | and _ ih => intro hw; obtain ⟨es, h1, h2, h3⟩ := hl hw ih; exact ⟨_, .and h1 h2, h3 _⟩
  | or _ hr ih => intro hw; obtain ⟨es, h1, h2, h3⟩ := hl hw ih; exact ⟨_, .or h1 h2 ((disj_iff hE).2 hr), h3 _⟩
  | not _ ih => intro hw; obtain ⟨e, h1, h2⟩ := ih (hw.sub (by simp)); exact ⟨_, .not h1, h2⟩
  | @imply ρ a b _ _ hr ih1 ih2 =>
    intro hw
    obtain ⟨e, h1, h2⟩ := ih1 (hw.sub (by simp))
    obtain ⟨e', h3, h4⟩ := ih2 (hw.sub (by simp))
    refine ⟨_, .imply h1 h3 ((disj_iff hE).2 hr), (acc_construct hE.constFn hE.varFn ?_).2 ?_⟩
    · simp only [List.mem_cons, List.not_mem_nil, or_false, forall_eq_or_imp, forall_eq]
      exact ⟨GRel.reg hE h1 (hw.sub (by simp)), GRel.reg hE h3 (hw.sub (by simp))⟩
    · simp only [List.mem_cons, List.not_mem_nil, or_false, forall_eq_or_imp, forall_eq]
      exact ⟨h2, h4⟩
  | @«forall» ρ vs l t hv _ hr ih =>
    intro hw
    obtain ⟨tl, t1, rfl, t2, t3⟩ := vars_in hv
    obtain ⟨e, h1, h2⟩ := ih (hw.sub (by simp))
    obtain ⟨toks, l, a1, a2, a3⟩ := (hE.typed_iff (fun w hm => mem_varList hw hm)).2 ⟨tl, t1, t2, t3, rfl⟩
    refine ⟨_, .quant (q := .all) a1 a2 h1 ((quant_iff hE).2 hr) a3, (acc_quant hE (GRel.reg hE h1 (hw.sub (by simp))) t3).2 ⟨?_, h2⟩⟩
    intro v hvm x hx
    obtain ⟨p, hp, rfl⟩ := List.mem_map.1 hvm
    exact ((hv.2.1 p hp).2 x (dd_mem.1 hx)).2
  | @«exists» ρ vs l t hv _ hr ih =>
    intro hw
    obtain ⟨tl, t1, rfl, t2, t3⟩ := vars_in hv
    obtain ⟨e, h1, h2⟩ := ih (hw.sub (by simp))
    obtain ⟨toks, l, a1, a2, a3⟩ := (hE.typed_iff (fun w hm => mem_varList hw hm)).2 ⟨tl, t1, t2, t3, rfl⟩
    refine ⟨_, .quant (q := .ex) a1 a2 h1 ((quant_iff hE).2 hr) a3, (acc_quant hE (GRel.reg hE h1 (hw.sub (by simp))) t3).2 ⟨?_, h2⟩⟩
    intro v hvm x hx
    obtain ⟨p, hp, rfl⟩ := List.mem_map.1 hvm
    exact ((hv.2.1 p hp).2 x (dd_mem.1 hx)).2
  | @compare ρ op a b ho h1 h2 =>
    intro _
    obtain ⟨e, f1⟩ := hE.fExp_iff.2 h1
    obtain ⟨e', f2⟩ := hE.fExp_iff.2 h2
    have : ∃ o, compOp op = some o ∧ op ≠ .eq := by
      simp only [List.mem_cons, List.not_mem_nil, or_false] at ho
      rcases ho with rfl | rfl | rfl | rfl <;> exact ⟨_, rfl, by simp⟩
    obtain ⟨o, ho, hne⟩ := this
    refine ⟨_, .comp ho (fun h => absurd h hne) f1 f2, ?_⟩
    exact (acc_construct hE.constFn hE.varFn (by
      simp only [List.mem_cons, List.not_mem_nil, or_false, forall_eq_or_imp, forall_eq]
      exact ⟨⟨(fExp_rel f1).from, (frel_qok (fExp_rel f1)).1⟩, ⟨(fExp_rel f2).from, (frel_qok (fExp_rel f2)).1⟩⟩)).2 (by
      simp only [List.mem_cons, List.not_mem_nil, or_false, forall_eq_or_imp, forall_eq]
      exact ⟨acc_frel (fExp_rel f1), acc_frel (fExp_rel f2)⟩)
  | @equal ρ a b ho h1 h2 =>
    intro _
    obtain ⟨e, f1⟩ := hE.fExp_iff.2 h1
    obtain ⟨e', f2⟩ := hE.fExp_iff.2 h2
    have hst : startsWithTerm [a, b] = false := by
      cases a with
      | node _ => rfl
      | atom t =>
        cases t with
        | name n => exact absurd rfl (ho n)
        | qmark => simp [GEnv.fExp, GEnv.fHead] at f1
        | _ => rfl
    refine ⟨_, .comp (t := .eq) rfl (fun _ => hst) f1 f2, ?_⟩
    exact (acc_construct hE.constFn hE.varFn (by
      simp only [List.mem_cons, List.not_mem_nil, or_false, forall_eq_or_imp, forall_eq]
      exact ⟨⟨(fExp_rel f1).from, (frel_qok (fExp_rel f1)).1⟩, ⟨(fExp_rel f2).from, (frel_qok (fExp_rel f2)).1⟩⟩)).2 (by
      simp only [List.mem_cons, List.not_mem_nil, or_false, forall_eq_or_imp, forall_eq]
      exact ⟨acc_frel (fExp_rel f1), acc_frel (fExp_rel f2)⟩)

theorem EnvIn.gd_iff (hE : EnvIn Γ E) {ρ : Retyping} {t : Tree} (hw : WordsOk t) :
    (∃ e, E.gd t = .ok e ∧ Acc Γ.typeOk ρ e) ↔ GdIn Γ ρ t := by
  simp only [Pddl.gd_iff]
  exact ⟨fun ⟨_, h1, h2⟩ => GRel.in hE h1 hw h2, fun h => GdIn.rel hE h hw⟩

/-! ### Effects -/

theorem acc_none {ok : Str → Prop} {e : Expr} : Acc ok none e ↔ BindersOk ok e := by simp [Acc]

theorem assignOp_iff {w : Str} : assignOp w = none ↔ w ∉ assignWords := by
  simp only [assignOp, assignWords, List.mem_cons, List.not_mem_nil, or_false, not_or]
  split <;> [skip; split] <;> [skip; skip; split] <;> [skip; skip; skip; split] <;> [skip; skip; skip; skip; split] <;>
    simp_all

/-- The words that may not start it. -/
def NotStart (kws : List Str) (t : Tree) : Prop := ∀ w args, t = .node (word w :: args) → w ∉ kws

theorem PRel.in (hE : EnvIn Γ E) {t : Tree} {e : Expr} {kws : List Str} (h : PRel E t e) (hk : NotStart kws t)
    (hb : BindersOk Γ.typeOk e) : PEffectIn Γ kws t := by
  cases h with
  | @not a e h =>
    exact .not (hE.atom_in ⟨a, rfl, h, by simp⟩ (acc_none.2 hb))
  | @assign w op h x f e ho hf hx =>
    refine .num ?_ (hE.fHead_iff.1 ⟨f, hf⟩) (hE.fExp_iff.1 ⟨e, hx⟩)
    by_contra hc
    rw [assignOp_iff.2 hc] at ho
    simp at ho
  | @atom w args e hn ho h =>
    refine .atomic (hE.atom_in ⟨_, rfl, h, ?_⟩ (acc_none.2 hb))
    intro n as e
    injection e with e _
    injection e with e
    injection e with e
    subst e
    simp only [List.cons_append, List.mem_cons, List.mem_append, not_or]
    exact ⟨hn, assignOp_iff.1 ho, hk w args rfl⟩
  | @eq args e h =>
    refine .atomic (hE.atom_in ⟨_, rfl, h, ?_⟩ (acc_none.2 hb))
    intro n as e
    injection e with e _
    injection e with e
    cases e

theorem PEffectIn.rel (hE : EnvIn Γ E) {t : Tree} {kws : List Str} (hks : s%"not" ∉ kws ∧ ∀ w ∈ assignWords, w ∉ kws)
    (h : PEffectIn Γ kws t) : ∃ e, PRel E t e ∧ NotStart kws t ∧ BindersOk Γ.typeOk e := by
  have hst : ∀ {w : Str} {l : List Tree}, w ∉ kws → NotStart kws (.node (word w :: l)) := by
    intro w l hw n args e
    injection e with e
    injection e with e _
    injection e with e
    injection e with e
    exact e ▸ hw
  cases h with
  | not h =>
    obtain ⟨e, ⟨a, rfl, h1, _⟩, h2⟩ := hE.in_atom (ok := Γ.typeOk) h
    exact ⟨_, .not h1, hst hks.1, acc_none.1 h2⟩
  | atomic h =>
    obtain ⟨e, ⟨a, rfl, h1, h3⟩, h2⟩ := hE.in_atom (ok := Γ.typeOk) h
    refine ⟨e, ?_, ?_, acc_none.1 h2⟩
    · match a, h1 with
      | .atom (.name n) :: args, h1 =>
        have := h3 n args rfl
        simp only [List.cons_append, List.mem_cons, List.mem_append, not_or] at this
        exact .atom this.1 (assignOp_iff.2 this.2.1) h1
      | .atom .eq :: args, h1 => exact .eq h1
      | [], h1 => simp [GEnv.atomic] at h1
      | .node _ :: _, h1 => simp [GEnv.atomic] at h1
    · intro n args e
      injection e with e
      have := h3 n args e
      simp only [List.cons_append, List.mem_cons, List.mem_append, not_or] at this
      exact this.2.2
  | @num w h x hw hh hx =>
    obtain ⟨f, hf⟩ := hE.fHead_iff.2 hh
    obtain ⟨e, hx⟩ := hE.fExp_iff.2 hx
    cases ho : assignOp w with
    | none => exact absurd hw (assignOp_iff.1 ho)
    | some op =>
      refine ⟨_, .assign ho hf hx, hst (hks.2 w hw), construct_keeps bindersOk_cls ?_⟩
      simp only [List.mem_cons, List.not_mem_nil, or_false, forall_eq_or_imp, forall_eq]
      exact ⟨by simp [BindersOk, binders], frel_binders (fExp_rel hx)⟩

theorem CRel.in (hE : EnvIn Γ E) {t : Tree} {e : Expr} (h : CRel E t e) (hb : BindersOk Γ.typeOk e) : CondEffectIn Γ t := by
  cases h with
  | and h =>
    have hb := bindersOk_construct.1 hb
    exact .and (zip_all' h.1 fun p hp => PRel.in hE (h.2 p hp) (by intro _ _ _; simp) (hb p.2 (List.of_mem_zip hp).2))
  | one hn h =>
    refine .one (PRel.in hE h ?_ hb)
    rintro w args rfl
    simp only [List.mem_singleton]
    rintro rfl
    exact hn args rfl

theorem CondEffectIn.rel (hE : EnvIn Γ E) {t : Tree} (h : CondEffectIn Γ t) : ∃ e, CRel E t e ∧ BindersOk Γ.typeOk e := by
  cases h with
  | and h =>
    obtain ⟨es, h1, h2⟩ := pairs_of fun t ht => PEffectIn.rel hE (by simp) (h t ht)
    exact ⟨_, .and ⟨h1, fun p hp => (h2 p hp).1⟩, construct_keeps bindersOk_cls (zip_all h1 fun p hp => (h2 p hp).2.2)⟩
  | one h =>
    obtain ⟨e, h1, h2, h3⟩ := PEffectIn.rel hE (by simp [assignWords]) h
    refine ⟨e, .one ?_ h1, h3⟩
    rintro args rfl
    exact h2 _ args rfl (by simp)

theorem ERel.in (hE : EnvIn Γ E) {top : Bool} {t : Tree} {e : Expr} (h : ERel E top t e) :
    WordsOk t → BindersOk Γ.typeOk e → EffectIn Γ top t := by
  induction h with
  | and hl _ ih =>
    intro hw hb
    have hb := bindersOk_construct.1 hb
    exact .and (zip_all' hl fun p hp => ih p hp (hw.sub (by simp [(List.of_mem_zip hp).1])) (hb p.2 (List.of_mem_zip hp).2))
  | @fall top vs t e toks l vars h1 h2 _ h5 ih =>
    intro hw hb
    obtain ⟨tl, t1, t2, t3, rfl⟩ := (hE.typed_iff (fun w hm => mem_varList hw hm)).1 ⟨toks, l, h1, h2, h5⟩
    simp only [mkForall, BindersOk, binders, List.forall_mem_append] at hb
    exact .forall (in_vars t1 t2 t3 (built_tags hb.1)) (ih (hw.sub (by simp)) hb.2)
  | @when top c t c' e h1 h2 =>
    intro hw hb
    simp only [BindersOk, binders, List.forall_mem_append] at hb
    exact .when ((hE.gd_iff (ρ := none) (hw.sub (by simp))).1 ⟨c', h1, acc_none.2 hb.1⟩) (CRel.in hE (condEffect_iff.1 h2) hb.2)
  | @oneof top args es h1 hl _ hr ih =>
    intro hw hb
    have hb := bindersOk_construct.1 hb
    refine .oneof (by rintro rfl; simp at h1) (zip_all' hl fun p hp => ih p hp (hw.sub (by simp [(List.of_mem_zip hp).1])) (hb p.2 (List.of_mem_zip hp).2)) ((one_iff hE).1 hr)
  | @lit top t e hk h =>
    intro _ hb
    refine .one (PRel.in hE (pEffect_iff.1 h) ?_ hb)
    intro w args ht
    obtain ⟨k1, k2⟩ := hk w args ht
    rw [List.mem_append, not_or]
    refine ⟨k1, ?_⟩
    split
    · rename_i h; simpa using k2 h
    · simp

theorem EffectIn.rel (hE : EnvIn Γ E) {top : Bool} {t : Tree} (h : EffectIn Γ top t) :
    WordsOk t → ∃ e, ERel E top t e ∧ BindersOk Γ.typeOk e := by
  induction h with
  | and _ ih =>
    intro hw
    obtain ⟨es, h1, h2⟩ := pairs_of fun t ht => ih t ht (hw.sub (by simp [ht]))
    exact ⟨_, .and h1 (fun p hp => (h2 p hp).1), construct_keeps bindersOk_cls (zip_all h1 fun p hp => (h2 p hp).2)⟩
  | @«forall» top vs l t hv _ ih =>
    intro hw
    obtain ⟨tl, t1, rfl, t2, t3⟩ := vars_in hv
    obtain ⟨e, h1, h2⟩ := ih (hw.sub (by simp))
    obtain ⟨toks, l, a1, a2, a3⟩ := (hE.typed_iff (fun w hm => mem_varList hw hm)).2 ⟨tl, t1, t2, t3, rfl⟩
    refine ⟨_, .fall a1 a2 h1 a3, ?_⟩
    simp only [mkForall, BindersOk, binders, List.forall_mem_append]
    refine ⟨fun v hvm x hx => ?_, h2⟩
    obtain ⟨p, hp, rfl⟩ := List.mem_map.1 (dedupBy_subset hvm)
    exact ((hv.2.1 p hp).2 x (dd_mem.1 hx)).2
  | when h1 h2 =>
    intro hw
    obtain ⟨c', g1, g2⟩ := (hE.gd_iff (hw.sub (by simp))).2 h1
    obtain ⟨e, e1, e2⟩ := CondEffectIn.rel hE h2
    refine ⟨_, .when g1 (condEffect_iff.2 e1), ?_⟩
    simp only [BindersOk, binders, List.forall_mem_append]
    exact ⟨acc_none.1 g2, e2⟩
  | @oneof top ts hne _ hr ih =>
    intro hw
    obtain ⟨es, h1, h2⟩ := pairs_of fun t ht => ih t ht (hw.sub (by simp [ht]))
    exact ⟨_, .oneof (List.length_pos_iff.2 hne) h1 (fun p hp => (h2 p hp).1) ((one_iff hE).2 hr),
      construct_keeps bindersOk_cls (zip_all h1 fun p hp => (h2 p hp).2)⟩
  | @one top t h =>
    intro _
    obtain ⟨e, h1, h2, h3⟩ := PEffectIn.rel hE (by cases top <;> simp [assignWords, effectWords]) h
    refine ⟨e, .lit ?_ (pEffect_iff.2 h1), h3⟩
    intro w args ht
    have := h2 w args ht
    rw [List.mem_append, not_or] at this
    refine ⟨this.1, ?_⟩
    rintro rfl
    simpa using this.2

theorem EnvIn.effect_iff (hE : EnvIn Γ E) {top : Bool} {t : Tree} (hw : WordsOk t) :
    (∃ e, E.effect top t = .ok e ∧ BindersOk Γ.typeOk e) ↔ EffectIn Γ top t := by
  simp only [Pddl.effect_iff]
  exact ⟨fun ⟨_, h1, h2⟩ => ERel.in hE h1 hw h2, fun h => EffectIn.rel hE h hw⟩

/-- The precondition of an action. -/
theorem EnvIn.preGd_iff (hE : EnvIn Γ E) {t : Tree} (hw : WordsOk t) :
    (∃ e, E.preGd t = .ok e ∧ BindersOk Γ.typeOk e) ↔ (t = .node [] ∨ GdIn Γ none t) := by
  have h0 : BindersOk Γ.typeOk (mkOr []) := construct_keeps bindersOk_cls (by simp)
  rw [← hE.gd_iff hw]
  simp only [acc_none]
  constructor
  · rintro ⟨e, h1, h2⟩
    unfold GEnv.preGd at h1
    split at h1
    · exact .inl rfl
    · exact .inr ⟨e, h1, h2⟩
  · rintro (rfl | ⟨e, h1, h2⟩)
    · exact ⟨_, rfl, h0⟩
    · refine ⟨e, ?_, h2⟩
      unfold GEnv.preGd
      split
      · simp [GEnv.gd] at h1
      · exact h1

/-- The effect of an action. -/
theorem EnvIn.effOpt_iff (hE : EnvIn Γ E) {t : Tree} (hw : WordsOk t) :
    (∃ e, E.effOpt t = .ok e ∧ BindersOk Γ.typeOk e) ↔ (t = .node [] ∨ EffectIn Γ true t) := by
  have h0 : BindersOk Γ.typeOk (mkOr []) := construct_keeps bindersOk_cls (by simp)
  rw [← hE.effect_iff hw]
  constructor
  · rintro ⟨e, h1, h2⟩
    unfold GEnv.effOpt at h1
    split at h1
    · exact .inl rfl
    · exact .inr ⟨e, h1, h2⟩
  · rintro (rfl | ⟨e, h1, h2⟩)
    · exact ⟨_, rfl, h0⟩
    · refine ⟨e, ?_, h2⟩
      unfold GEnv.effOpt
      split
      · simp [GEnv.effect, GEnv.pEffect] at h1
      · exact h1

end Pddl.Rules
