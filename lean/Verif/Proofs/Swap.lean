/-
Actions that do not influence each other.
-/
import Verif.Spec.Swap
import Verif.Proofs.Monotone

namespace Pddl
open Spec

/-- A predicate or a function of that name occurs. -/
def mentions (n : Str) (e : Expr) : Prop := (∃ p ∈ predsIn e, p.name = n) ∨ ∃ f ∈ funsIn e, f.name = n

variable {n : Str} {k : Kind}

theorem touches_mentions {e : Expr} (h : touches k n e) : mentions n e := by
  induction e using Expr.ind with
  | hpred p => exact .inl ⟨p, by simp [predsIn], h.2⟩
  | hbfun o as ih =>
    obtain ⟨_, h⟩ := h
    unfold touchesNum at h
    split at h
    · obtain ⟨_, f, hf, hn⟩ := h
      exact .inr ⟨f, by simp [funsIn, funsInAll, hf], hn⟩
    · exact h.elim
  | hbin o as ih =>
    obtain ⟨a, ha, h⟩ := touchesSome_iff.1 h
    rcases ih a ha h with ⟨p, hp, hn⟩ | ⟨f, hf, hn⟩
    · exact .inl ⟨p, mem_predsInAll.2 ⟨a, ha, hp⟩, hn⟩
    · exact .inr ⟨f, mem_funsInAll.2 ⟨a, ha, hf⟩, hn⟩
  | hnot a ih => obtain ⟨_, p, hp, hn⟩ := h; exact .inl ⟨p, hp, hn⟩
  | hwhen c e _ ih =>
    rcases ih h with ⟨p, hp, hn⟩ | ⟨f, hf, hn⟩
    · exact .inl ⟨p, by simp [predsIn, hp], hn⟩
    · exact .inr ⟨f, by simp [funsIn, hf], hn⟩
  | hfall vs e ih => exact ih h
  | heq | hnfun | hnum | hquant => exact h.elim

theorem inst_mentions {m : Mapping} {e g : Expr} (h : e.inst m = .ok g) (hm : mentions n g) : mentions n e := by
  rcases hm with ⟨p, hp, hn⟩ | ⟨f, hf, hn⟩
  · obtain ⟨p', h1, h2⟩ := inst_preds h p hp; exact .inl ⟨p', h1, h2.trans hn⟩
  · obtain ⟨f', h1, h2⟩ := inst_funs h f hf; exact .inr ⟨f', h1, h2.trans hn⟩

/-! ### Texts -/

/-- All names in the formula are words of the text. -/
def Words (t : Tree) (e : Expr) : Prop :=
  (∀ p ∈ predsIn e, Inside (.atom (.name p.name)) t) ∧ ∀ f ∈ funsIn e, Inside (.atom (.name f.name)) t

theorem Words.mono {s t : Tree} {e : Expr} (h : Words s e) (hi : Inside s t) : Words t e :=
  ⟨fun p hp => (h.1 p hp).trans hi, fun f hf => (h.2 f hf).trans hi⟩

theorem Words.bop {o : BOp} {t : Tree} {es : List Expr} (h : ∀ e ∈ es, Words t e) : Words t (construct (.bop o) es) :=
  ⟨predsIn_construct (fun e he => (h e he).1), funsIn_construct (fun e he => (h e he).2)⟩

theorem Words.fop {o : FOp} {t : Tree} {es : List Expr} (h : ∀ e ∈ es, Words t e) : Words t (construct (.fop o) es) := by
  refine ⟨?_, funsIn_construct (fun e he => (h e he).2)⟩
  obtain ⟨as, he⟩ := construct_fop_node o es
  rw [he]
  simp [predsIn]

theorem Words.pairs {h : Tree} {args : List Tree} {es : List Expr} (hl : args.length = es.length) (hp : ∀ p ∈ args.zip es, Words p.1 p.2) :
    ∀ e ∈ es, Words (.node (h :: args)) e := by
  intro e he
  obtain ⟨t, hm⟩ := zip_right hl he
  exact (hp _ hm).mono (.node (List.mem_cons_of_mem _ (List.of_mem_zip hm).1) .refl)

theorem inside_head {w : Str} {args : List Tree} : Inside (.atom (.name w)) (.node (.atom (.name w) :: args)) :=
  .node (by simp) .refl

theorem fHead_words {E : GEnv} {t : Tree} {f : NFun} (h : E.fHead t = .ok f) : Inside (.atom (.name f.name)) t := by
  unfold GEnv.fHead at h
  split at h
  · obtain ⟨_, rfl⟩ := mkNFun_ok.1 h; exact .refl
  · obtain ⟨ts, ht, h⟩ := bind_ok_iff.1 h
    obtain ⟨_, rfl⟩ := mkNFun_ok.1 h; exact inside_head
  · simp at h

theorem FRel.words {E : GEnv} {t : Tree} {e : Expr} (h : FRel E t e) : Words t e := by
  have hf : ∀ {t : Tree} {f : NFun}, Inside (.atom (.name f.name)) t → Words t (.nfun f) := fun h =>
    ⟨by simp [predsIn], by simpa [funsIn] using h⟩
  induction h with
  | num _ => exact ⟨by simp [predsIn], by simp [funsIn]⟩
  | plus _ hl _ ih => exact .fop (.pairs hl ih)
  | times _ hl _ ih => exact .fop (.pairs hl ih)
  | divide _ _ h1 h2 =>
    refine .fop (fun x hx => ?_)
    simp only [List.mem_cons, List.not_mem_nil, or_false] at hx
    rcases hx with rfl | rfl
    · exact h1.mono (.node (by simp) .refl)
    · exact h2.mono (.node (by simp) .refl)
  | minus _ h =>
    refine .fop (fun x hx => ?_)
    simp only [List.mem_singleton] at hx
    subst hx
    exact h.mono (.node (by simp) .refl)
  | fn0 h => obtain ⟨_, rfl⟩ := mkNFun_ok.1 h; exact hf .refl
  | fn _ h => obtain ⟨_, rfl⟩ := mkNFun_ok.1 h; exact hf inside_head

theorem atomic_words {E : GEnv} {a : List Tree} {e : Expr} (h : E.atomic a = .ok e) : Words (.node a) e := by
  rcases atomic_named h with ⟨w, args, p, rfl, rfl, rfl, _⟩ | ⟨l, r, rfl⟩
  · exact ⟨by simpa [predsIn] using inside_head, by simp [funsIn]⟩
  · exact ⟨by simp [predsIn], by simp [funsIn]⟩

theorem GRel.words {E : GEnv} {t : Tree} {e : Expr} (h : GRel E t e) : Words t e := by
  induction h with
  | and hl _ ih => exact .bop (.pairs hl ih)
  | or hl _ _ ih => exact .bop (.pairs hl ih)
  | not _ ih => exact ih.mono (.node (by simp) .refl)
  | imply _ _ _ h1 h2 =>
    refine .bop (fun x hx => ?_)
    simp only [List.mem_cons, List.not_mem_nil, or_false] at hx
    rcases hx with rfl | rfl
    · exact h1.mono (.node (by simp) .refl)
    · exact h2.mono (.node (by simp) .refl)
  | quant _ _ _ _ _ ih => exact ih.mono (.node (by simp) .refl)
  | atom _ _ h =>
    obtain ⟨_, _, rfl⟩ := mkPred_ok.1 h
    exact ⟨by simpa [predsIn] using inside_head, by simp [funsIn]⟩
  | eq _ _ _ h => obtain ⟨_, rfl⟩ := mkEq_ok.1 h; exact ⟨by simp [predsIn], by simp [funsIn]⟩
  | comp _ _ h1 h2 =>
    refine .fop (fun x hx => ?_)
    simp only [List.mem_cons, List.not_mem_nil, or_false] at hx
    rcases hx with rfl | rfl
    · exact (fExp_rel h1).words.mono (.node (by simp) .refl)
    · exact (fExp_rel h2).words.mono (.node (by simp) .refl)

theorem PRel.words {E : GEnv} {t : Tree} {e : Expr} (h : PRel E t e) : Words t e := by
  cases h with
  | not h =>
    have k := atomic_words h
    exact Words.mono (e := .not _) ⟨k.1, k.2⟩ (.node (by simp) .refl)
  | assign _ h1 h2 =>
    refine .fop (fun x hx => ?_)
    simp only [List.mem_cons, List.not_mem_nil, or_false] at hx
    rcases hx with rfl | rfl
    · exact ⟨by simp [predsIn], by
        simp only [funsIn, List.mem_singleton, forall_eq]
        exact (fHead_words h1).trans (.node (by simp) .refl)⟩
    · exact (fExp_rel h2).words.mono (.node (by simp) .refl)
  | atom _ _ h => exact atomic_words h
  | eq h => exact atomic_words h

theorem CRel.words {E : GEnv} {t : Tree} {e : Expr} (h : CRel E t e) : Words t e := by
  cases h with
  | and h => exact .bop (.pairs h.1 (fun p hp => (h.2 p hp).words))
  | one _ h => exact h.words

theorem ERel.words {E : GEnv} {top : Bool} {t : Tree} {e : Expr} (h : ERel E top t e) : Words t e := by
  induction h with
  | and hl _ ih => exact .bop (.pairs hl ih)
  | fall _ _ _ _ ih => exact (show Words _ (.fall _ _) from ih).mono (.node (by simp) .refl)
  | when h1 h2 =>
    have k1 := (gd_iff.1 h1).words
    have k2 := (condEffect_iff.1 h2).words
    refine ⟨fun p hp => ?_, fun f hf => ?_⟩
    · rcases List.mem_append.1 hp with hp | hp
      · exact (k1.1 p hp).trans (.node (by simp) .refl)
      · exact (k2.1 p hp).trans (.node (by simp) .refl)
    · rcases List.mem_append.1 hf with hf | hf
      · exact (k1.2 f hf).trans (.node (by simp) .refl)
      · exact (k2.2 f hf).trans (.node (by simp) .refl)
  | oneof _ hl _ _ ih => exact .bop (.pairs hl ih)
  | lit _ h => exact (pEffect_iff.1 h).words

theorem preGd_words {E : GEnv} {t : Tree} {e : Expr} (h : E.preGd t = .ok e) : Words t e := by
  unfold GEnv.preGd at h
  split at h
  · simp only [pure_ok, Except.ok.injEq] at h; subst h; exact .bop (by simp)
  · exact (gd_iff.1 h).words

theorem effOpt_words {E : GEnv} {t : Tree} {e : Expr} (h : E.effOpt t = .ok e) : Words t e := by
  unfold GEnv.effOpt at h
  split at h
  · simp only [pure_ok, Except.ok.injEq] at h; subst h; exact .bop (by simp)
  · exact (effect_iff.1 h).words

/-! ### States -/

variable {D : Type} {I I' : Interp D}

/-- The states agree on the names that the formula mentions. -/
structure AgreeOn (e : Expr) (I I' : Interp D) : Prop where
  const : I'.const = I.const
  ty : I'.ty = I.ty
  pred : ∀ n, mentions n e → I'.pred n = I.pred n
  fn : ∀ n, mentions n e → I'.fn n = I.fn n

theorem AgreeOn.sub {e a : Expr} (h : AgreeOn e I I') (hs : ∀ n, mentions n a → mentions n e) : AgreeOn a I I' :=
  ⟨h.const, h.ty, fun n hn => h.pred n (hs n hn), fun n hn => h.fn n (hs n hn)⟩

theorem mentions_bin {o : BOp} {as : List Expr} {a : Expr} (ha : a ∈ as) : mentions n a → mentions n (.bin o as) := by
  rintro (⟨p, hp, hn⟩ | ⟨f, hf, hn⟩)
  · exact .inl ⟨p, mem_predsInAll.2 ⟨a, ha, hp⟩, hn⟩
  · exact .inr ⟨f, mem_funsInAll.2 ⟨a, ha, hf⟩, hn⟩

theorem value_on (hc : I'.const = I.const) {e : Expr} (h : ∀ f ∈ funsIn e, I'.fn f.name = I.fn f.name) (ρ : Str → D) :
    value I' ρ e = value I ρ e := by
  induction e using Expr.ind with
  | hnfun f => simp only [value, denote_same hc, h f (by simp [funsIn])]
  | hbfun o as ih =>
    have : ∀ l : List Expr, (∀ a ∈ l, value I' ρ a = value I ρ a) → values I' ρ l = values I ρ l := by
      intro l hl
      induction l with
      | nil => rfl
      | cons a l ih => simp only [values, hl a (by simp), ih (fun x hx => hl x (List.mem_cons_of_mem _ hx))]
    simp only [value, this as (fun a ha => ih a ha (fun f hf => h f (mem_funsInAll.2 ⟨a, ha, hf⟩)))]
  | _ => simp only [value]

theorem values_on (hc : I'.const = I.const) {as : List Expr} (h : ∀ f ∈ funsInAll as, I'.fn f.name = I.fn f.name) (ρ : Str → D) :
    values I' ρ as = values I ρ as := by
  induction as with
  | nil => rfl
  | cons a as ih =>
    simp only [values, value_on hc (e := a) (fun f hf => h f (by simp [funsInAll, hf])) ρ,
      ih (fun f hf => h f (by simp [funsInAll, hf]))]

theorem holds_on {e : Expr} (h : AgreeOn e I I') (ρ : Str → D) : holds I' e ρ ↔ holds I e ρ := by
  induction e using Expr.ind generalizing ρ with
  | hpred p => simp only [holds, denote_same h.const, h.pred p.name (.inl ⟨p, by simp [predsIn], rfl⟩)]
  | heq l r => simp only [holds, denote_same h.const]
  | hnfun f => rfl
  | hnum _ => rfl
  | hbfun o as ih =>
    simp only [holds]
    rw [values_on h.const (fun f hf => h.fn f.name (.inr ⟨f, hf, rfl⟩))]
  | hbin o as ih =>
    have key : ∀ a ∈ as, (holds I' a ρ ↔ holds I a ρ) := fun a ha => ih a ha (h.sub fun n => mentions_bin ha) ρ
    cases o with
    | and => simp only [holds, holdsAll_iff]; exact forall₂_congr key
    | or => simp only [holds, holdsSome_iff]; exact exists_congr fun a => and_congr_right fun ha => key a ha
    | imply =>
      simp only [holds]
      match as, key with
      | [], _ => rfl
      | [_], _ => rfl
      | [a, b], key => simp only [holdsImply, key a (by simp), key b (by simp)]
      | _ :: _ :: _ :: _, _ => rfl
    | oneof => rfl
  | hnot a ih => simp only [holds]; exact not_congr (ih (h.sub fun n hn => hn) ρ)
  | hquant q vs c ih =>
    have key := ih (h.sub fun n hn => hn)
    cases q with
    | all => simp only [holds, rebind_same h.ty, key]
    | ex => simp only [holds, rebind_same h.ty, key]
  | hwhen c e _ _ => rfl
  | hfall vs e _ => rfl

theorem makes_on {e : Expr} (h : AgreeOn e I I') (c : Change D) (ρ : Str → D) : makes I' c e ρ ↔ makes I c e ρ := by
  have hs : ∀ (as : List Expr) (ρ : Str → D), (∀ a ∈ as, makes I' c a ρ ↔ makes I c a ρ) → (makesSome I' c as ρ ↔ makesSome I c as ρ) := by
    intro as ρ h
    induction as with
    | nil => rfl
    | cons a as ih => simp only [makesSome, h a (by simp), ih (fun x hx => h x (List.mem_cons_of_mem _ hx))]
  induction e using Expr.ind generalizing ρ with
  | hpred p => simp only [makes, denote_same h.const]
  | hbfun o as ih =>
    simp only [makes]
    unfold updated
    split
    · rename_i f x
      rw [denote_same h.const, value_on h.const (e := x) (fun f hf => h.fn f.name (.inr ⟨f, by simp [funsIn, funsInAll, hf], rfl⟩))]
    · rfl
  | hbin o as ih =>
    cases o <;> simp only [makes]
    exact hs as ρ (fun a ha => ih a ha (h.sub fun n => mentions_bin ha) ρ)
  | hnot a ih => simp only [makes]; unfold deletes; split <;> simp only [denote_same h.const]
  | hwhen c e _ ih =>
    have hl : ∀ n, mentions n c → mentions n (.when c e) := by
      rintro n (⟨p, hp, hn⟩ | ⟨f, hf, hn⟩)
      · exact .inl ⟨p, by simp [predsIn, hp], hn⟩
      · exact .inr ⟨f, by simp [funsIn, hf], hn⟩
    have hr : ∀ n, mentions n e → mentions n (.when c e) := by
      rintro n (⟨p, hp, hn⟩ | ⟨f, hf, hn⟩)
      · exact .inl ⟨p, by simp [predsIn, hp], hn⟩
      · exact .inr ⟨f, by simp [funsIn, hf], hn⟩
    simp only [makes, ih (h.sub hr) ρ, holds_on (h.sub hl) ρ]
  | hfall vs e ih => simp only [makes, rebind_same h.ty, ih (h.sub fun n hn => hn)]
  | _ => simp only [makes]

/-- Nothing the first action changes is mentioned in the second. -/
def LeavesAlone (g h : Action) : Prop := ∀ k n e, g.eff = some e → touches k n e → ∀ e', PartOf h e' → ¬ mentions n e'

theorem acts_swap {ρ : Str → D} {g h : Action} (h1 : LeavesAlone g h) (h2 : LeavesAlone h g) {I J K : Interp D}
    (hg : Acts ρ g I J) (hh : Acts ρ h J K) : ∃ J', Acts ρ h I J' ∧ Acts ρ g J' K := by
  classical
  let T : Str → Prop := fun n => ∃ k e, h.eff = some e ∧ touches k n e
  let J' : Interp D := ⟨I.const, I.ty, fun n => if T n then K.pred n else I.pred n, fun n => if T n then K.fn n else I.fn n⟩
  -- what `g` does not touch
  have gsame : ∀ n, (∀ k e, g.eff = some e → ¬ touches k n e) → J.pred n = I.pred n ∧ J.fn n = I.fn n := by
    intro n hn
    have hno : ∀ c : Change D, (changeOf c).2 = n → ¬ ∃ e, g.eff = some e ∧ makes I c e ρ := by
      rintro c rfl ⟨e, he, hm⟩; exact hn _ e he (makes_touches hm)
    refine ⟨funext fun ds => propext ?_, funext fun ds => hg.2.same n ds (fun op v => hno (.num op n ds v) rfl)⟩
    rw [hg.2.pred n ds]
    simp only [hno (.add n ds) rfl, hno (.del n ds) rfl, false_or, not_false_eq_true, and_true]
  have hsame : ∀ n, ¬ T n → K.pred n = J.pred n ∧ K.fn n = J.fn n := by
    intro n hn
    have hno : ∀ c : Change D, (changeOf c).2 = n → ¬ ∃ e, h.eff = some e ∧ makes J c e ρ := by
      rintro c rfl ⟨e, he, hm⟩; exact hn ⟨_, e, he, makes_touches hm⟩
    refine ⟨funext fun ds => propext ?_, funext fun ds => hh.2.same n ds (fun op v => hno (.num op n ds v) rfl)⟩
    rw [hh.2.pred n ds]
    simp only [hno (.add n ds) rfl, hno (.del n ds) rfl, false_or, not_false_eq_true, and_true]
  have hT : ∀ n, T n → ∀ k e, g.eff = some e → ¬ touches k n e := by
    rintro n ⟨k, e, he, ht⟩ k' e' he' ht'
    exact h1 k' n e' he' ht' e (.inr he) (touches_mentions ht)
  -- `h` sees the same in `I` and `J`
  have honI : ∀ e, PartOf h e → AgreeOn e I J := fun e he => by
    refine ⟨hg.2.const, hg.2.ty, fun n hn => ?_, fun n hn => ?_⟩
    · exact (gsame n fun k e' he' ht => h1 k n e' he' ht e he hn).1
    · exact (gsame n fun k e' he' ht => h1 k n e' he' ht e he hn).2
  -- `g` sees the same in `I` and `J'`
  have gonI : ∀ e, PartOf g e → AgreeOn e I J' := fun e he => by
    have hnT : ∀ n, mentions n e → ¬ T n := by
      rintro n hn ⟨k, e', he', ht⟩; exact h2 k n e' he' ht e he hn
    refine ⟨rfl, rfl, fun n hn => ?_, fun n hn => ?_⟩
    · exact if_neg (hnT n hn)
    · exact if_neg (hnT n hn)
  have hC : ∀ c, (∃ e, h.eff = some e ∧ makes J c e ρ) ↔ ∃ e, h.eff = some e ∧ makes I c e ρ := fun c =>
    exists_congr fun e => and_congr_right fun he => makes_on (honI e (.inr he)) c ρ
  have gC : ∀ c, (∃ e, g.eff = some e ∧ makes J' c e ρ) ↔ ∃ e, g.eff = some e ∧ makes I c e ρ := fun c =>
    exists_congr fun e => and_congr_right fun he => makes_on (gonI e (.inr he)) c ρ
  have hpred : ∀ n, T n → J'.pred n = K.pred n ∧ J'.fn n = K.fn n := fun n hn => ⟨if_pos hn, if_pos hn⟩
  have hpred' : ∀ n, ¬ T n → J'.pred n = I.pred n ∧ J'.fn n = I.fn n := fun n hn => ⟨if_neg hn, if_neg hn⟩
  refine ⟨J', ⟨fun e he => (holds_on (honI e (.inl he)) ρ).1 (hh.1 e he), rfl, rfl, ?_, ?_, ?_⟩,
    ⟨fun e he => (holds_on (gonI e (.inl he)) ρ).2 (hg.1 e he), hh.2.const.trans hg.2.const, hh.2.ty.trans hg.2.ty, ?_, ?_, ?_⟩⟩
  · intro n ds
    by_cases hn : T n
    · rw [(hpred n hn).1, hh.2.pred n ds, hC, hC, (gsame n (hT n hn)).1]
    · rw [(hpred' n hn).1]
      have hno : ∀ c : Change D, (changeOf c).2 = n → ¬ ∃ e, h.eff = some e ∧ makes I c e ρ := by
        rintro c rfl ⟨e, he, hm⟩; exact hn ⟨_, e, he, makes_touches hm⟩
      simp only [hno (.add n ds) rfl, hno (.del n ds) rfl, false_or, not_false_eq_true, and_true]
  · intro f ds hc
    by_cases hn : T f
    · rw [(hpred f hn).2, hh.2.same f ds (fun op v hc' => hc op v ((hC _).1 hc')), (gsame f (hT f hn)).2]
    · rw [(hpred' f hn).2]
  · intro f ds op v hc hu
    have hn : T f := by obtain ⟨e, he, hm⟩ := hc; exact ⟨_, e, he, makes_touches hm⟩
    rw [(hpred f hn).2, hh.2.updated f ds op v ((hC _).2 hc) (fun op' v' hc' => hu op' v' ((hC _).1 hc')), (gsame f (hT f hn)).2]
  · intro n ds
    by_cases hn : T n
    · rw [(hpred n hn).1]
      have hno : ∀ c : Change D, (changeOf c).2 = n → ¬ ∃ e, g.eff = some e ∧ makes J' c e ρ := by
        rintro c rfl ⟨e, he, hm⟩; exact hT _ hn _ e he (makes_touches hm)
      simp only [hno (.add n ds) rfl, hno (.del n ds) rfl, false_or, not_false_eq_true, and_true]
    · rw [(hsame n hn).1, (hpred' n hn).1, hg.2.pred n ds, gC, gC]
  · intro f ds hc
    by_cases hn : T f
    · rw [(hpred f hn).2]
    · rw [(hsame f hn).2, (hpred' f hn).2, hg.2.same f ds (fun op v hc' => hc op v ((gC _).2 hc'))]
  · intro f ds op v hc hu
    have hn : ¬ T f := by
      intro hn
      obtain ⟨e, he, hm⟩ := hc
      exact hT f hn _ e he (makes_touches hm)
    rw [(hsame f hn).2, (hpred' f hn).2, hg.2.updated f ds op v ((gC _).1 hc) (fun op' v' hc' => hu op' v' ((gC _).2 hc'))]

end Pddl
