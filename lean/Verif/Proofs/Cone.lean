/-
What the conditions of a text depend on.
-/
import Verif.Spec.Cone
import Verif.Proofs.Swap

namespace Pddl
open Spec

variable {R : Str → Prop}

/-- All names in the formula are in `R`. -/
def NamedIn (R : Str → Prop) (e : Expr) : Prop := ∀ n, mentions n e → R n

/-- The value with which a fluent in `R` is updated has its names in `R`. -/
def feedsNum (R : Str → Prop) (o : FOp) : List Expr → Prop
  | [a, v] => updates o = true → (∃ f ∈ funsIn a, R f.name) → NamedIn R v
  | _ => True

mutual
/-- `Feeds` for objects. -/
def feedsE (R : Str → Prop) : Expr → Prop
  | .bfun o as => feedsNum R o as
  | .bin _ as => feedsEAll R as
  | .when c e => NamedIn R c ∧ feedsE R e
  | .fall _ e => feedsE R e
  | _ => True
def feedsEAll (R : Str → Prop) : List Expr → Prop
  | [] => True
  | a :: as => feedsE R a ∧ feedsEAll R as
end

theorem feedsEAll_iff {as : List Expr} : feedsEAll R as ↔ ∀ a ∈ as, feedsE R a := by
  induction as with
  | nil => simp [feedsEAll]
  | cons a as ih => simp [feedsEAll, ih]

theorem FeedsAll_iff {ts : List Tree} : FeedsAll R ts ↔ ∀ t ∈ ts, Feeds R t := by
  induction ts with
  | nil => simp [FeedsAll]
  | cons a as ih => simp [FeedsAll, ih]

theorem feedsE_bop {o : BOp} {es : List Expr} (h : ∀ e ∈ es, feedsE R e) : feedsE R (construct (.bop o) es) := by
  rcases construct_read (P := fun e => feedsE R e) (.bop o) (fun as hp => by
    simp only [Expr.ofCls, feedsE] at hp; exact feedsEAll_iff.1 hp) h with ⟨hp, _⟩ | ⟨as, he, has⟩
  · exact hp
  · rw [he]; simp only [Expr.ofCls, feedsE]; exact feedsEAll_iff.2 has

theorem feedsE_fop {o : FOp} {es : List Expr} (h : feedsNum R o es) : feedsE R (construct (.fop o) es) := by
  by_cases ho : updates o = true
  · rw [construct_assign (by cases o <;> simp_all [updates, IsAssignment]) es]
    exact h
  · obtain ⟨as, he⟩ := construct_fop_node o es
    rw [he]
    simp only [feedsE]
    unfold feedsNum
    split
    · exact fun hu => absurd hu ho
    · trivial

theorem Words.namedIn {t : Tree} {e : Expr} (h : Words t e) (hR : NamesIn R t) : NamedIn R e := by
  rintro n (⟨p, hp, rfl⟩ | ⟨f, hf, rfl⟩)
  · exact hR _ (h.1 p hp)
  · exact hR _ (h.2 f hf)

/-! ### Texts -/

theorem Feeds_joined {w : Str} {args : List Tree} (h : w = s%"and" ∨ w = s%"oneof") :
    Feeds R (.node (.atom (.name w) :: args)) ↔ FeedsAll R args := by
  unfold Feeds
  rw [if_pos h]

theorem Feeds_forall {x e : Tree} : Feeds R (.node [.atom (.name s%"forall"), x, e]) ↔ Feeds R e := by
  simp only [Feeds]
  rw [if_neg (by decide), if_pos trivial]

theorem Feeds_when {c e : Tree} : Feeds R (.node [.atom (.name s%"when"), c, e]) ↔ NamesIn R c ∧ Feeds R e := by
  simp only [Feeds]
  rw [if_neg (by decide), if_neg (by decide), if_pos trivial]

theorem atomic_feeds {E : GEnv} {a : List Tree} {e : Expr} (h : E.atomic a = .ok e) : feedsE R e := by
  rcases atomic_named h with ⟨w, args, p, rfl, rfl, rfl, _⟩ | ⟨l, r, rfl⟩ <;> trivial

theorem PRel.feeds {E : GEnv} {t : Tree} {e : Expr} (h : PRel E t e) (hf : Feeds R t) : feedsE R e := by
  cases h with
  | not h => trivial
  | @assign w op h x f e h1 h2 h3 =>
    refine feedsE_fop ?_
    obtain ⟨n1, n2, n3, n4, n5⟩ := assign_not_keyword h1
    simp only [Feeds, n1, n2, n3, n4, or_self, if_false, updateWord_eq, h1] at hf
    rintro _ ⟨g, hg, hr⟩
    simp only [funsIn, List.mem_singleton] at hg
    subst hg
    exact (fExp_rel h3).words.namedIn (hf _ (fHead_name h2) hr x (by simp))
  | atom _ h2 h => exact atomic_feeds h
  | eq h => exact atomic_feeds h

theorem CRel.feeds {E : GEnv} {t : Tree} {e : Expr} (h : CRel E t e) (hf : Feeds R t) : feedsE R e := by
  cases h with
  | and h =>
    rw [Feeds_joined (.inl rfl), FeedsAll_iff] at hf
    refine feedsE_bop (fun e he => ?_)
    obtain ⟨t, hm⟩ := zip_right h.1 he
    exact (h.2 _ hm).feeds (hf t (List.of_mem_zip hm).1)
  | one _ h => exact h.feeds hf

theorem ERel.feeds {E : GEnv} {top : Bool} {t : Tree} {e : Expr} (h : ERel E top t e) (hf : Feeds R t) : feedsE R e := by
  induction h with
  | and hl _ ih =>
    rw [Feeds_joined (.inl rfl), FeedsAll_iff] at hf
    refine feedsE_bop (fun e he => ?_)
    obtain ⟨t, hm⟩ := zip_right hl he
    exact ih _ hm (hf t (List.of_mem_zip hm).1)
  | fall _ _ _ _ ih => exact ih (Feeds_forall.1 hf)
  | when h1 h2 =>
    obtain ⟨k1, k2⟩ := Feeds_when.1 hf
    exact ⟨(gd_iff.1 h1).words.namedIn k1, (condEffect_iff.1 h2).feeds k2⟩
  | oneof _ hl _ _ ih =>
    rw [Feeds_joined (.inr rfl), FeedsAll_iff] at hf
    refine feedsE_bop (fun e he => ?_)
    obtain ⟨t, hm⟩ := zip_right hl he
    exact ih _ hm (hf t (List.of_mem_zip hm).1)
  | lit _ h => exact (pEffect_iff.1 h).feeds hf

theorem effOpt_feeds {E : GEnv} {t : Tree} {e : Expr} (h : E.effOpt t = .ok e) (hf : Feeds R t) : feedsE R e := by
  unfold GEnv.effOpt at h
  split at h
  · simp only [pure_ok, Except.ok.injEq] at h; subst h; exact feedsE_bop (by simp)
  · exact (effect_iff.1 h).feeds hf

/-! ### Instances -/

theorem inst_namedIn {m : Mapping} {e g : Expr} (h : e.inst m = .ok g) (he : NamedIn R e) : NamedIn R g :=
  fun n hn => he n (inst_mentions h hn)

theorem inst_feeds {m : Mapping} {e g : Expr} (h : e.inst m = .ok g) (hf : feedsE R e) : feedsE R g := by
  induction e using Expr.ind generalizing g with
  | hpred p => obtain ⟨_, _, rfl⟩ := inst_pred_ok.mp h; trivial
  | heq l r => obtain ⟨_, rfl⟩ := inst_eq_ok.mp h; trivial
  | hnfun f => obtain ⟨_, rfl⟩ := inst_nfun_ok.mp h; trivial
  | hnum _ => have := inst_num_ok.mp h; subst this; trivial
  | hbfun o as ih =>
    obtain ⟨bs, h2, rfl⟩ := inst_bfun_ok.mp h
    refine feedsE_fop ?_
    unfold feedsNum
    split
    · rename_i b1 b2
      rintro hu ⟨f, hm, hr⟩
      match as, h2, hf with
      | [a1, a2], .cons e1 (.cons e2 .nil), hf =>
        obtain ⟨f', h3, h4⟩ := inst_funs e1 f hm
        exact inst_namedIn e2 (hf hu ⟨f', h3, by rw [h4]; exact hr⟩)
    · trivial
  | hbin o as ih =>
    obtain ⟨bs, h2, rfl⟩ := inst_bin_ok.mp h
    refine feedsE_bop (fun b hb => ?_)
    obtain ⟨a, ha, e⟩ := forall2_mem h2 b hb
    exact ih a ha e (feedsEAll_iff.1 hf a ha)
  | hnot a ih => obtain ⟨b, h1, rfl⟩ := inst_not_ok.mp h; trivial
  | hquant q vs c ih => obtain ⟨b, h1, rfl⟩ := inst_quant_ok.mp h; trivial
  | hwhen c e _ _ => rw [inst_when] at h; simp at h
  | hfall vs e _ => rw [inst_fall] at h; simp at h

/-! ### States -/

variable {D : Type} {I I' : Interp D}

theorem Spec.SameOn.agree {e : Expr} (h : SameOn R I I') (he : NamedIn R e) : AgreeOn e I I' :=
  ⟨h.const, h.ty, fun n hn => h.pred n (he n hn), fun n hn => h.fn n (he n hn)⟩

theorem makes_sameOn {e : Expr} (h : SameOn R I I') (hf : feedsE R e) {c : Change D} (hc : R (changeOf c).2) (ρ : Str → D) :
    makes I' c e ρ ↔ makes I c e ρ := by
  have hs : ∀ (as : List Expr) (ρ : Str → D), (∀ a ∈ as, makes I' c a ρ ↔ makes I c a ρ) → (makesSome I' c as ρ ↔ makesSome I c as ρ) := by
    intro as ρ h
    induction as with
    | nil => rfl
    | cons a as ih => simp only [makesSome, h a (by simp), ih (fun x hx => h x (List.mem_cons_of_mem _ hx))]
  induction e using Expr.ind generalizing ρ with
  | hpred p => simp only [makes, denote_same h.const]
  | hbfun o as ih =>
    simp only [makes]
    unfold updated
    split
    · rename_i f x
      rw [denote_same h.const]
      refine and_congr_right fun hu => exists_congr fun v => and_congr_left fun he => ?_
      subst he
      have hx : NamedIn R x := hf hu ⟨f, by simp [funsIn], hc⟩
      rw [value_on h.const (e := x) (fun f hf => h.fn f.name (hx _ (.inr ⟨f, hf, rfl⟩)))]
    · rfl
  | hbin o as ih =>
    cases o <;> simp only [makes]
    exact hs as ρ (fun a ha => ih a ha (feedsEAll_iff.1 hf a ha) ρ)
  | hnot a ih => simp only [makes]; unfold deletes; split <;> simp only [denote_same h.const]
  | hwhen c e _ ih => simp only [makes, ih hf.2 ρ, holds_on (h.agree hf.1) ρ]
  | hfall vs e ih => simp only [makes, rebind_same h.ty, ih hf]
  | _ => simp only [makes]

/-- There is a state after any changes. -/
theorem next_exists (C : Change D → Prop) (I : Interp D) (R : Str → Prop) (v : Str → List D → Option Rat)
    (hsame : ∀ f ds, R f → (∀ op v, ¬ C (.num op f ds v)) → v f ds = I.fn f ds)
    (hupd : ∀ f ds op x, R f → C (.num op f ds x) → (∀ op' x', C (.num op' f ds x') → op' = op ∧ x' = x) →
      v f ds = update op (I.fn f ds) x) : ∃ J, Next C I J ∧ ∀ f, R f → J.fn f = v f := by
  classical
  refine ⟨⟨I.const, I.ty, fun p ds => C (.add p ds) ∨ I.pred p ds ∧ ¬ C (.del p ds), fun f ds =>
    if R f then v f ds else if h : ∃ q : FOp × Rat, C (.num q.1 f ds q.2) then update h.choose.1 (I.fn f ds) h.choose.2
      else I.fn f ds⟩, ⟨rfl, rfl, fun _ _ => Iff.rfl, fun f ds hn => ?_, fun f ds op x hc hu => ?_⟩, fun f hf => ?_⟩
  · by_cases hf : R f
    · simp only [if_pos hf]; exact hsame f ds hf hn
    · simp only [if_neg hf]
      rw [dif_neg (by rintro ⟨q, hq⟩; exact hn _ _ hq)]
  · by_cases hf : R f
    · simp only [if_pos hf]; exact hupd f ds op x hf hc hu
    · simp only [if_neg hf]
      have hex : ∃ q : FOp × Rat, C (.num q.1 f ds q.2) := ⟨(op, x), hc⟩
      rw [dif_pos hex]
      obtain ⟨e1, e2⟩ := hu _ _ hex.choose_spec
      rw [e1, e2]
  · funext ds; simp only [if_pos hf]

/-- The precondition and the updates of the action have their names in `R`. -/
structure CoveredBy (R : Str → Prop) (g : Action) : Prop where
  pre : ∀ e, g.pre = some e → NamedIn R e
  eff : ∀ e, g.eff = some e → feedsE R e

theorem acts_same {ρ : Str → D} {g : Action} {J : Interp D} (hg : CoveredBy R g) (h : SameOn R I I') (ha : Acts ρ g I J) :
    ∃ J', Acts ρ g I' J' ∧ SameOn R J J' := by
  have hC : ∀ c : Change D, R (changeOf c).2 → ((∃ e, g.eff = some e ∧ makes I' c e ρ) ↔ ∃ e, g.eff = some e ∧ makes I c e ρ) :=
    fun c hc => exists_congr fun e => and_congr_right fun he => makes_sameOn h (hg.eff e he) hc ρ
  obtain ⟨J', hn, hv⟩ := next_exists (fun c => ∃ e, g.eff = some e ∧ makes I' c e ρ) I' R J.fn
    (fun f ds hf hno => by
      rw [h.fn f hf]
      exact ha.2.same f ds (fun op v hm => hno op v ((hC (.num op f ds v) hf).2 hm)))
    (fun f ds op x hf hc hu => by
      rw [h.fn f hf]
      exact ha.2.updated f ds op x ((hC (.num op f ds x) hf).1 hc) (fun op' x' hm => hu op' x' ((hC (.num op' f ds x') hf).2 hm)))
  refine ⟨J', ⟨fun e he => (holds_on (h.agree (hg.pre e he)) ρ).2 (ha.1 e he), hn⟩, ?_, ?_, ?_, hv⟩
  · rw [hn.const, ha.2.const, h.const]
  · rw [hn.ty, ha.2.ty, h.ty]
  · intro n hR
    funext ds
    apply propext
    rw [hn.pred n ds, ha.2.pred n ds, hC (.add n ds) hR, hC (.del n ds) hR, h.pred n hR]

/-- An action that changes nothing in `R`. -/
theorem acts_useless {ρ : Str → D} {g : Action} {J : Interp D} (hg : ∀ k n e, R n → g.eff = some e → ¬ touches k n e)
    (ha : Acts ρ g I J) : SameOn R J I := by
  have hno : ∀ c : Change D, R (changeOf c).2 → ¬ ∃ e, g.eff = some e ∧ makes I c e ρ := by
    rintro c hc ⟨e, he, hm⟩; exact hg _ _ e hc he (makes_touches hm)
  refine ⟨ha.2.const.symm, ha.2.ty.symm, fun n hn => funext fun ds => propext ?_, fun n hn => funext fun ds => ?_⟩
  · rw [ha.2.pred n ds]
    simp only [hno (.add n ds) hn, hno (.del n ds) hn, false_or, not_false_eq_true, and_true]
  · exact (ha.2.same n ds (fun op v => hno (.num op n ds v) hn)).symm

theorem Spec.SameOn.refl : SameOn R I I := ⟨rfl, rfl, fun _ _ => rfl, fun _ _ => rfl⟩

theorem Spec.SameOn.symm (h : SameOn R I I') : SameOn R I' I :=
  ⟨h.const.symm, h.ty.symm, fun n hn => (h.pred n hn).symm, fun n hn => (h.fn n hn).symm⟩

theorem Spec.SameOn.trans {I'' : Interp D} (h : SameOn R I I') (h' : SameOn R I' I'') : SameOn R I I'' :=
  ⟨h'.const.trans h.const, h'.ty.trans h.ty, fun n hn => (h'.pred n hn).trans (h.pred n hn),
    fun n hn => (h'.fn n hn).trans (h.fn n hn)⟩

/-- A list without some actions that change nothing in `R`; the others depend on `R` only. -/
inductive Leaner (R : Str → Prop) : List Action → List Action → Prop
  | nil : Leaner R [] []
  | keep {g gs hs} : CoveredBy R g → Leaner R gs hs → Leaner R (g :: gs) (g :: hs)
  | drop {g gs hs} : (∀ k n e, R n → g.eff = some e → ¬ touches k n e) → Leaner R gs hs → Leaner R (g :: gs) hs

theorem runs_same {ρ : Str → D} {gs hs : List Action} {J : Interp D} (hl : Leaner R gs hs) (h : SameOn R I I') (hr : Runs ρ gs I J) :
    ∃ J', Runs ρ hs I' J' ∧ SameOn R J J' := by
  induction hl generalizing I I' with
  | nil => cases hr; exact ⟨I', .nil, h⟩
  | keep hg _ ih =>
    cases hr with
    | cons ha hr =>
      obtain ⟨K', h1, h2⟩ := acts_same hg h ha
      obtain ⟨J', h3, h4⟩ := ih h2 hr
      exact ⟨J', .cons h1 h3, h4⟩
  | drop hg _ ih =>
    cases hr with
    | cons ha hr => exact ih ((acts_useless hg ha).trans h) hr

/-- The starts of problems with the same facts for the names in `R`. -/
theorem starts_same {ρ : Str → D} {l l' : List Expr} (h : SameFacts R l l') (hi : StartsIn ρ l I) (hi' : StartsIn ρ l' I')
    (hc : I'.const = I.const) (ht : I'.ty = I.ty) : SameOn R I I' := by
  refine ⟨hc, ht, fun n hn => funext fun ds => propext ?_, fun n hn => funext fun ds => ?_⟩
  · rw [hi.pred n ds, hi'.pred n ds, denote_same hc]
    exact exists_congr fun ts => and_congr_left fun _ => (h.pred n ts hn).symm
  · by_cases h1 : I.fn n ds = none
    · by_cases h2 : I'.fn n ds = none
      · rw [h1, h2]
      · obtain ⟨ts, v, hm, rfl⟩ := hi'.other n ds h2
        have k1 := hi'.value ⟨n, ts⟩ v hm
        have k2 := hi.value ⟨n, ts⟩ v ((h.value n ts v hn).2 hm)
        rw [denote_same hc] at k1 ⊢
        exact k1.trans k2.symm
    · obtain ⟨ts, v, hm, rfl⟩ := hi.other n ds h1
      have k1 := hi'.value ⟨n, ts⟩ v ((h.value n ts v hn).1 hm)
      have k2 := hi.value ⟨n, ts⟩ v hm
      rw [denote_same hc] at k1
      exact k1.trans k2.symm

end Pddl
