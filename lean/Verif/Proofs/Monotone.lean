/-
Conditions that more facts cannot make false.
-/
import Verif.Spec.Monotone
import Verif.Proofs.Frame

namespace Pddl
open Spec

mutual
/-- `positiveText` for formulas. -/
def positive : Expr → Prop
  | .bin o as => o ≠ .imply ∧ positives as
  | .not _ => False
  | .quant _ _ c => positive c
  | _ => True
def positives : List Expr → Prop
  | [] => True
  | a :: as => positive a ∧ positives as
end

theorem positives_iff {as : List Expr} : positives as ↔ ∀ a ∈ as, positive a := by
  induction as with
  | nil => simp [positives]
  | cons a as ih => simp [positives, ih]

theorem positiveTexts_iff {ts : List Tree} : positiveTexts ts = true ↔ ∀ t ∈ ts, positiveText t = true := by
  induction ts with
  | nil => simp [positiveTexts]
  | cons a as ih => simp [positiveTexts, ih]

theorem positive_bop {o : BOp} (ho : o ≠ .imply) {es : List Expr} (h : ∀ e ∈ es, positive e) : positive (construct (.bop o) es) := by
  rcases construct_read (P := positive) (.bop o) (fun as hp => by
    simp only [Expr.ofCls, positive] at hp; exact positives_iff.1 hp.2) h with ⟨hp, _⟩ | ⟨as, he, has⟩
  · exact hp
  · rw [he]; exact ⟨ho, positives_iff.2 has⟩

theorem positive_fop (o : FOp) (es : List Expr) : positive (construct (.fop o) es) := by
  obtain ⟨as, he⟩ := construct_fop_node o es
  rw [he]
  trivial

theorem GRel.positive {E : GEnv} {t : Tree} {e : Expr} (h : GRel E t e) (hp : positiveText t = true) : positive e := by
  have hn : ∀ {w args}, positiveText (.node (.atom (.name w) :: args)) = true → (w ≠ s%"not" ∧ w ≠ s%"imply") ∧
      ∀ t ∈ args, positiveText t = true := by
    intro w args h
    simp only [positiveText, Bool.and_eq_true, decide_eq_true_eq] at h
    exact ⟨h.1, positiveTexts_iff.1 h.2⟩
  induction h with
  | and hl _ ih =>
    refine positive_bop (by decide) (fun e he => ?_)
    obtain ⟨t, hm⟩ := zip_right hl he
    exact ih _ hm ((hn hp).2 t (List.of_mem_zip hm).1)
  | or hl _ _ ih =>
    refine positive_bop (by decide) (fun e he => ?_)
    obtain ⟨t, hm⟩ := zip_right hl he
    exact ih _ hm ((hn hp).2 t (List.of_mem_zip hm).1)
  | not => exact absurd rfl (hn hp).1.1
  | imply => exact absurd rfl (hn hp).1.2
  | quant _ _ _ _ _ ih => exact ih ((hn hp).2 _ (by simp))
  | atom => trivial
  | eq _ _ _ h => obtain ⟨_, rfl⟩ := mkEq_ok.1 h; trivial
  | comp => exact positive_fop _ _

theorem preGd_positive {E : GEnv} {t : Tree} {e : Expr} (h : E.preGd t = .ok e) (hp : positiveText t = true) : positive e := by
  unfold GEnv.preGd at h
  split at h
  · simp only [pure_ok, Except.ok.injEq] at h
    subst h
    exact positive_bop (by decide) (by simp)
  · exact (gd_iff.1 h).positive hp

variable {m : Mapping}

theorem inst_positive {e g : Expr} (h : e.inst m = .ok g) (hp : positive e) : positive g := by
  induction e using Expr.ind generalizing g with
  | hpred p => obtain ⟨_, _, rfl⟩ := inst_pred_ok.mp h; trivial
  | heq l r => obtain ⟨_, rfl⟩ := inst_eq_ok.mp h; trivial
  | hnfun f => obtain ⟨_, rfl⟩ := inst_nfun_ok.mp h; trivial
  | hnum _ => have := inst_num_ok.mp h; subst this; trivial
  | hbfun o as ih => obtain ⟨bs, h2, rfl⟩ := inst_bfun_ok.mp h; exact positive_fop _ _
  | hbin o as ih =>
    obtain ⟨bs, h2, rfl⟩ := inst_bin_ok.mp h
    refine positive_bop hp.1 (fun b hb => ?_)
    obtain ⟨a, ha, e⟩ := forall2_mem h2 b hb
    exact ih a ha e (positives_iff.1 hp.2 a ha)
  | hnot a ih => exact hp.elim
  | hquant q vs c ih => obtain ⟨b, h1, rfl⟩ := inst_quant_ok.mp h; have := ih h1 hp; exact this
  | hwhen c e _ _ => rw [inst_when] at h; simp at h
  | hfall vs e _ => rw [inst_fall] at h; simp at h

theorem inst_noEffect {e g : Expr} (h : e.inst m = .ok g) : NoEffect g := by
  have hc : ∀ (c : Cls) (bs : List Expr), (∀ b ∈ bs, NoEffect b) → NoEffect (construct c bs) := by
    intro c bs hb
    refine Rules.construct_keeps (P := NoEffect) (fun c as => ?_) hb
    cases c <;> simp only [Expr.ofCls, NoEffect] <;> exact noEffects_iff
  induction e using Expr.ind generalizing g with
  | hpred p => obtain ⟨_, _, rfl⟩ := inst_pred_ok.mp h; trivial
  | heq l r => obtain ⟨_, rfl⟩ := inst_eq_ok.mp h; trivial
  | hnfun f => obtain ⟨_, rfl⟩ := inst_nfun_ok.mp h; trivial
  | hnum _ => have := inst_num_ok.mp h; subst this; trivial
  | hbfun o as ih =>
    obtain ⟨bs, h2, rfl⟩ := inst_bfun_ok.mp h
    refine hc _ _ (fun b hb => ?_)
    obtain ⟨a, ha, e⟩ := forall2_mem h2 b hb
    exact ih a ha e
  | hbin o as ih =>
    obtain ⟨bs, h2, rfl⟩ := inst_bin_ok.mp h
    refine hc _ _ (fun b hb => ?_)
    obtain ⟨a, ha, e⟩ := forall2_mem h2 b hb
    exact ih a ha e
  | hnot a ih => obtain ⟨b, h1, rfl⟩ := inst_not_ok.mp h; have := ih h1; exact this
  | hquant q vs c ih => obtain ⟨b, h1, rfl⟩ := inst_quant_ok.mp h; have := ih h1; exact this
  | hwhen c e _ _ => rw [inst_when] at h; simp at h
  | hfall vs e _ => rw [inst_fall] at h; simp at h

/-! ### States -/

variable {D : Type} {I I' : Interp D}

theorem denote_same (h : I'.const = I.const) (ρ : Str → D) : denote I' ρ = denote I ρ := by
  funext t
  cases t with
  | var v => rfl
  | const n tag => simp only [denote, h]

theorem value_same (hc : I'.const = I.const) (hf : I'.fn = I.fn) (ρ : Str → D) (e : Expr) : value I' ρ e = value I ρ e := by
  induction e using Expr.ind with
  | hnfun f => simp only [value, hf, denote_same hc]
  | hbfun o as ih =>
    have : ∀ l : List Expr, (∀ a ∈ l, value I' ρ a = value I ρ a) → values I' ρ l = values I ρ l := by
      intro l hl
      induction l with
      | nil => rfl
      | cons a l ih => simp only [values, hl a (by simp), ih (fun x hx => hl x (List.mem_cons_of_mem _ hx))]
    simp only [value, this as ih]
  | _ => simp only [value]

theorem values_same (hc : I'.const = I.const) (hf : I'.fn = I.fn) (ρ : Str → D) (l : List Expr) : values I' ρ l = values I ρ l := by
  induction l with
  | nil => rfl
  | cons a l ih => simp only [values, value_same hc hf, ih]

theorem rebind_same (h : I'.ty = I.ty) {vs : List Var} {ρ ρ' : Str → D} : Rebind I' vs ρ ρ' ↔ Rebind I vs ρ ρ' := by
  simp only [Rebind, InRange, h]

theorem holds_larger (h : Larger I I') {e : Expr} (hp : positive e) {ρ : Str → D} (hh : holds I e ρ) : holds I' e ρ := by
  induction e using Expr.ind generalizing ρ with
  | hpred p => simp only [holds] at hh ⊢; rw [denote_same h.const]; exact h.pred _ _ hh
  | heq l r => simp only [holds] at hh ⊢; rw [denote_same h.const]; exact hh
  | hnfun f => exact hh.elim
  | hnum _ => exact hh.elim
  | hbfun o as ih => simp only [holds] at hh ⊢; rw [values_same h.const h.fn]; exact hh
  | hbin o as ih =>
    have hps := positives_iff.1 hp.2
    cases o with
    | and => simp only [holds, holdsAll_iff] at hh ⊢; exact fun a ha => ih a ha (hps a ha) (hh a ha)
    | or => simp only [holds, holdsSome_iff] at hh ⊢; obtain ⟨a, ha, hh⟩ := hh; exact ⟨a, ha, ih a ha (hps a ha) hh⟩
    | imply => exact absurd rfl hp.1
    | oneof => simp only [holds] at hh
  | hnot a ih => exact hp.elim
  | hquant q vs c ih =>
    cases q with
    | all => simp only [holds] at hh ⊢; exact fun ρ' hr => ih hp (hh ρ' ((rebind_same h.ty).1 hr))
    | ex => simp only [holds] at hh ⊢; obtain ⟨ρ', hr, hh⟩ := hh; exact ⟨ρ', (rebind_same h.ty).2 hr, ih hp hh⟩
  | hwhen c e _ _ => exact hh.elim
  | hfall vs e _ => exact hh.elim

theorem makes_same (hc : I'.const = I.const) (hf : I'.fn = I.fn) {e : Expr} (hn : NoEffect e) (c : Change D) (ρ : Str → D) :
    makes I' c e ρ ↔ makes I c e ρ := by
  have hs : ∀ as : List Expr, (∀ a ∈ as, makes I' c a ρ ↔ makes I c a ρ) → (makesSome I' c as ρ ↔ makesSome I c as ρ) := by
    intro as h
    induction as with
    | nil => rfl
    | cons a as ih => simp only [makesSome, h a (by simp), ih (fun x hx => h x (List.mem_cons_of_mem _ hx))]
  induction e using Expr.ind with
  | hpred p => simp only [makes, denote_same hc]
  | hbfun o as ih => simp only [makes]; unfold updated; split <;> simp only [denote_same hc, value_same hc hf]
  | hbin o as ih =>
    cases o <;> simp only [makes]
    exact hs as (fun a ha => ih a ha (noEffects_iff.1 hn a ha))
  | hnot a ih => simp only [makes]; unfold deletes; split <;> simp only [denote_same hc]
  | hwhen => exact hn.elim
  | hfall => exact hn.elim
  | _ => simp only [makes]

/-- Actions with positive preconditions and definite effects. -/
def Definite (g : Action) : Prop := (∀ e, g.pre = some e → positive e) ∧ ∀ e, g.eff = some e → NoEffect e

theorem runs_larger {ρ : Str → D} {gs : List Action} (hg : ∀ g ∈ gs, Definite g) {J : Interp D} (h : Runs ρ gs I J) (hl : Larger I I') :
    ∃ J', Larger J J' ∧ Runs ρ gs I' J' := by
  induction h generalizing I' with
  | nil => exact ⟨I', hl, .nil⟩
  | @cons g gs I J K ha _ ih =>
    have hd := hg g (by simp)
    have hsame : ∀ c, (∃ e, g.eff = some e ∧ makes I' c e ρ) ↔ ∃ e, g.eff = some e ∧ makes I c e ρ := fun c =>
      exists_congr fun e => and_congr_right fun he => makes_same hl.const hl.fn (hd.2 e he) c ρ
    let J' : Interp D := ⟨J.const, J.ty, fun n ds => (∃ e, g.eff = some e ∧ makes I (.add n ds) e ρ) ∨
      (I'.pred n ds ∧ ¬ ∃ e, g.eff = some e ∧ makes I (.del n ds) e ρ), J.fn⟩
    have hJ : Larger J J' := by
      refine ⟨rfl, rfl, rfl, fun n ds hj => ?_⟩
      rcases (ha.2.pred n ds).1 hj with h | ⟨h, h'⟩
      · exact .inl h
      · exact .inr ⟨hl.pred n ds h, h'⟩
    obtain ⟨K', hK, hr⟩ := ih (fun g hg' => hg g (List.mem_cons_of_mem _ hg')) hJ
    refine ⟨K', hK, .cons (J := J') ⟨fun e he => holds_larger hl (hd.1 e he) (ha.1 e he), ?_⟩ hr⟩
    refine ⟨ha.2.const.trans hl.const.symm, ha.2.ty.trans hl.ty.symm, fun n ds => ?_, fun f ds hc => ?_, fun f ds op v hc hu => ?_⟩
    · rw [hsame, hsame]
    · rw [hl.fn]
      exact ha.2.same f ds (fun op v hc' => hc op v ((hsame _).2 hc'))
    · rw [hl.fn]
      exact ha.2.updated f ds op v ((hsame _).1 hc) (fun op' v' hc' => hu op' v' ((hsame _).2 hc'))

/-- The ground actions of plans for texts with positive preconditions. -/
theorem plan_definite {F : FloatOf} {σ : PState} {text : Str} {d : Domain} {σ' : PState} {ts : List Tree} {plan : Plan} {gs : List Action}
    (hσ : ParserState F σ) (h : parseDomain F σ text = .ok (d, σ')) (hts : readText text = .ok [.node ts]) (hg : plan.inst d = .ok gs)
    (hp : PositiveActions ts) {g : Action} (hm : g ∈ gs) : Definite g := by
  obtain ⟨s, _, a, ha, hi⟩ := forall2_mem (instSteps_ok.1 hg) g hm
  obtain ⟨ts', nm, ps, pre, eff, E, p, e', hr, hin, _, hpa, hea, _, _, _, _, hpre, heff, _⟩ := action_parts hσ h (lastNamed_mem ha).1
  rw [hts] at hr
  simp only [Except.ok.injEq, List.cons.injEq, Tree.node.injEq, and_true] at hr
  subst hr
  unfold Action.inst at hi
  split at hi
  · simp at hi
  · obtain ⟨pre', h1, hi⟩ := bind_ok_iff.1 hi
    obtain ⟨eff', h2, hi⟩ := bind_ok_iff.1 hi
    obtain ⟨_, rfl⟩ := Rules.mkAction_ok.1 hi
    rw [hpa] at h1
    rw [hea] at h2
    simp only [instOpt] at h1 h2
    obtain ⟨p2, k1, h3⟩ := bind_ok_iff.1 h1
    obtain ⟨e2, k2, h4⟩ := bind_ok_iff.1 h2
    simp only [pure_ok, Except.ok.injEq] at h3 h4
    subst h3 h4
    refine ⟨?_, ?_⟩
    · rintro e ⟨rfl⟩; exact inst_positive k1 (preGd_positive hpre (hp _ _ _ _ hin))
    · rintro e ⟨rfl⟩; exact inst_noEffect k2

end Pddl
