/-
What effects can change: in texts, in formulas, in states.
-/
import Verif.Spec.Frame
import Verif.Spec.Execute
import Verif.Proofs.ActionText
import Verif.Proofs.Printable
import Verif.Proofs.EffectRead
import Verif.Proofs.EffectSem
import Verif.Proofs.Problem
import Verif.Proofs.RulesExpr
import Verif.Proofs.RulesAction
import Verif.Proofs.Declared

namespace Pddl
open Spec

/-- The update in the operands of a numeric operator. -/
def touchesNum (n : Str) (o : FOp) : List Expr → Prop
  | [a, _] => updates o = true ∧ ∃ f ∈ funsIn a, f.name = n
  | _ => False

/-- The change made by a negated formula. -/
def touchesNot (n : Str) (a : Expr) : Prop := ∃ p ∈ predsIn a, p.name = n

mutual
/-- `writesTo` for formulas. -/
def touches (k : Kind) (n : Str) : Expr → Prop
  | .pred p => k = .add ∧ p.name = n
  | .not a => k = .del ∧ touchesNot n a
  | .bfun o as => k = .num ∧ touchesNum n o as
  | .bin _ as => touchesSome k n as
  | .when _ e => touches k n e
  | .fall _ e => touches k n e
  | _ => False
def touchesSome (k : Kind) (n : Str) : List Expr → Prop
  | [] => False
  | a :: as => touches k n a ∨ touchesSome k n as
end

variable {k : Kind} {n : Str}

theorem touchesSome_iff {as : List Expr} : touchesSome k n as ↔ ∃ a ∈ as, touches k n a := by
  induction as with
  | nil => simp [touchesSome]
  | cons a as ih => simp [touchesSome, ih]

theorem writesToSome_iff {ts : List Tree} : writesToSome k n ts = true ↔ ∃ t ∈ ts, writesTo k n t = true := by
  induction ts with
  | nil => simp [writesToSome]
  | cons t ts ih => simp [writesToSome, ih]

theorem touches_bop {o : BOp} {es : List Expr} (h : touches k n (construct (.bop o) es)) : ∃ e ∈ es, touches k n e := by
  by_contra hc
  have hes : ∀ e ∈ es, ¬ touches k n e := fun e he ht => hc ⟨e, he, ht⟩
  rcases construct_read (P := fun e => ¬ touches k n e) (.bop o) (fun as hp a ha ht => hp (by
    simp only [Expr.ofCls, touches]
    exact touchesSome_iff.2 ⟨a, ha, ht⟩)) hes with ⟨hp, _⟩ | ⟨as, he, has⟩
  · exact hp h
  · rw [he] at h
    simp only [Expr.ofCls, touches] at h
    obtain ⟨a, ha, ht⟩ := touchesSome_iff.1 h
    exact has a ha ht

theorem construct_fop_node (o : FOp) (es : List Expr) : ∃ as, construct (.fop o) es = .bfun o as := by
  rcases construct_read (P := fun e => True) (.fop o) (fun as _ a _ => trivial) (es := es) (fun _ _ => trivial) with ⟨_, hp⟩ | ⟨as, he, has⟩
  · simp [Cls.idempotent] at hp
  · exact ⟨as, he⟩

theorem touches_fop {o : FOp} {es : List Expr} (h : touches k n (construct (.fop o) es)) : k = .num ∧ touchesNum n o es := by
  have hu : updates o = true → construct (.fop o) es = .bfun o es := by
    intro hu
    exact construct_assign (by cases o <;> simp_all [updates, IsAssignment]) es
  by_cases ho : updates o = true
  · rw [hu ho] at h
    simpa only [touches] using h
  · exfalso
    obtain ⟨as, he⟩ := construct_fop_node o es
    rw [he] at h
    simp only [touches] at h
    obtain ⟨_, h⟩ := h
    unfold touchesNum at h
    split at h
    · exact ho h.1
    · exact h

/-! ### Texts -/

theorem writesTo_joined {w : Str} {args : List Tree} (h : w = s%"and" ∨ w = s%"oneof") :
    writesTo k n (.node (.atom (.name w) :: args)) = writesToSome k n args := by
  unfold writesTo
  rw [if_pos h]

theorem writesTo_inner {w : Str} {x e : Tree} (h : w = s%"forall" ∨ w = s%"when") :
    writesTo k n (.node [.atom (.name w), x, e]) = writesTo k n e := by
  simp only [writesTo]
  rw [if_neg (by rcases h with rfl | rfl <;> decide), if_pos h]

theorem atomic_named {E : GEnv} {a : List Tree} {e : Expr} (h : E.atomic a = .ok e) :
    (∃ w args p, a = .atom (.name w) :: args ∧ e = .pred p ∧ p.name = w ∧ ValidName w) ∨ ∃ l r, e = .eq l r := by
  have he : ∀ l r, mkEq l r = .ok e → ∃ l r, e = .eq l r := by
    intro l r h
    exact ⟨l, r, (mkEq_ok.1 h).2⟩
  match a, h with
  | [], h => simp [GEnv.atomic] at h
  | .node _ :: _, h => simp [GEnv.atomic] at h
  | .atom t :: args, h =>
    cases t with
    | eq =>
      obtain ⟨l, r, h1, _, h2⟩ := atomic_eq_ok.1 h
      exact .inr (he l r h2)
    | name w =>
      obtain ⟨ts, p, h1, h2, rfl⟩ := atomic_name_ok.1 h
      obtain ⟨h3, _, rfl⟩ := mkPred_ok.1 h2
      exact .inl ⟨w, args, _, rfl, rfl, rfl, (parseName_ok.1 h3).2⟩
    | _ => simp [GEnv.atomic] at h

theorem fHead_name {E : GEnv} {t x : Tree} {f : NFun} (h : E.fHead t = .ok f) : updatedName [t, x] = some f.name := by
  unfold GEnv.fHead at h
  split at h
  · obtain ⟨_, rfl⟩ := mkNFun_ok.1 h; rfl
  · obtain ⟨ts, ht, h⟩ := bind_ok_iff.1 h
    obtain ⟨_, rfl⟩ := mkNFun_ok.1 h; rfl
  · simp at h

theorem valid_not_effect {w : Str} (h : ValidName w) : w ≠ s%"and" ∧ w ≠ s%"oneof" ∧ w ≠ s%"forall" ∧ w ≠ s%"when" ∧ w ≠ s%"not" := by
  refine ⟨?_, ?_, ?_, ?_, ?_⟩ <;> (rintro rfl; revert h; decide +kernel)

theorem assign_not_keyword {w : Str} {o : FOp} (h : assignOp w = some o) :
    w ≠ s%"and" ∧ w ≠ s%"oneof" ∧ w ≠ s%"forall" ∧ w ≠ s%"when" ∧ w ≠ s%"not" := by
  refine ⟨?_, ?_, ?_, ?_, ?_⟩ <;> (rintro rfl; revert h; simp [assignOp])

theorem atom_writes {E : GEnv} {w : Str} {args : List Tree} {e : Expr} (h2 : assignOp w = none)
    (h : E.atomic (.atom (.name w) :: args) = .ok e) (ht : touches k n e) : writesTo k n (.node (.atom (.name w) :: args)) = true := by
  rcases atomic_named h with ⟨w', args', p, e1, rfl, rfl, hv⟩ | ⟨l, r, rfl⟩
  · simp only [List.cons.injEq, Tree.atom.injEq, Tok.name.injEq] at e1
    obtain ⟨e1, rfl⟩ := e1
    subst e1
    obtain ⟨n1, n2, n3, n4, n5⟩ := valid_not_effect hv
    obtain ⟨rfl, rfl⟩ := ht
    unfold writesTo
    simp [n1, n2, n3, n4, n5, updateWord_eq, h2]
  · exact ht.elim

theorem PRel.touches {E : GEnv} {t : Tree} {e : Expr} (h : PRel E t e) (ht : touches k n e) : writesTo k n t = true := by
  cases h with
  | not h =>
    obtain ⟨rfl, p, hp, hn⟩ := ht
    rcases atomic_named h with ⟨w, args, q, rfl, rfl, hq, _⟩ | ⟨l, r, rfl⟩
    · simp only [predsIn, List.mem_singleton] at hp
      subst hp
      simp [writesTo, negatedName, ← hq, hn]
    · simp [predsIn] at hp
  | @assign w op h x f e h1 h2 h3 =>
    obtain ⟨rfl, hu, g, hg, hn⟩ := touches_fop ht
    simp only [funsIn, List.mem_singleton] at hg
    subst hg
    obtain ⟨n1, n2, n3, n4, n5⟩ := assign_not_keyword h1
    simp [writesTo, n1, n2, n3, n4, n5, updateWord_eq, h1, fHead_name h2, hn]
  | atom _ h2 h => exact atom_writes h2 h ht
  | eq h =>
    rcases atomic_named h with ⟨w', args', p, e1, _⟩ | ⟨l, r, rfl⟩
    · simp at e1
    · exact ht.elim

theorem CRel.touches {E : GEnv} {t : Tree} {e : Expr} (h : CRel E t e) (ht : touches k n e) : writesTo k n t = true := by
  cases h with
  | and h =>
    obtain ⟨e, he, ht⟩ := touches_bop ht
    obtain ⟨t, hm⟩ := zip_right h.1 he
    rw [writesTo_joined (.inl rfl)]
    exact writesToSome_iff.2 ⟨t, (List.of_mem_zip hm).1, (h.2 _ hm).touches ht⟩
  | one _ h => exact h.touches ht

theorem ERel.touches {E : GEnv} {top : Bool} {t : Tree} {e : Expr} (h : ERel E top t e) (ht : touches k n e) :
    writesTo k n t = true := by
  induction h with
  | and hl _ ih =>
    obtain ⟨e, he, ht⟩ := touches_bop ht
    obtain ⟨t, hm⟩ := zip_right hl he
    rw [writesTo_joined (.inl rfl)]
    exact writesToSome_iff.2 ⟨t, (List.of_mem_zip hm).1, ih _ hm ht⟩
  | fall _ _ _ _ ih =>
    rw [writesTo_inner (.inl rfl)]
    exact ih ht
  | when _ h =>
    rw [writesTo_inner (.inr rfl)]
    exact (condEffect_iff.1 h).touches ht
  | oneof _ hl _ _ ih =>
    obtain ⟨e, he, ht⟩ := touches_bop ht
    obtain ⟨t, hm⟩ := zip_right hl he
    rw [writesTo_joined (.inr rfl)]
    exact writesToSome_iff.2 ⟨t, (List.of_mem_zip hm).1, ih _ hm ht⟩
  | lit _ h => exact (pEffect_iff.1 h).touches ht

theorem effOpt_touches {E : GEnv} {t : Tree} {e : Expr} (h : E.effOpt t = .ok e) (ht : touches k n e) : writesTo k n t = true := by
  unfold GEnv.effOpt at h
  split at h
  · simp only [pure_ok, Except.ok.injEq] at h
    subst h
    obtain ⟨e, he, _⟩ := touches_bop ht
    simp at he
  · exact (effect_iff.1 h).touches ht

/-! ### Instances -/

theorem funsIn_construct {c : Cls} {es : List Expr} {Q : NFun → Prop} (h : ∀ e ∈ es, ∀ f ∈ funsIn e, Q f) :
    ∀ f ∈ funsIn (construct c es), Q f := by
  refine Rules.construct_keeps (P := fun e => ∀ f ∈ funsIn e, Q f) ?_ h
  have hall : ∀ as : List Expr, (∀ f ∈ funsInAll as, Q f) ↔ ∀ a ∈ as, ∀ f ∈ funsIn a, Q f := by
    intro as
    induction as with
    | nil => simp [funsInAll]
    | cons a as ih => simp [funsInAll, or_imp, forall_and, ih]
  intro c as
  cases c <;> simp only [Expr.ofCls, funsIn] <;> exact hall as

theorem predsIn_construct {o : BOp} {es : List Expr} {Q : Pred → Prop} (h : ∀ e ∈ es, ∀ f ∈ predsIn e, Q f) :
    ∀ f ∈ predsIn (construct (.bop o) es), Q f := by
  have hall : ∀ as : List Expr, (∀ f ∈ predsInAll as, Q f) ↔ ∀ a ∈ as, ∀ f ∈ predsIn a, Q f := by
    intro as
    induction as with
    | nil => simp [predsInAll]
    | cons a as ih => simp [predsInAll, or_imp, forall_and, ih]
  rcases construct_read (P := fun e => ∀ f ∈ predsIn e, Q f) (.bop o) (fun as hp => by
    simp only [Expr.ofCls, predsIn] at hp; exact (hall as).1 hp) h with ⟨hp, _⟩ | ⟨as, he, has⟩
  · exact hp
  · rw [he]; simp only [Expr.ofCls, predsIn]; exact (hall as).2 has

theorem mem_funsInAll {as : List Expr} {f : NFun} : f ∈ funsInAll as ↔ ∃ a ∈ as, f ∈ funsIn a := by
  induction as with
  | nil => simp [funsInAll]
  | cons a as ih => simp [funsInAll, ih]

theorem mem_predsInAll {as : List Expr} {f : Pred} : f ∈ predsInAll as ↔ ∃ a ∈ as, f ∈ predsIn a := by
  induction as with
  | nil => simp [predsInAll]
  | cons a as ih => simp [predsInAll, ih]

variable {m : Mapping}

theorem inst_funs {e g : Expr} (h : e.inst m = .ok g) : ∀ f ∈ funsIn g, ∃ f' ∈ funsIn e, f'.name = f.name := by
  induction e using Expr.ind generalizing g with
  | hpred p => obtain ⟨_, _, rfl⟩ := inst_pred_ok.mp h; simp [funsIn]
  | heq l r => obtain ⟨_, rfl⟩ := inst_eq_ok.mp h; simp [funsIn]
  | hnfun f => obtain ⟨_, rfl⟩ := inst_nfun_ok.mp h; simp [funsIn]
  | hnum _ => have := inst_num_ok.mp h; subst this; simp [funsIn]
  | hbfun o as ih =>
    obtain ⟨bs, h2, rfl⟩ := inst_bfun_ok.mp h
    refine funsIn_construct (fun b hb f hf => ?_)
    obtain ⟨a, ha, e⟩ := forall2_mem h2 b hb
    obtain ⟨f', h3, h4⟩ := ih a ha e f hf
    exact ⟨f', mem_funsInAll.2 ⟨a, ha, h3⟩, h4⟩
  | hbin o as ih =>
    obtain ⟨bs, h2, rfl⟩ := inst_bin_ok.mp h
    refine funsIn_construct (fun b hb f hf => ?_)
    obtain ⟨a, ha, e⟩ := forall2_mem h2 b hb
    obtain ⟨f', h3, h4⟩ := ih a ha e f hf
    exact ⟨f', mem_funsInAll.2 ⟨a, ha, h3⟩, h4⟩
  | hnot a ih => obtain ⟨b, h1, rfl⟩ := inst_not_ok.mp h; intro f hf; exact ih h1 f hf
  | hquant q vs c ih => obtain ⟨b, h1, rfl⟩ := inst_quant_ok.mp h; intro f hf; exact ih h1 f hf
  | hwhen c e _ _ => rw [inst_when] at h; simp at h
  | hfall vs e _ => rw [inst_fall] at h; simp at h

theorem inst_preds {e g : Expr} (h : e.inst m = .ok g) : ∀ f ∈ predsIn g, ∃ f' ∈ predsIn e, f'.name = f.name := by
  induction e using Expr.ind generalizing g with
  | hpred p => obtain ⟨_, _, rfl⟩ := inst_pred_ok.mp h; simp [predsIn]
  | heq l r => obtain ⟨_, rfl⟩ := inst_eq_ok.mp h; simp [predsIn]
  | hnfun f => obtain ⟨_, rfl⟩ := inst_nfun_ok.mp h; simp [predsIn]
  | hnum _ => have := inst_num_ok.mp h; subst this; simp [predsIn]
  | hbfun o as ih =>
    obtain ⟨bs, h2, rfl⟩ := inst_bfun_ok.mp h
    obtain ⟨xs, he⟩ := construct_fop_node o bs
    rw [he]
    simp [predsIn]
  | hbin o as ih =>
    obtain ⟨bs, h2, rfl⟩ := inst_bin_ok.mp h
    refine predsIn_construct (fun b hb f hf => ?_)
    obtain ⟨a, ha, e⟩ := forall2_mem h2 b hb
    obtain ⟨f', h3, h4⟩ := ih a ha e f hf
    exact ⟨f', mem_predsInAll.2 ⟨a, ha, h3⟩, h4⟩
  | hnot a ih => obtain ⟨b, h1, rfl⟩ := inst_not_ok.mp h; intro f hf; exact ih h1 f hf
  | hquant q vs c ih => obtain ⟨b, h1, rfl⟩ := inst_quant_ok.mp h; intro f hf; exact ih h1 f hf
  | hwhen c e _ _ => rw [inst_when] at h; simp at h
  | hfall vs e _ => rw [inst_fall] at h; simp at h

theorem inst_touches {e g : Expr} (h : e.inst m = .ok g) (ht : touches k n g) : touches k n e := by
  induction e using Expr.ind generalizing g with
  | hpred p => obtain ⟨_, _, rfl⟩ := inst_pred_ok.mp h; exact ht
  | heq l r => obtain ⟨_, rfl⟩ := inst_eq_ok.mp h; exact ht
  | hnfun f => obtain ⟨_, rfl⟩ := inst_nfun_ok.mp h; exact ht
  | hnum _ => have := inst_num_ok.mp h; subst this; exact ht
  | hbfun o as ih =>
    obtain ⟨bs, h2, rfl⟩ := inst_bfun_ok.mp h
    obtain ⟨rfl, ht'⟩ := touches_fop ht
    clear ht
    refine ⟨rfl, ?_⟩
    match as, bs, h2, ht' with
    | _, [b1, b2], .cons (a := a1) e1 (.cons (a := a2) e2 .nil), ⟨hu, f, hf, hn⟩ =>
      obtain ⟨f', h3, h4⟩ := inst_funs e1 f hf
      exact ⟨hu, f', h3, h4.trans hn⟩
  | hbin o as ih =>
    obtain ⟨bs, h2, rfl⟩ := inst_bin_ok.mp h
    obtain ⟨b, hb, ht⟩ := touches_bop ht
    obtain ⟨a, ha, e⟩ := forall2_mem h2 b hb
    exact touchesSome_iff.2 ⟨a, ha, ih a ha e ht⟩
  | hnot a ih =>
    obtain ⟨b, h1, rfl⟩ := inst_not_ok.mp h
    obtain ⟨rfl, p, hp, hn⟩ := ht
    obtain ⟨p', h3, h4⟩ := inst_preds h1 p hp
    exact ⟨rfl, p', h3, h4.trans hn⟩
  | hquant q vs c ih => obtain ⟨b, h1, rfl⟩ := inst_quant_ok.mp h; exact ht
  | hwhen c e _ _ => rw [inst_when] at h; simp at h
  | hfall vs e _ => rw [inst_fall] at h; simp at h

/-! ### States -/

/-- The kind and the name of a change. -/
def changeOf {D} : Change D → Kind × Str
  | .add p _ => (.add, p)
  | .del p _ => (.del, p)
  | .num _ f _ _ => (.num, f)

theorem makes_touches {D} {I : Interp D} {c : Change D} {e : Expr} {ν : Str → D} (h : makes I c e ν) :
    touches (changeOf c).1 (changeOf c).2 e := by
  have hsome : ∀ (as : List Expr) (ν : Str → D), (∀ a ∈ as, ∀ ν, makes I c a ν → touches (changeOf c).1 (changeOf c).2 a) →
      makesSome I c as ν → touchesSome (changeOf c).1 (changeOf c).2 as := by
    intro as ν ih h
    induction as with
    | nil => exact h.elim
    | cons a as ih' =>
      simp only [makesSome] at h
      rcases h with h | h
      · exact .inl (ih a (by simp) ν h)
      · exact .inr (ih' (fun a ha => ih a (List.mem_cons_of_mem _ ha)) h)
  induction e using Expr.ind generalizing ν with
  | hpred p => simp only [makes] at h; subst h; exact ⟨rfl, rfl⟩
  | heq l r => simp [makes] at h
  | hnfun f => simp [makes] at h
  | hnum _ => simp [makes] at h
  | hbfun o as ih =>
    simp only [makes] at h
    unfold updated at h
    split at h
    · obtain ⟨hu, v, _, rfl⟩ := h
      exact ⟨rfl, hu, _, by simp [funsIn], rfl⟩
    · exact h.elim
  | hbin o as ih =>
    cases o <;> simp only [makes] at h
    all_goals first | exact h.elim | exact hsome as ν (fun a ha ν h => ih a ha h) h
  | hnot a ih =>
    simp only [makes] at h
    unfold deletes at h
    split at h
    · subst h; exact ⟨rfl, _, by simp [predsIn], rfl⟩
    · exact h.elim
  | hquant q vs c ih => simp [makes] at h
  | hwhen c e _ ih => simp only [makes] at h; exact ih h.2
  | hfall vs e ih => simp only [makes] at h; obtain ⟨ν', _, h⟩ := h; exact ih h

/-! ### Plans -/

/-- The effects of the ground actions of a plan are written in the actions of the text. -/
theorem plan_writes {F : FloatOf} {σ : PState} {text : Str} {d : Domain} {σ' : PState} {ts : List Tree} {plan : Plan} {gs : List Action}
    (hσ : ParserState F σ) (h : parseDomain F σ text = .ok (d, σ')) (hts : readText text = .ok [.node ts]) (hg : plan.inst d = .ok gs)
    {g : Action} (hm : g ∈ gs) {e : Expr} (he : g.eff = some e) (ht : touches k n e) : ¬ NoAction k n ts := by
  intro hno
  obtain ⟨s, _, a, ha, hi⟩ := forall2_mem (instSteps_ok.1 hg) g hm
  obtain ⟨ts', nm, ps, pre, eff, E, p, e', hr, hin, _, _, hea, _, _, _, _, _, heff, _⟩ := action_parts hσ h (lastNamed_mem ha).1
  rw [hts] at hr
  simp only [Except.ok.injEq, List.cons.injEq, Tree.node.injEq, and_true] at hr
  subst hr
  unfold Action.inst at hi
  split at hi
  · simp at hi
  · obtain ⟨pre', _, hi⟩ := bind_ok_iff.1 hi
    obtain ⟨eff', h1, hi⟩ := bind_ok_iff.1 hi
    obtain ⟨_, rfl⟩ := Rules.mkAction_ok.1 hi
    simp only at he
    subst he
    rw [hea] at h1
    simp only [instOpt] at h1
    obtain ⟨e2, h2, h1⟩ := bind_ok_iff.1 h1
    simp only [pure_ok, Except.ok.injEq, Option.some.injEq] at h1
    subst h1
    have := effOpt_touches heff (inst_touches h2 ht)
    rw [hno _ _ _ _ hin] at this
    simp at this

/-- The changes of a list of actions. -/
def Never (k : Kind) (n : Str) (gs : List Action) : Prop := ∀ g ∈ gs, ∀ e, g.eff = some e → ¬ touches k n e

theorem runs_fixed {D} {ρ : Str → D} {gs : List Action} {I J : Interp D} (h : Runs ρ gs I J) : J.const = I.const ∧ J.ty = I.ty := by
  induction h with
  | nil => exact ⟨rfl, rfl⟩
  | cons ha _ ih => exact ⟨ih.1.trans ha.2.const, ih.2.trans ha.2.ty⟩

theorem runs_grow {D} {ρ : Str → D} {gs : List Action} {I J : Interp D} (h : Runs ρ gs I J) (hn : Never .del n gs) (ds : List D)
    (hi : I.pred n ds) : J.pred n ds := by
  induction h with
  | nil => exact hi
  | cons ha _ ih =>
    refine ih (fun g hg => hn g (List.mem_cons_of_mem _ hg)) ((ha.2.pred n ds).2 (.inr ⟨hi, ?_⟩))
    rintro ⟨e, he, hm⟩
    exact hn _ (by simp) e he (makes_touches hm)

theorem runs_shrink {D} {ρ : Str → D} {gs : List Action} {I J : Interp D} (h : Runs ρ gs I J) (hn : Never .add n gs) (ds : List D)
    (hj : J.pred n ds) : I.pred n ds := by
  induction h with
  | nil => exact hj
  | cons ha _ ih =>
    rcases (ha.2.pred n ds).1 (ih (fun g hg => hn g (List.mem_cons_of_mem _ hg)) hj) with ⟨e, he, hm⟩ | hi
    · exact absurd (makes_touches hm) (hn _ (by simp) e he)
    · exact hi.1

theorem runs_value {D} {ρ : Str → D} {gs : List Action} {I J : Interp D} (h : Runs ρ gs I J) (hn : Never .num n gs) (ds : List D) :
    J.fn n ds = I.fn n ds := by
  induction h with
  | nil => rfl
  | cons ha _ ih =>
    refine (ih (fun g hg => hn g (List.mem_cons_of_mem _ hg))).trans (ha.2.same n ds ?_)
    rintro op v ⟨e, he, hm⟩
    exact hn _ (by simp) e he (makes_touches hm)

end Pddl
