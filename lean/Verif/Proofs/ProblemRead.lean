/-
Problems that have been read can be written, up to the spelling of numbers and merged operands.
-/
import Verif.Proofs.ProblemText
import Verif.Proofs.Provenance
import Verif.Proofs.TypedText

namespace Pddl
open Spec

variable {F : FloatOf}

theorem mkConst_ok {n : Str} {tag : Option Str} {t : Term} (h : mkConst n tag = .ok t) :
    ValidName n ∧ (∀ x, tag = some x → ValidType x) ∧ t = .const n tag := by
  refine ⟨?_, ?_, mkConst_const h⟩
  · unfold mkConst at h
    obtain ⟨n', hn, _⟩ := bind_ok_iff.1 h
    exact (parseName_ok.1 hn).2
  · intro x hx
    subst hx
    unfold mkConst at h
    obtain ⟨n', hn, h1⟩ := bind_ok_iff.1 h
    obtain ⟨t', ht, h2⟩ := bind_ok_iff.1 h1
    exact (parseType_ok.1 ht).2

/-! ### Goals -/

theorem goal_scope (F : FloatOf) : TermScope (goalEnv F) := by
  refine ⟨?_, ?_⟩
  · intro n t h
    obtain ⟨h1, _, h2⟩ := mkConst_ok (show mkConst n none = .ok t from h)
    exact ⟨h1, _, h2⟩
  · intro n t h
    simp [goalEnv, dictGet] at h

theorem goal_known {t : Term} (h : Known (goalEnv F) t) : GoalTerm t := by
  cases t with
  | const n x => exact h.1
  | var v =>
    refine ⟨h.1, ?_⟩
    rcases h.2 with ⟨w, h1, _⟩ | h1
    · simp [goalEnv, dictGet] at h1
    · exact h1.2

theorem goal_no_reqs {rs : List Req} : ¬ Allows (goalEnv F) rs := by
  rintro ⟨r, _, h⟩
  simp [goalEnv] at h

theorem ReadNum.goal {e : Expr} (h : ReadNum (goalEnv F) e) (hn : NoObstacle F e) : GoalNum F e := by
  have := h.print hn
  clear h hn
  induction this with
  | num h => exact .num h
  | fn h => exact .fn (fun t ht => goal_known (h t ht))
  | plus h _ ih => exact .plus h ih
  | times h _ ih => exact .times h ih
  | divide _ _ h1 h2 => exact .divide h1 h2
  | minus _ h1 => exact .minus h1

theorem ReadCond.goal {e : Expr} (h : ReadCond (goalEnv F) e) (hn : NoObstacle F e) : GoalText F e := by
  induction h with
  | pred h => exact .pred (fun t ht => goal_known (h t ht))
  | eq h1 h2 h3 => exact absurd h3 goal_no_reqs
  | and _ ih => exact .and (fun a ha => ih a ha (noObstacles_iff.1 hn a ha))
  | or _ hr ih => exact absurd hr goal_no_reqs
  | imply _ _ hr h1 h2 => exact absurd hr goal_no_reqs
  | not _ ih => exact .not (ih hn)
  | quant _ hr ih => exact absurd hr goal_no_reqs
  | @comp o as ho ha =>
    obtain ⟨hl, hn⟩ := hn
    have hn := noObstacles_iff.1 hn
    have : as.length = 2 := by cases o <;> first | exact hl | exact absurd ho (by simp [IsComparison])
    obtain ⟨a, b, rfl⟩ := length_two this
    exact .comp ho ((ha a (by simp)).goal (hn a (by simp))) ((ha b (by simp)).goal (hn b (by simp)))

/-! ### Functions of constants -/

theorem mapM_constants {f : Str → Except Exc Term} (h : ∀ n t, f n = .ok t → ValidName n ∧ ∃ x, t = .const n x)
    {ns : List Str} {ts : List Term} (e : ns.mapM f = .ok ts) : ∀ t ∈ ts, IsConstant t := by
  induction ns generalizing ts with
  | nil => simp at e; subst e; simp
  | cons n ns ih =>
    simp only [List.mapM_cons, bind_ok_iff, pure_ok, Except.ok.injEq] at e
    obtain ⟨t, ht, r, hr, rfl⟩ := e
    intro x hx
    rcases List.mem_cons.1 hx with rfl | hx
    · obtain ⟨h1, y, rfl⟩ := h n x ht
      exact h1
    · exact ih hr x hx

theorem basicFunction_read {t : Tree} {f : NFun} (h : basicFunction t = .ok f) :
    (∀ t ∈ f.terms, IsConstant t) ∧ (Expr.nfun f).Good := by
  unfold basicFunction at h
  split at h
  · obtain ⟨h1, rfl⟩ := mkNFun_ok.1 h
    exact ⟨by simp, h1⟩
  · split at h
    · simp at h
    · obtain ⟨ts, h1, h2⟩ := bind_ok_iff.1 h
      obtain ⟨h3, rfl⟩ := mkNFun_ok.1 h2
      exact ⟨mapM_constants (fun n t h => ⟨(mkConst_ok h).1, _, (mkConst_ok h).2.2⟩) h1, h3⟩
  · simp at h

/-! ### Initial facts -/

theorem initTerm_read {σ : List (Str × Term)} (hσ : OwnNames σ) {n : Str} {t : Term} (h : initTerm σ n = .ok t) :
    ValidName n ∧ ∃ x, t = .const n x := by
  unfold initTerm at h
  split at h
  · rename_i t' ht
    simp only [pure_ok, Except.ok.injEq] at h
    subst h
    exact hσ n _ ht
  · exact ⟨(mkConst_ok h).1, _, (mkConst_ok h).2.2⟩

theorem atomicName_read {σ : List (Str × Term)} (hσ : OwnNames σ) {ts : List Tree} {e : Expr}
    (h : atomicName σ ts = .ok e) : ∃ p : Pred, e = .pred p ∧ (∀ t ∈ p.terms, IsConstant t) ∧ e.Good := by
  unfold atomicName at h
  split at h
  · split at h
    · simp at h
    · obtain ⟨ts, h1, h2⟩ := bind_ok_iff.1 h
      obtain ⟨q, h3, h4⟩ := bind_ok_iff.1 h2
      simp only [pure_ok, Except.ok.injEq] at h4
      subst h4
      obtain ⟨h5, h6, rfl⟩ := mkPred_ok.1 h3
      exact ⟨_, rfl, mapM_constants (fun n t h => initTerm_read hσ h) h1, h5, h6⟩
  · simp at h

theorem initEl_read {σ : List (Str × Term)} (hσ : OwnNames σ) {t : Tree} {e : Expr}
    (h : initEl F σ t = .ok e) (hn : NoObstacle F e) : InitText F e ∧ e.Good := by
  unfold initEl at h
  split at h
  · split at h
    · obtain ⟨f, h1, h2⟩ := bind_ok_iff.1 h
      obtain ⟨n, h3, h4⟩ := bind_ok_iff.1 h2
      simp only [pure_ok, Except.ok.injEq] at h4
      have hg : (construct (.fop .eq) [.nfun f, .num n]).Good := good_construct (by
        intro a ha
        simp only [List.mem_cons, List.not_mem_nil, or_false] at ha
        rcases ha with rfl | rfl
        · exact (basicFunction_read h1).2
        · trivial)
      have he : construct (.fop .eq) [.nfun f, .num n] = .bfun .eq [.nfun f, .num n] := by
        simp [construct, simplOperands, Cls.idempotent, simplLoop, Expr.operandsIf, memBy, Expr.pyEq, Expr.ofCls]
      rw [h4] at hg
      rw [he] at h4
      subst h4
      exact ⟨.value (basicFunction_read h1).1 hn.2.2.1, hg⟩
    · simp at h
  · split at h
    · split at h
      · obtain ⟨a, h1, h2⟩ := bind_ok_iff.1 h
        simp only [pure_ok, Except.ok.injEq] at h2
        subst h2
        obtain ⟨p, rfl, h3, h4⟩ := atomicName_read hσ h1
        exact ⟨.not h3, h4⟩
      · simp at h
    · obtain ⟨p, rfl, h3, h4⟩ := atomicName_read hσ h
      exact ⟨.pred h3, h4⟩
  · simp at h

/-! ### Metrics -/

/-- Metrics as they are read. -/
inductive ReadMetric : Expr → Prop
  | num {w} : Numeral w → ReadMetric (.num (.str w))
  | fn {f : NFun} : (∀ t ∈ f.terms, IsConstant t) → ReadMetric (.nfun f)
  | op {o as} : (o = .plus ∨ o = .times ∨ o = .divide ∨ o = .minus) → (∀ a ∈ as, ReadMetric a) →
      ReadMetric (.bfun o as)

theorem readMetric_op {o : FOp} (ho : o = .plus ∨ o = .times ∨ o = .divide ∨ o = .minus) {es : List Expr}
    (h : ∀ e ∈ es, ReadMetric e ∧ e.Good) :
    ReadMetric (construct (.fop o) es) ∧ (construct (.fop o) es).Good := by
  refine ⟨?_, good_construct (fun e he => (h e he).2)⟩
  have hop : ∀ as, ReadMetric (.bfun o as) → ∀ a ∈ as, ReadMetric a := by
    intro as ha
    cases ha with
    | op _ h => exact h
  rcases construct_read (P := ReadMetric) (.fop o) hop (fun e he => (h e he).1) with h | ⟨as, h1, h2⟩
  · exact h.1
  · rw [h1]; exact .op ho h2

theorem metric_read {t : Tree} :
    ∀ {e : Expr}, metricExp t = .ok e → t.Shape → ReadMetric e ∧ e.Good := by
  refine metricExp.induct (motive_1 := fun t => ∀ {e : Expr}, metricExp t = .ok e → t.Shape → ReadMetric e ∧ e.Good)
    (motive_2 := fun ts => ∀ {es : List Expr}, metricExps ts = .ok es → Tree.Shapes ts →
      ∀ e ∈ es, ReadMetric e ∧ e.Good) ?_ ?_ ?_ ?_ ?_ ?_ ?_ ?_ ?_ ?_ t
  · intro s e h hs
    simp only [metricExp, pure_ok, Except.ok.injEq] at h
    subst h
    exact ⟨.num hs, trivial⟩
  · intro args ih e h hs
    simp only [metricExp] at h
    obtain ⟨es, h1, h2⟩ := bind_ok_iff.1 h
    obtain ⟨_, _, h3⟩ := bind_ok_iff.1 h2
    simp only [pure_ok, Except.ok.injEq] at h3
    subst h3
    exact readMetric_op (by simp) (ih h1 hs.2)
  · intro args ih e h hs
    simp only [metricExp] at h
    obtain ⟨es, h1, h2⟩ := bind_ok_iff.1 h
    obtain ⟨_, _, h3⟩ := bind_ok_iff.1 h2
    simp only [pure_ok, Except.ok.injEq] at h3
    subst h3
    exact readMetric_op (by simp) (ih h1 hs.2)
  · intro args ih e h hs
    simp only [metricExp] at h
    obtain ⟨es, h1, h2⟩ := bind_ok_iff.1 h
    obtain ⟨_, _, h3⟩ := bind_ok_iff.1 h2
    simp only [pure_ok, Except.ok.injEq] at h3
    subst h3
    exact readMetric_op (by simp) (ih h1 hs.2)
  · intro args ih e h hs
    simp only [metricExp] at h
    obtain ⟨es, h1, h2⟩ := bind_ok_iff.1 h
    obtain ⟨_, _, h3⟩ := bind_ok_iff.1 h2
    simp only [pure_ok, Except.ok.injEq] at h3
    subst h3
    exact readMetric_op (by simp) (ih h1 hs.2)
  · intro n e h hs
    simp only [metricExp] at h
    obtain ⟨f, h1, h2⟩ := bind_ok_iff.1 h
    simp only [pure_ok, Except.ok.injEq] at h2
    subst h2
    exact ⟨.fn (basicFunction_read h1).1, (basicFunction_read h1).2⟩
  · intro n args e h hs
    simp only [metricExp] at h
    obtain ⟨f, h1, h2⟩ := bind_ok_iff.1 h
    simp only [pure_ok, Except.ok.injEq] at h2
    subst h2
    exact ⟨.fn (basicFunction_read h1).1, (basicFunction_read h1).2⟩
  · intro t h1 h2 h3 h4 h5 h6 h7 e h hs
    exfalso
    unfold metricExp at h
    split at h <;> simp_all
  · intro es h hs
    simp only [metricExps, pure_ok, Except.ok.injEq] at h
    subst h; simp
  · intro t ts ih1 ih2 es h hs
    simp only [metricExps] at h
    obtain ⟨e, h1, h2⟩ := bind_ok_iff.1 h
    obtain ⟨r, h3, h4⟩ := bind_ok_iff.1 h2
    simp only [pure_ok, Except.ok.injEq] at h4
    subst h4
    intro x hx
    rcases List.mem_cons.1 hx with rfl | hx
    · exact ih1 h1 hs.1
    · exact ih2 h3 hs.2 x hx

theorem allArities_iff {as : List Expr} : AllAritiesWritten as ↔ ∀ a ∈ as, AritiesWritten a := by
  induction as with
  | nil => simp [AllAritiesWritten]
  | cons a as ih => simp [AllAritiesWritten, ih]

theorem ReadMetric.text {e : Expr} (h : ReadMetric e) (hn : AritiesWritten e) : MetricText e := by
  induction h with
  | num h => exact .num h
  | fn h => exact .fn h
  | @op o as ho _ ih =>
    obtain ⟨ha, hn⟩ := hn
    have hn := allArities_iff.1 hn
    have ih : ∀ a ∈ as, MetricText a := fun a h => ih a h (hn a h)
    rcases ho with rfl | rfl | rfl | rfl
    · exact .plus ha ih
    · exact .times ha ih
    · obtain ⟨a, b, rfl⟩ := length_two ha
      exact .divide (ih a (by simp)) (ih b (by simp))
    · obtain ⟨a, rfl⟩ := length_one ha
      exact .minus (ih a (by simp))

/-! ### The whole problem -/

theorem parseRequirements_read {b : List Tree} {rs : List Req} (h : parseRequirements b = .ok rs) :
    .objectFluents ∉ rs := by
  unfold parseRequirements at h
  split at h
  · simp at h
  · split at h
    · rename_i x hx
      simp only [pure_ok, Except.ok.injEq] at h
      subst h
      rw [mem_reqSet]
      clear * - hx
      induction b generalizing x with
      | nil => simp at hx; subst hx; simp
      | cons t b ih =>
        simp only [List.mapM_cons, Option.bind_eq_bind, Option.bind_eq_some_iff, Option.pure_def, Option.some.injEq] at hx
        obtain ⟨r, h1, l, h2, rfl⟩ := hx
        intro hm
        rcases List.mem_cons.1 hm with rfl | hm
        · unfold requireKey at h1
          split at h1
          · have := List.mem_of_find?_eq_some h1
            simp at this
          · simp at h1
        · exact ih _ h2 hm
    · simp at h

theorem mkConsts_objects {l : List (Str × Option Str)} {r : List (Str × Term)} (h : mkConsts l = .ok r) :
    ∀ p ∈ r, ValidName p.1 ∧ IsObject p.2 ∧ ∃ x, p.2 = .const p.1 x := by
  induction l generalizing r with
  | nil => simp [mkConsts] at h; subst h; simp
  | cons p l ih =>
    obtain ⟨n, tag⟩ := p
    simp only [mkConsts, bind_ok_iff, pure_ok, Except.ok.injEq] at h
    obtain ⟨t, ht, r', hr, rfl⟩ := h
    obtain ⟨h1, h2, rfl⟩ := mkConst_ok ht
    intro q hq
    rcases List.mem_cons.1 hq with rfl | hq
    · exact ⟨h1, ⟨h1, h2⟩, _, rfl⟩
    · exact ih hr q hq

theorem problemObjects_read {b : List Tree} {objs : List Term} {σ : List (Str × Term)}
    (h : problemObjects b = .ok (objs, σ)) : (∀ o ∈ objs, IsObject o) ∧ OwnNames σ := by
  unfold problemObjects at h
  obtain ⟨d, _, h1⟩ := bind_ok_iff.1 h
  obtain ⟨cs, h2, h3⟩ := bind_ok_iff.1 h1
  simp only [pure_ok, Except.ok.injEq, Prod.mk.injEq] at h3
  obtain ⟨rfl, rfl⟩ := h3
  have hc := mkConsts_objects h2
  refine ⟨?_, ?_⟩
  · intro o ho
    obtain ⟨p, hp, rfl⟩ := List.mem_map.1 ho
    exact (hc p (dictOf_mem hp)).2.1
  · intro n t ht
    have := hc (n, t) (dictOf_mem (mem_of_dictGet ht))
    exact ⟨this.1, this.2.2⟩

theorem ProblemParse.names {σ σ' : List (Str × Term)} {ts : List Tree} {p : Problem}
    (P : ProblemParse F σ ts p σ') (hσ : OwnNames σ) : OwnNames σ' := by
  rcases P.hobjs with ⟨_, _, h⟩ | ⟨b, _, h⟩
  · rw [h]; exact hσ
  · exact (problemObjects_read h).2

theorem metricSpec_read {b : List Tree} {m : Metric} (h : metricSpec b = .ok m) :
    ∃ t, (t ∈ b ∨ ∃ w, t = .atom (.name w)) ∧ metricExp t = .ok m.expr := by
  have key : ∀ {k l t}, dropKeyword k l = some [t] → t ∈ l ∨ ∃ w, t = .atom (.name w) := by
    intro k l t h
    unfold dropKeyword at h
    split at h
    · split at h
      · split at h
        · simp only [Option.some.injEq] at h
          subst h; left; simp
        · split at h
          · simp only [Option.some.injEq, List.cons.injEq] at h
            exact .inr ⟨_, h.1.symm⟩
          · simp at h
      · simp at h
    · simp at h
  unfold metricSpec at h
  split at h
  · rename_i t ht
    obtain ⟨e, h1, h2⟩ := bind_ok_iff.1 h
    simp only [pure_ok, Except.ok.injEq] at h2
    subst h2
    exact ⟨t, key ht, h1⟩
  · simp at h
  · split at h
    · rename_i t ht
      obtain ⟨e, h1, h2⟩ := bind_ok_iff.1 h
      simp only [pure_ok, Except.ok.injEq] at h2
      subst h2
      exact ⟨t, key ht, h1⟩
    · simp at h

theorem metricName_read {w : Str} {e : Expr} (h : metricExp (.atom (.name w)) = .ok e) : ReadMetric e ∧ e.Good := by
  simp only [metricExp] at h
  obtain ⟨f, h1, h2⟩ := bind_ok_iff.1 h
  simp only [pure_ok, Except.ok.injEq] at h2
  subst h2
  exact ⟨.fn (basicFunction_read h1).1, (basicFunction_read h1).2⟩

theorem problemMetric_read {ts : List Tree} {m : Metric} (h : problemMetric ts = .ok (some m)) (hs : ∀ t ∈ ts, t.Shape) :
    ReadMetric m.expr ∧ m.expr.Good := by
  unfold problemMetric at h
  split at h
  · simp at h
  · split at h
    · rename_i body hb
      obtain ⟨m', h1, h2⟩ := bind_ok_iff.1 h
      simp only [pure_ok, Except.ok.injEq, Option.some.injEq] at h2
      subst h2
      obtain ⟨t, ht, h3⟩ := metricSpec_read h1
      have hsec := hs (.node (.atom (.kw s%"metric") :: body)) (by rw [takeSection_some hb]; simp)
      have hsh : Tree.Shapes body := hsec.2
      rcases ht with ht | ⟨w, rfl⟩
      · exact metric_read h3 (shapes_iff.1 hsh t ht)
      · exact metricName_read h3
    · simp at h

theorem mapM_from {α β ε} {f : α → Except ε β} {l : List α} {r : List β} (h : l.mapM f = .ok r)
    {b : β} (hb : b ∈ r) : ∃ a ∈ l, f a = .ok b := by
  have h' := mapM_ok_iff.1 h
  clear h
  induction h' with
  | nil => simp at hb
  | cons h1 _ ih =>
    rcases List.mem_cons.1 hb with rfl | hb
    · exact ⟨_, by simp, h1⟩
    · obtain ⟨a, ha, h⟩ := ih hb
      exact ⟨a, by simp [ha], h⟩

theorem initEl_good {σ : List (Str × Term)} (hσ : OwnNames σ) {t : Tree} {e : Expr} (h : initEl F σ t = .ok e) :
    e.Good := by
  unfold initEl at h
  split at h
  · split at h
    · obtain ⟨f, h1, h2⟩ := bind_ok_iff.1 h
      obtain ⟨n, h3, h4⟩ := bind_ok_iff.1 h2
      simp only [pure_ok, Except.ok.injEq] at h4
      subst h4
      refine good_construct ?_
      intro a ha
      simp only [List.mem_cons, List.not_mem_nil, or_false] at ha
      rcases ha with rfl | rfl
      · exact (basicFunction_read h1).2
      · trivial
    · simp at h
  · split at h
    · split at h
      · obtain ⟨a, h1, h2⟩ := bind_ok_iff.1 h
        simp only [pure_ok, Except.ok.injEq] at h2
        subst h2
        obtain ⟨p, rfl, _, h4⟩ := atomicName_read hσ h1
        exact h4
      · simp at h
    · obtain ⟨p, rfl, _, h4⟩ := atomicName_read hσ h
      exact h4
  · simp at h

theorem mkProblem_reqs {a : ProblemArgs} {p : Problem} (h : mkProblem a = .ok p) (hd : a.domain = none) :
    p.reqs_ = a.reqs.map reqSet := by
  unfold mkProblem at h
  obtain ⟨n, _, h⟩ := bind_ok_iff.1 h
  obtain ⟨dn, _, h⟩ := bind_ok_iff.1 h
  obtain ⟨rs, h1, h⟩ := bind_ok_iff.1 h
  obtain ⟨_, _, h⟩ := bind_ok_iff.1 h
  obtain ⟨_, _, h⟩ := bind_ok_iff.1 h
  simp only [pure_ok, Except.ok.injEq] at h
  subst h
  rw [hd] at h1
  cases ha : a.reqs with
  | none => rw [ha] at h1; simp [parseReqs] at h1; subst h1; rfl
  | some x => rw [ha] at h1; simp [parseReqs] at h1; subst h1; rfl

/-- A problem that has been read is made by the constructors. -/
theorem ProblemParse.printable {σ σ' : List (Str × Term)} {ts : List Tree} {p : Problem}
    (P : ProblemParse F σ ts p σ') (hσ : OwnNames σ) (hs : ∀ t ∈ ts, t.Shape) (hn : ProblemNoObstacle F p) :
    BuiltProblem p ∧ PrintProblem F p := by
  obtain ⟨hname, hdom, hobj, hinit, hgoal, hmet, hlit⟩ := mkProblem_fields P.hproblem
  have hσ' := P.names hσ
  have hm : ∀ m, p.metric = some m → ReadMetric m.expr ∧ m.expr.Good := by
    intro m hm
    have : problemMetric P.ts5 = .ok (some m) := by rw [← hm, hmet]; exact P.hmetric
    refine problemMetric_read this (fun t ht => hs t (P.sub ?_))
    rw [P.hts4]; simp [ht]
  refine ⟨⟨_, ⟨?_, ?_, ?_⟩, P.hproblem⟩, ?_, ?_, ?_, ?_, ?_, ?_⟩
  · intro e he
    obtain ⟨t, _, ht⟩ := mapM_from P.hinit he
    exact built_iff_good.2 (initEl_good hσ' ht)
  · intro g hg
    simp only [Option.some.injEq] at hg
    subst hg
    exact built_iff_good.2 (gd_rel P.hgoal).good
  · intro m h
    exact built_iff_good.2 (hm m (by rw [hmet]; exact h)).2
  · exact hdom
  · have : p.reqs = (P.reqs.map reqSet).getD [] := by
      unfold Problem.reqs
      rw [hdom, mkProblem_reqs P.hproblem rfl]
    rw [this]
    rcases P.hreqs with ⟨_, h⟩ | ⟨b, rs, _, h1, h2⟩
    · rw [h]; simp
    · rw [h2]
      simp only [Option.map_some, Option.getD_some, mem_reqSet]
      exact parseRequirements_read h1
  · intro o ho
    rw [hobj] at ho
    have ho := dedupBy_subset ho
    rcases P.hobjs with ⟨_, h, _⟩ | ⟨b, _, h⟩
    · rw [h] at ho; simp at ho
    · exact (problemObjects_read h).1 o ho
  · intro e he
    have he' := he
    rw [hinit] at he'
    obtain ⟨t, _, ht⟩ := mapM_from P.hinit (dedupBy_subset he')
    exact (initEl_read hσ' ht (hn.init e he)).1
  · have hg : p.goal = P.goal := hgoal
    have := hn.goal
    rw [hg] at this ⊢
    exact ((gd_rel P.hgoal).read (goal_scope F)).goal this
  · intro m h
    exact (hm m h).1.text (hn.metric m h)

/-- A problem that has been read is read back from its own text. -/
theorem problem_reread {σ σ' : List (Str × Term)} (hσ : OwnNames σ) {t : Str} {p : Problem}
    (h : parseProblem F σ t = .ok (p, σ')) (hn : ProblemNoObstacle F p) :
    BuiltProblem p ∧ PrintProblem F p ∧ OwnNames σ' := by
  obtain ⟨ts, hr, ⟨P⟩⟩ := parseProblem_ok h
  have hs : Tree.Shapes ts := readText_shape hr (.node ts) (by simp)
  obtain ⟨h1, h2⟩ := P.printable hσ (shapes_iff.1 hs) hn
  exact ⟨h1, h2, P.names hσ⟩

end Pddl
