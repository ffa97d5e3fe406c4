/-
A problem text or plan text is accepted exactly if it obeys the rules.
-/
import Verif.Spec.RulesProblem
import Verif.Proofs.RulesDom
import Verif.Proofs.WrittenProblem
import Verif.Proofs.RearrangedProblem

namespace Pddl.Rules
open Spec Spec.Rules Spec.Grammar

theorem mkConst_iff {n : Str} {t : Term} : mkConst n none = .ok t ↔ ValidName n ∧ t = .const n none :=
  ⟨fun h => ⟨(mkConst_ok h).1, (mkConst_ok h).2.2⟩, fun ⟨h, e⟩ => e ▸ mkConst_none h⟩

/-! ### Goals -/

theorem goalVariable_iff {F : FloatOf} {n : Str} {t : Term} : (goalEnv F).variable n = .ok t ↔ ValidName n ∧ t = .var ⟨n, []⟩ := by
  have e : (goalEnv F).variable n = (do let v ← mkVar n (.set []); pure (.var v)) := rfl
  rw [e]
  constructor
  · intro h
    obtain ⟨v, h1, h2⟩ := bind_ok_iff.1 h
    obtain ⟨hn, _, rfl⟩ := mkVar_set_ok.1 h1
    simp only [pure_ok, Except.ok.injEq] at h2
    exact ⟨hn, h2.symm⟩
  · rintro ⟨h, rfl⟩
    rw [mkVar_set_ok.2 ⟨h, by simp, rfl⟩]
    rfl

theorem goalTerms_ok {F : FloatOf} {ts : List Tree} : ∀ {l}, (goalEnv F).terms ts = .ok l →
    GoalTerms ts ∧ ∀ t ∈ l, t.tags = [] := by
  fun_induction GEnv.terms (goalEnv F) ts with
  | case1 => intro l h; simp at h; subst h; exact ⟨.nil, by simp⟩
  | case2 n ts ih =>
    intro l h
    obtain ⟨t, h1, h2⟩ := bind_ok_iff.1 h
    obtain ⟨r, h3, h4⟩ := bind_ok_iff.1 h2
    simp only [pure_ok, Except.ok.injEq] at h4
    subst h4
    obtain ⟨hn, rfl⟩ := mkConst_iff.1 h1
    obtain ⟨i1, i2⟩ := ih h3
    refine ⟨.object hn i1, ?_⟩
    intro u hu
    rcases List.mem_cons.1 hu with rfl | hu
    · rfl
    · exact i2 u hu
  | case3 n ts ih =>
    intro l h
    obtain ⟨t, h1, h2⟩ := bind_ok_iff.1 h
    obtain ⟨r, h3, h4⟩ := bind_ok_iff.1 h2
    simp only [pure_ok, Except.ok.injEq] at h4
    subst h4
    obtain ⟨hn, rfl⟩ := goalVariable_iff.1 h1
    obtain ⟨i1, i2⟩ := ih h3
    refine ⟨.var hn i1, ?_⟩
    intro u hu
    rcases List.mem_cons.1 hu with rfl | hu
    · rfl
    · exact i2 u hu
  | case4 => intro l h; simp at h

theorem goalTerms_of {F : FloatOf} {ts : List Tree} (h : GoalTerms ts) : ∃ l, (goalEnv F).terms ts = .ok l := by
  induction h with
  | nil => exact ⟨[], rfl⟩
  | @object n ts hn _ ih =>
    obtain ⟨l, hl⟩ := ih
    refine ⟨.const n none :: l, ?_⟩
    simp only [word, GEnv.terms]
    rw [show (goalEnv F).constant n = .ok (.const n none) from mkConst_iff.2 ⟨hn, rfl⟩, ok_bind, hl]
    rfl
  | @var n ts hn _ ih =>
    obtain ⟨l, hl⟩ := ih
    refine ⟨.var ⟨n, []⟩ :: l, ?_⟩
    simp only [varTrees, List.cons_append, List.nil_append, GEnv.terms]
    rw [goalVariable_iff.2 ⟨hn, rfl⟩, ok_bind, hl]
    rfl

theorem untyped_consistent {l : List Term} (h : ∀ t ∈ l, t.tags = []) : termsConsistent [] l = true := by
  rw [consistent_iff]
  intro a ha b hb _ x
  rw [h a ha, h b hb]

theorem numLiteral_iff {F : FloatOf} {s : Str} : (∃ n, numLiteral F s = .ok n) ↔ ('.' ∈ s → F s ≠ none) := by
  unfold numLiteral
  split
  · rename_i hd
    cases F s with
    | none => simp [hd]
    | some p => simp
  · rename_i hd
    exact ⟨fun _ h => absurd h hd, fun _ => ⟨_, rfl⟩⟩

theorem goalNumber_iff {F : FloatOf} {t : Tree} : (∃ e, (goalEnv F).fExp t = .ok e) ↔ GoalNumber F t := by
  simp only [Pddl.fExp_iff]
  constructor
  · rintro ⟨e, h⟩
    induction h with
    | num hn => exact .literal (numLiteral_iff.1 ⟨_, hn⟩)
    | plus h2 hl _ ih => exact .plus h2 fun t ht => by obtain ⟨e, _, hp⟩ := Pairs.mem_left (R := fun t _ => GoalNumber F t) ⟨hl, ih⟩ ht; exact hp
    | times h2 hl _ ih => exact .times h2 fun t ht => by obtain ⟨e, _, hp⟩ := Pairs.mem_left (R := fun t _ => GoalNumber F t) ⟨hl, ih⟩ ht; exact hp
    | divide _ _ h1 h2 => exact .divide h1 h2
    | minus _ h1 => exact .negate h1
    | fn0 hn => exact .name (parseFunction_iff.1 (mkNFun_ok.1 hn).1)
    | fn ht hn => exact .args (parseFunction_iff.1 (mkNFun_ok.1 hn).1) (goalTerms_ok ht).1
  · intro h
    induction h with
    | literal hs => obtain ⟨n, hn⟩ := numLiteral_iff.2 hs; exact ⟨_, .num hn⟩
    | plus h2 _ ih => obtain ⟨es, h1, h3⟩ := pairs_of ih; exact ⟨_, .plus h2 h1 h3⟩
    | times h2 _ ih => obtain ⟨es, h1, h3⟩ := pairs_of ih; exact ⟨_, .times h2 h1 h3⟩
    | divide _ _ h1 h2 => obtain ⟨e, he⟩ := h1; obtain ⟨e', he'⟩ := h2; exact ⟨_, .divide he he'⟩
    | negate _ h1 => obtain ⟨e, he⟩ := h1; exact ⟨_, .minus he⟩
    | name hn => exact ⟨_, .fn0 (mkNFun_ok.2 ⟨parseFunction_iff.2 hn, rfl⟩)⟩
    | args hn ht =>
      obtain ⟨l, hl⟩ := goalTerms_of (F := F) ht
      exact ⟨_, .fn hl (mkNFun_ok.2 ⟨parseFunction_iff.2 hn, rfl⟩)⟩

theorem goal_hasAny {F : FloatOf} {rs : List Req} : (goalEnv F).hasAny rs = false := by
  unfold GEnv.hasAny goalEnv
  simp

theorem no_qmark_number {F : FloatOf} : ¬ GoalNumber F (.atom .qmark) := by
  intro h
  cases h

theorem goalIn_iff {F : FloatOf} {t : Tree} : (∃ e, (goalEnv F).gd t = .ok e) ↔ GoalIn F t := by
  simp only [Pddl.gd_iff]
  constructor
  · rintro ⟨e, h⟩
    induction h with
    | and hl _ ih => exact .and fun t ht => by obtain ⟨e, _, hp⟩ := Pairs.mem_left (R := fun t _ => GoalIn F t) ⟨hl, ih⟩ ht; exact hp
    | or _ _ h => rw [goal_hasAny] at h; cases h
    | not _ ih => exact .not ih
    | imply _ _ h => rw [goal_hasAny] at h; cases h
    | quant _ _ _ h => rw [goal_hasAny] at h; cases h
    | atom _ ht hp => exact .predicate (parseName_iff.1 (mkPred_ok.1 hp).1) (goalTerms_ok ht).1
    | eq _ _ h => rw [goal_hasAny] at h; cases h
    | @comp t op a b e e' h1 h2 ha hb =>
      have ha' := goalNumber_iff.1 ⟨e, ha⟩
      have hb' := goalNumber_iff.1 ⟨e', hb⟩
      by_cases ht : t = .eq
      · subst ht
        refine .equal (fun n e => ?_) ha' hb'
        have := h2 rfl
        rw [e] at this
        simp [word, startsWithTerm] at this
      · refine .compare ?_ ha' hb'
        cases t <;> simp [compOp] at h1 ht ⊢
  · intro h
    induction h with
    | predicate hn ht =>
      obtain ⟨l, hl⟩ := goalTerms_of (F := F) ht
      exact ⟨_, .atom (valid_not_keyword hn) hl
        (mkPred_ok.2 ⟨parseName_iff.2 hn, untyped_consistent (goalTerms_ok hl).2, rfl⟩)⟩
    | and _ ih => obtain ⟨es, h1, h3⟩ := pairs_of ih; exact ⟨_, .and h1 h3⟩
    | not _ ih => obtain ⟨e, he⟩ := ih; exact ⟨_, .not he⟩
    | @compare op a b ho ha hb =>
      obtain ⟨e, he⟩ := goalNumber_iff.2 ha
      obtain ⟨e', he'⟩ := goalNumber_iff.2 hb
      simp only [List.mem_cons, List.not_mem_nil, or_false] at ho
      rcases ho with rfl | rfl | rfl | rfl
      · exact ⟨_, .comp rfl (by simp) he he'⟩
      · exact ⟨_, .comp rfl (by simp) he he'⟩
      · exact ⟨_, .comp rfl (by simp) he he'⟩
      · exact ⟨_, .comp rfl (by simp) he he'⟩
    | @equal a b hne ha hb =>
      obtain ⟨e, he⟩ := goalNumber_iff.2 ha
      obtain ⟨e', he'⟩ := goalNumber_iff.2 hb
      refine ⟨_, .comp rfl (fun _ => ?_) he he'⟩
      unfold startsWithTerm
      split
      · rename_i h; simp only [List.cons.injEq] at h; exact absurd h.1 (hne _)
      · rename_i h
        simp only [List.cons.injEq] at h
        rw [h.1] at ha
        exact absurd ha no_qmark_number
      · rfl

/-! ### Facts and metrics -/

theorem names_applied {args : List Tree} {ns : List Str} (h : namesOnly args = some ns) (n : Str) :
    Tree.node (.atom (.name n) :: args) = applied n ns := by
  rw [namesOnly_some h]; rfl

theorem mapM_valid {ns : List Str} : (∃ ts, ns.mapM (fun n => mkConst n none) = .ok ts) ↔ ∀ m ∈ ns, ValidName m := by
  constructor
  · rintro ⟨ts, h⟩ m hm
    obtain ⟨t, _, h⟩ := forall2_mem' (mapM_forall₂.1 h) m hm
    exact (mkConst_iff.1 h).1
  · intro h
    exact ⟨_, mapM_mkConst h⟩

theorem fluentIn_iff {t : Tree} : (∃ f, basicFunction t = .ok f) ↔ FluentIn t := by
  constructor
  · rintro ⟨f, h⟩
    unfold basicFunction at h
    split at h
    · exact .name (parseFunction_iff.1 (mkNFun_ok.1 h).1)
    · rename_i n args
      split at h
      · cases h
      · rename_i ns hns
        obtain ⟨ts, h1, h2⟩ := bind_ok_iff.1 h
        rw [names_applied hns n]
        exact .args (parseFunction_iff.1 (mkNFun_ok.1 h2).1) (mapM_valid.1 ⟨ts, h1⟩)
    · cases h
  · intro h
    cases h with
    | name hn => exact ⟨_, mkNFun_ok.2 ⟨parseFunction_iff.2 hn, rfl⟩⟩
    | @args n ns hn hm =>
      obtain ⟨ts, hts⟩ := mapM_valid.2 hm
      refine ⟨⟨n, ts⟩, ?_⟩
      simp only [applied, basicFunction]
      rw [namesOnly_map]
      simp only
      rw [hts, ok_bind]
      exact mkNFun_ok.2 ⟨parseFunction_iff.2 hn, rfl⟩

theorem initTerm_iff {σ : List (Str × Term)} (hσ : OwnNames σ) {n : Str} : (∃ t, initTerm σ n = .ok t) ↔ ValidName n := by
  constructor
  · rintro ⟨t, h⟩
    unfold initTerm at h
    split at h
    · rename_i hd; exact (hσ _ _ hd).1
    · exact (mkConst_iff.1 h).1
  · intro h
    obtain ⟨x, hx⟩ := initTerm_own hσ h
    exact ⟨_, hx⟩

theorem atomicName_iff {σ : List (Str × Term)} (hσ : OwnNames σ) {l : List Tree} :
    (∃ e, atomicName σ l = .ok e) ↔ ∃ n ns, .node l = applied n ns ∧ ValidName n ∧ ∀ m ∈ ns, ValidName m := by
  constructor
  · rintro ⟨e, h⟩
    unfold atomicName at h
    split at h
    · rename_i n args
      split at h
      · cases h
      · rename_i ns hns
        obtain ⟨ts, h1, h2⟩ := bind_ok_iff.1 h
        obtain ⟨q, h3, _⟩ := bind_ok_iff.1 h2
        refine ⟨n, ns, names_applied hns n, parseName_iff.1 (mkPred_ok.1 h3).1, ?_⟩
        intro m hm
        obtain ⟨t, _, h⟩ := forall2_mem' (mapM_forall₂.1 h1) m hm
        exact (initTerm_iff hσ).1 ⟨t, h⟩
    · cases h
  · rintro ⟨n, ns, e, hn, hm⟩
    simp only [applied, Tree.node.injEq] at e
    subst e
    have h1 : ∃ ts, ns.mapM (initTerm σ) = .ok ts ∧ ∀ t ∈ ts, ∃ m, initTerm σ m = .ok t ∧ t.name = m := by
      have hc : ∀ t ∈ ns.map (fun m => Term.const m none), IsConstant t := by
        intro t ht
        obtain ⟨m, hm', rfl⟩ := List.mem_map.1 ht
        exact hm m hm'
      obtain ⟨ts, k1, _, k3⟩ := init_terms hσ hc
      rw [List.map_map] at k1
      have : ns.map (Term.name ∘ fun m => Term.const m none) = ns := by
        conv_rhs => rw [← List.map_id ns]
        rfl
      rw [this] at k1
      exact ⟨ts, k1, k3⟩
    obtain ⟨ts, h1, h2⟩ := h1
    refine ⟨.pred ⟨n, ts⟩, ?_⟩
    simp only [atomicName]
    rw [namesOnly_map]
    simp only
    rw [h1, ok_bind]
    have : mkPred n ts = .ok ⟨n, ts⟩ := by
      refine mkPred_ok.2 ⟨parseName_iff.2 hn, consistent_iff.2 ?_, rfl⟩
      intro a ha b hb e
      obtain ⟨m, k1, rfl⟩ := h2 a ha
      obtain ⟨m', k2, rfl⟩ := h2 b hb
      rw [e, k2] at k1
      simp only [Except.ok.injEq] at k1
      rw [k1]
      exact fun _ => Iff.rfl
    rw [this]
    rfl

theorem not_invalid : ¬ ValidName s%"not" := fun h => valid_not_keyword h (by decide)

theorem initIn_iff {F : FloatOf} {σ : List (Str × Term)} (hσ : OwnNames σ) {t : Tree} : (∃ e, initEl F σ t = .ok e) ↔ InitIn F t := by
  constructor
  · rintro ⟨e, h⟩
    unfold initEl at h
    split at h
    · split at h
      · obtain ⟨f, h1, h2⟩ := bind_ok_iff.1 h
        obtain ⟨n, h3, _⟩ := bind_ok_iff.1 h2
        exact .value (fluentIn_iff.1 ⟨f, h1⟩) (numLiteral_iff.1 ⟨n, h3⟩)
      · cases h
    · rename_i w args
      split at h
      · rename_i hw
        subst hw
        split at h
        · obtain ⟨e, h1, _⟩ := bind_ok_iff.1 h
          obtain ⟨n, ns, e2, hn, hm⟩ := (atomicName_iff hσ).1 ⟨e, h1⟩
          rw [e2]
          exact .not hn hm
        · cases h
      · obtain ⟨n, ns, e2, hn, hm⟩ := (atomicName_iff hσ).1 ⟨e, h⟩
        rw [e2]
        exact .fact hn hm
    · cases h
  · intro h
    cases h with
    | @fact n ns hn hm =>
      have hne : n ≠ s%"not" := by rintro rfl; exact not_invalid hn
      simp only [applied, initEl]
      rw [if_neg hne]
      exact (atomicName_iff hσ).2 ⟨n, ns, rfl, hn, hm⟩
    | @not n ns hn hm =>
      obtain ⟨e, he⟩ := (atomicName_iff hσ (l := .atom (.name n) :: ns.map (fun n => .atom (.name n)))).2 ⟨n, ns, rfl, hn, hm⟩
      refine ⟨.not e, ?_⟩
      simp only [applied, word, initEl]
      rw [if_pos trivial, he]
      rfl
    | @value t s ht hs =>
      obtain ⟨f, hf⟩ := fluentIn_iff.2 ht
      obtain ⟨n, hn⟩ := numLiteral_iff.2 hs
      refine ⟨construct (.fop .eq) [.nfun f, .num n], ?_⟩
      simp only [initEl]
      rw [hf, ok_bind, hn]
      rfl

theorem initEl_literal {F : FloatOf} {σ : List (Str × Term)} {t : Tree} {e : Expr} (h : initEl F σ t = .ok e) : isLiteral e = true := by
  have ha : ∀ {l e}, atomicName σ l = .ok e → e.isAtomic = true ∧ isLiteral e = true := by
    intro l e h
    unfold atomicName at h
    split at h
    · split at h
      · cases h
      · obtain ⟨ts, _, h2⟩ := bind_ok_iff.1 h
        obtain ⟨q, _, h3⟩ := bind_ok_iff.1 h2
        simp only [pure_ok, Except.ok.injEq] at h3
        subst h3
        exact ⟨rfl, rfl⟩
    · cases h
  unfold initEl at h
  split at h
  · split at h
    · obtain ⟨f, _, h2⟩ := bind_ok_iff.1 h
      obtain ⟨n, _, h3⟩ := bind_ok_iff.1 h2
      simp only [pure_ok, Except.ok.injEq] at h3
      subst h3
      rw [construct_eq_value]; rfl
    · cases h
  · split at h
    · split at h
      · obtain ⟨e, h1, h2⟩ := bind_ok_iff.1 h
        simp only [pure_ok, Except.ok.injEq] at h2
        subst h2
        exact (ha h1).1
      · cases h
    · exact (ha h).2
  · cases h

theorem metricExps_iff {ts : List Tree} : (∃ es, metricExps ts = .ok es) ↔ ∀ t ∈ ts, ∃ e, metricExp t = .ok e := by
  constructor
  · rintro ⟨es, h⟩ t ht
    obtain ⟨h1, h2⟩ := metricExps_zip h
    obtain ⟨e, _, he⟩ := Pairs.mem_left (R := fun t e => metricExp t = .ok e) ⟨h1, h2⟩ ht
    exact ⟨e, he⟩
  · intro h
    induction ts with
    | nil => exact ⟨[], rfl⟩
    | cons t ts ih =>
      obtain ⟨e, he⟩ := h t (by simp)
      obtain ⟨es, hes⟩ := ih (fun u hu => h u (List.mem_cons_of_mem _ hu))
      refine ⟨e :: es, ?_⟩
      rw [metricExps, he, ok_bind, hes]
      rfl

theorem metricExp_fluent {t : Tree} (h : FluentIn t) : ∃ e, metricExp t = .ok e := by
  obtain ⟨f, hf⟩ := fluentIn_iff.2 h
  refine ⟨.nfun f, ?_⟩
  cases h with
  | name _ => simp only [word, metricExp] at hf ⊢; rw [hf]; rfl
  | args _ _ => simp only [applied, metricExp] at hf ⊢; rw [hf]; rfl

theorem metricNumber_iff {t : Tree} : (∃ e, metricExp t = .ok e) ↔ MetricNumber t := by
  constructor
  · induction t using Tree.ind with
    | hatom t =>
      rintro ⟨e, h⟩
      unfold metricExp at h
      split at h
      all_goals first
        | (rename_i heq; cases heq; done)
        | (rename_i heq; cases heq; exact .literal)
        | (rename_i heq; cases heq
           obtain ⟨f, h1, h⟩ := bind_ok_iff.1 h
           exact .fluent (fluentIn_iff.1 ⟨f, h1⟩))
        | cases h
    | hnode l ih =>
      rintro ⟨e, h⟩
      have hall : ∀ {args es}, (∀ t ∈ args, t ∈ l) → metricExps args = .ok es → ∀ t ∈ args, MetricNumber t := by
        intro args es hs h t ht
        exact ih t (hs t ht) (metricExps_iff.1 ⟨es, h⟩ t ht)
      unfold metricExp at h
      split at h
      · rename_i heq; cases heq
      · rename_i args heq
        cases heq
        obtain ⟨es, h1, h⟩ := bind_ok_iff.1 h
        obtain ⟨_, h2, h⟩ := bind_ok_iff.1 h
        simp only [check_ok, decide_eq_true_eq] at h2
        exact .plus h2 (hall (by simp +contextual) h1)
      · rename_i args heq
        cases heq
        obtain ⟨es, h1, h⟩ := bind_ok_iff.1 h
        obtain ⟨_, h2, h⟩ := bind_ok_iff.1 h
        simp only [check_ok, decide_eq_true_eq] at h2
        exact .times h2 (hall (by simp +contextual) h1)
      · rename_i args heq
        cases heq
        obtain ⟨es, h1, h⟩ := bind_ok_iff.1 h
        obtain ⟨_, h2, h⟩ := bind_ok_iff.1 h
        simp only [check_ok, decide_eq_true_eq] at h2
        have := hall (by simp +contextual) h1
        match args, h2, this with
        | [a, b], _, this => exact .divide (this a (by simp)) (this b (by simp))
      · rename_i args heq
        cases heq
        obtain ⟨es, h1, h⟩ := bind_ok_iff.1 h
        obtain ⟨_, h2, h⟩ := bind_ok_iff.1 h
        simp only [check_ok, decide_eq_true_eq] at h2
        have := hall (by simp +contextual) h1
        match args, h2, this with
        | [a], _, this => exact .negate (this a (by simp))
      · rename_i heq; cases heq
      · rename_i n args heq
        cases heq
        obtain ⟨f, h1, h⟩ := bind_ok_iff.1 h
        exact .fluent (fluentIn_iff.1 ⟨f, h1⟩)
      · cases h
  · intro h
    induction h with
    | literal => exact ⟨_, rfl⟩
    | @plus ts h2 _ ih =>
      obtain ⟨es, h1⟩ := metricExps_iff.2 ih
      refine ⟨construct (.fop .plus) es, ?_⟩
      rw [metricExp, h1, ok_bind, check_ok (u := ()) |>.2 (by simpa using h2)]
      rfl
    | @times ts h2 _ ih =>
      obtain ⟨es, h1⟩ := metricExps_iff.2 ih
      refine ⟨construct (.fop .times) es, ?_⟩
      rw [metricExp, h1, ok_bind, check_ok (u := ()) |>.2 (by simpa using h2)]
      rfl
    | @divide a b _ _ h1 h2 =>
      obtain ⟨es, h1⟩ := (metricExps_iff (ts := [a, b])).2 (by simp [h1, h2])
      refine ⟨construct (.fop .divide) es, ?_⟩
      rw [metricExp, h1, ok_bind]
      rfl
    | @negate a _ h1 =>
      obtain ⟨es, h1⟩ := (metricExps_iff (ts := [a])).2 (by simp [h1])
      refine ⟨construct (.fop .minus) es, ?_⟩
      rw [metricExp, h1, ok_bind]
      rfl
    | fluent h => exact metricExp_fluent h

theorem max_min {b r r' : List Tree} (h : Keyword s%"maximize" b r) (h' : Keyword s%"minimize" b r') : False := by
  have h := dropKeyword_grammar.2 h
  have h' := dropKeyword_grammar.2 h'
  unfold dropKeyword at h h'
  split at h
  · rename_i w r
    simp only at h'
    split at h
    · rename_i hp
      split at h'
      · rename_i hp'
        obtain ⟨x, e⟩ := List.isPrefixOf_iff_prefix.1 hp
        obtain ⟨y, e'⟩ := List.isPrefixOf_iff_prefix.1 hp'
        rw [← e'] at e
        simp at e
      · cases h'
    · cases h
  · cases h

theorem metricSpec_iff {b : List Tree} : (∃ m, metricSpec b = .ok m) ↔
    ∃ t, (Keyword s%"maximize" b [t] ∨ Keyword s%"minimize" b [t]) ∧ MetricNumber t := by
  constructor
  · rintro ⟨m, h⟩
    unfold metricSpec at h
    split at h
    · rename_i t hd
      obtain ⟨e, h1, _⟩ := bind_ok_iff.1 h
      exact ⟨t, .inl (dropKeyword_grammar.1 hd), metricNumber_iff.1 ⟨e, h1⟩⟩
    · cases h
    · split at h
      · rename_i t hd
        obtain ⟨e, h1, _⟩ := bind_ok_iff.1 h
        exact ⟨t, .inr (dropKeyword_grammar.1 hd), metricNumber_iff.1 ⟨e, h1⟩⟩
      · cases h
  · rintro ⟨t, hk, ht⟩
    obtain ⟨e, he⟩ := metricNumber_iff.2 ht
    rcases hk with hk | hk
    · refine ⟨⟨e, true⟩, ?_⟩
      unfold metricSpec
      rw [dropKeyword_grammar.2 hk]
      simp only
      rw [he]
      rfl
    · refine ⟨⟨e, false⟩, ?_⟩
      unfold metricSpec
      have : dropKeyword s%"maximize" b = none := by
        cases hd : dropKeyword s%"maximize" b with
        | none => rfl
        | some r => exact (max_min (dropKeyword_grammar.1 hd) hk).elim
      rw [this, dropKeyword_grammar.2 hk]
      simp only
      rw [he]
      rfl

theorem problemMetric_iff {o : Option (List Tree)} : (∃ m, problemMetric (optText s%"metric" o) = .ok m) ↔
    ∀ b, o = some b → ∃ t, (Keyword s%"maximize" b [t] ∨ Keyword s%"minimize" b [t]) ∧ MetricNumber t := by
  cases o with
  | none => exact ⟨(fun _ b hb => by cases hb), fun _ => ⟨none, rfl⟩⟩
  | some b =>
    have e : problemMetric (optText s%"metric" (some b)) = (do let m ← metricSpec b; pure (some m)) := rfl
    rw [e]
    constructor
    · rintro ⟨m, h⟩ b' hb
      obtain ⟨m', h1, _⟩ := bind_ok_iff.1 h
      cases hb
      exact metricSpec_iff.1 ⟨m', h1⟩
    · intro h
      obtain ⟨m, hm⟩ := metricSpec_iff.2 (h b rfl)
      exact ⟨some m, by rw [hm]; rfl⟩

/-! ### Problems -/

theorem problemObjects_iff {b : List Tree} (hw : WordsOk (.node b)) :
    (∃ r, problemObjects b = .ok r) ↔ ∃ l : NameList, b = l.text ∧ l.Ok := by
  have hw' : ∀ w, .atom (.name w) ∈ b → nameRegex w = true := fun w h => hw w (.node h .refl)
  unfold problemObjects
  constructor
  · rintro ⟨r, h⟩
    obtain ⟨d, h1, h⟩ := bind_ok_iff.1 h
    obtain ⟨l, hl, e, _⟩ := (parseTypedNames_iff hw').1 h1
    exact ⟨l, e, hl⟩
  · rintro ⟨l, e, hl⟩
    rw [(parseTypedNames_iff hw').2 ⟨l, hl, e, rfl⟩, ok_bind, mkConsts_total hl, ok_bind]
    exact ⟨_, rfl⟩

theorem mapM_total {α β : Type} {f : α → Except Exc β} {l : List α} (h : ∀ a ∈ l, ∃ b, f a = .ok b) : ∃ bs, l.mapM f = .ok bs := by
  induction l with
  | nil => exact ⟨[], rfl⟩
  | cons a l ih =>
    obtain ⟨b, hb⟩ := h a (by simp)
    obtain ⟨bs, hbs⟩ := ih (fun x hx => h x (List.mem_cons_of_mem _ hx))
    exact ⟨b :: bs, by rw [List.mapM_cons, hb, ok_bind, hbs]; rfl⟩

theorem problemDef_in {F : FloatOf} {σ : List (Str × Term)} (hσ : OwnNames σ) {ts : List Tree} {s : ProblemSections}
    (hw : WordsOk (.node ts)) (hs : s.Of (.node ts)) : (∃ r, problemDef F σ ts = .ok r) ↔ ProblemSectionsIn F s := by
  have hwo : ∀ b, s.objects = some b → WordsOk (.node b) := by
    intro b hb w hi
    obtain ⟨h, _, e⟩ := hs
    rw [e] at hw
    refine WordsOk.body (k := s%"objects") (hw.sub ?_) w hi
    rw [hb]
    simp [optText]
  rw [problemDef_sections hs]
  constructor
  · rintro ⟨r, h⟩
    obtain ⟨reqs, h1, h⟩ := bind_ok_iff.1 h
    obtain ⟨⟨objs, σo⟩, h2, h⟩ := bind_ok_iff.1 h
    obtain ⟨init, h3, h⟩ := bind_ok_iff.1 h
    obtain ⟨goal, h4, h⟩ := bind_ok_iff.1 h
    obtain ⟨metric, h5, h⟩ := bind_ok_iff.1 h
    obtain ⟨p, h6, h⟩ := bind_ok_iff.1 h
    have hok := ((Props.mkProblem_ok (fun d hd => by cases hd)).1 h6).1
    have hso : OwnNames σo := by
      rcases optSection_ok h2 with ⟨_, e⟩ | ⟨b, _, e⟩
      · injection e with _ e
        rw [e]; exact hσ
      · exact (problemObjects_read e).2
    refine ⟨hok.name, hok.domainName _ rfl, ?_, ?_, ?_, goalIn_iff.1 ⟨goal, h4⟩, problemMetric_iff.1 ⟨metric, h5⟩⟩
    · intro b hb
      rw [hb] at h1
      obtain ⟨rs, h7, _⟩ := bind_ok_iff.1 h1
      exact requirements_grammar h7
    · intro b hb
      rw [hb] at h2
      exact (problemObjects_iff (hwo b hb)).1 ⟨_, h2⟩
    · intro t ht
      obtain ⟨e, _, he⟩ := forall2_mem' (mapM_forall₂.1 h3) t ht
      exact (initIn_iff hso).1 ⟨e, he⟩
  · rintro ⟨hn, hd, hr, ho, hi, hg, hm⟩
    have g1 : ∃ reqs, optSection s.reqs none problemRequirements = .ok reqs := by
      cases h : s.reqs with
      | none => exact ⟨none, rfl⟩
      | some b =>
        obtain ⟨rs, h1⟩ := parseRequirements_of (hr b h)
        refine ⟨some rs, ?_⟩
        simp only [optSection, problemRequirements, h1]
        rfl
    have g2 : ∃ objs σo, optSection s.objects ([], σ) problemObjects = .ok (objs, σo) ∧ OwnNames σo := by
      cases h : s.objects with
      | none => exact ⟨[], σ, rfl, hσ⟩
      | some b =>
        obtain ⟨⟨os, σo⟩, h1⟩ := (problemObjects_iff (hwo b h)).2 (ho b h)
        exact ⟨os, σo, h1, (problemObjects_read h1).2⟩
    obtain ⟨reqs, g1⟩ := g1
    obtain ⟨objs, σo, g2, hso⟩ := g2
    obtain ⟨init, g3⟩ := mapM_total (f := initEl F σo) (l := s.init) (fun t ht => (initIn_iff hso).2 (hi t ht))
    obtain ⟨goal, g4⟩ := goalIn_iff.2 hg
    obtain ⟨metric, g5⟩ := problemMetric_iff.2 hm
    have hlit : ∀ e ∈ init, Literal e := by
      intro e he
      obtain ⟨t, _, h⟩ := forall₂_right (mapM_ok_iff.1 g3) e he
      exact literal_iff.1 (initEl_literal h)
    have hok : ProblemArgsOk ⟨s.name, none, some s.domain, reqs, objs, init, some goal, metric⟩ :=
      ⟨hn, .inr (by simp), (fun n h => by cases h; exact hd), (fun _ _ h => nomatch h), (fun _ _ h => nomatch h), hlit,
        (fun _ h => nomatch h)⟩
    have h6 := (Props.mkProblem_ok (fun d hd => by cases hd)).2 ⟨hok, rfl⟩
    rw [g1, ok_bind, g2, ok_bind]
    simp only
    rw [g3, ok_bind, g4, ok_bind, g5, ok_bind, h6, ok_bind]
    exact ⟨_, rfl⟩

/-- A problem text is accepted exactly if it obeys the rules. -/
theorem parseProblem_iff (F : FloatOf) {σ : List (Str × Term)} (hσ : OwnNames σ) (text : Str) :
    (∃ r, parseProblem F σ text = .ok r) ↔ ProblemIn F text := by
  constructor
  · rintro ⟨⟨p, σ'⟩, h⟩
    obtain ⟨ts, h1, ⟨P⟩⟩ := parseProblem_ok h
    exact ⟨_, P.sections, readText_brackets.1 h1, P.sections_of,
      (problemDef_in hσ (fun w hi => readText_words h1 (by simp) hi) P.sections_of).1 ⟨_, P.run⟩⟩
  · rintro ⟨t, s, hb, hs, hD⟩
    have hr := readText_brackets.2 hb
    obtain ⟨_, _, e⟩ := id hs
    subst e
    obtain ⟨r, h⟩ := (problemDef_in hσ (fun w hi => readText_words hr (by simp) hi) hs).2 hD
    refine ⟨r, ?_⟩
    unfold parseProblem
    rw [hr, ok_bind]
    exact h

/-! ### Plans -/

theorem groundAction_iff {t : Tree} : (∃ a, groundAction t = .ok a) ↔ ∃ n ns, t = applied n ns ∧ ∀ m ∈ ns, ValidName m := by
  constructor
  · rintro ⟨a, h⟩
    unfold groundAction at h
    split at h
    · rename_i n args
      split at h
      · cases h
      · rename_i ns hns
        obtain ⟨ts, h1, _⟩ := bind_ok_iff.1 h
        exact ⟨n, ns, names_applied hns n, mapM_valid.1 ⟨ts, h1⟩⟩
    · cases h
  · rintro ⟨n, ns, rfl, hm⟩
    obtain ⟨ts, hts⟩ := mapM_valid.2 hm
    refine ⟨(n, ts), ?_⟩
    simp only [applied, groundAction]
    rw [namesOnly_map]
    simp only
    rw [hts]
    rfl

/-- A plan text is accepted exactly if it obeys the rules. -/
theorem parsePlan_iff (text : Str) : (∃ p, parsePlan text = .ok p) ↔ PlanIn text := by
  unfold parsePlan
  constructor
  · rintro ⟨p, h⟩
    obtain ⟨ts, h1, h⟩ := bind_ok_iff.1 h
    obtain ⟨as, h2, _⟩ := bind_ok_iff.1 h
    refine ⟨ts, readText_brackets.1 h1, fun t ht => ?_⟩
    obtain ⟨a, _, ha⟩ := forall2_mem' (mapM_forall₂.1 h2) t ht
    exact groundAction_iff.1 ⟨a, ha⟩
  · rintro ⟨ts, hb, h⟩
    obtain ⟨as, has⟩ := mapM_total (f := groundAction) (fun t ht => groundAction_iff.2 (h t ht))
    exact ⟨⟨as⟩, by rw [readText_brackets.2 hb, ok_bind, has]; rfl⟩

end Pddl.Rules
