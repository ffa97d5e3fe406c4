/-
The metric that is read has the value of the written one.
-/
import Verif.Spec.Cost
import Verif.Proofs.Execute
import Verif.Proofs.Keeps

namespace Pddl
open Spec Grammar

variable {D : Type} (I : Interp D) (lit : Str → Option Rat)

theorem costs_append (ρ : Str → D) (a b : List Expr) :
    metricValues I lit ρ (a ++ b) = (metricValues I lit ρ a).bind (fun x => (metricValues I lit ρ b).map (x ++ ·)) := by
  induction a with
  | nil => simp [metricValues]
  | cons e l ih =>
    simp only [List.cons_append, metricValues, ih]
    cases metricValue I lit ρ e <;> simp
    cases metricValues I lit ρ l <;> simp
    cases metricValues I lit ρ b <;> simp

theorem costs_flatten (ρ : Str → D) (o : FOp) (op : Rat → Rat → Rat) (u : Rat)
    (hass : ∀ a b c, op (op a b) c = op a (op b c)) (hu : ∀ a, op u a = a)
    (hu' : ∀ a, op a u = a) (ho : ∀ l, arith o l = some (l.foldr op u)) (as : List Expr) :
    (metricValues I lit ρ (flattenEs (.fop o) as)).map (List.foldr op u) = (metricValues I lit ρ as).map (List.foldr op u) := by
  have hf : ∀ a b : List Rat, (a ++ b).foldr op u = op (a.foldr op u) (b.foldr op u) := by
    intro a b
    induction a with
    | nil => simp [hu]
    | cons x l ih => simp only [List.cons_append, List.foldr_cons, ih, hass]
  have key : ∀ n, ∀ as : List Expr, Expr.sizes as = n →
      (metricValues I lit ρ (flattenEs (.fop o) as)).map (List.foldr op u) = (metricValues I lit ρ as).map (List.foldr op u) := by
    intro n
    induction n using Nat.strongRecOn with
    | _ n ih =>
      intro as hn
      match as with
      | [] => rfl
      | e :: rest =>
        have hpos : 0 < e.size := by cases e <;> simp [Expr.size]
        simp only [Expr.sizes] at hn
        have hrest := ih (Expr.sizes rest) (by omega) rest rfl
        have happ : ∀ a b : List Expr, (metricValues I lit ρ (a ++ b)).map (List.foldr op u) =
            ((metricValues I lit ρ a).map (List.foldr op u)).bind
              (fun x => ((metricValues I lit ρ b).map (List.foldr op u)).map (op x)) := by
          intro a b
          rw [costs_append]
          cases metricValues I lit ρ a <;> cases metricValues I lit ρ b <;> simp [hf]
        have hcons : (metricValues I lit ρ (e :: rest)).map (List.foldr op u) = (metricValue I lit ρ e).bind
              (fun x => ((metricValues I lit ρ rest).map (List.foldr op u)).map (op x)) := by
          simp only [metricValues]
          cases metricValue I lit ρ e <;> cases metricValues I lit ρ rest <;> simp
        rw [flattenEs, happ, hrest, hcons]
        congr 1
        cases h : e.operandsIf (.fop o) with
        | none =>
          rw [flattenE_none h]
          simp only [metricValues]
          cases metricValue I lit ρ e <;> simp [hu']
        | some bs =>
          rw [flattenE_some h]
          have := Expr.size_operands h
          rw [ih (Expr.sizes bs) (by omega) bs rfl]
          rw [ofCls_operandsIf] at h
          subst h
          simp only [Expr.ofCls, metricValue]
          cases metricValues I lit ρ bs <;> simp [ho]
  exact key _ as rfl

theorem cost_plus (ρ : Str → D) (es : List Expr) (h2 : 2 ≤ es.length) (hd : Distinct (leavesAll (.fop .plus) es)) :
    metricValue I lit ρ (construct (.fop .plus) es) = (metricValues I lit ρ es).bind (arith .plus) := by
  rw [Props.construct_fop_distinct .plus rfl es h2 hd, metricValue, leaves_eq]
  have := costs_flatten I lit ρ .plus (· + ·) 0 (fun a b c => by ring) (fun a => by ring) (fun a => by ring) (fun l => rfl) es
  revert this
  cases metricValues I lit ρ (flattenEs (.fop .plus) es) <;> cases metricValues I lit ρ es <;> simp [arith]

theorem cost_times (ρ : Str → D) (es : List Expr) (h2 : 2 ≤ es.length) (hd : Distinct (leavesAll (.fop .times) es)) :
    metricValue I lit ρ (construct (.fop .times) es) = (metricValues I lit ρ es).bind (arith .times) := by
  rw [Props.construct_fop_distinct .times rfl es h2 hd, metricValue, leaves_eq]
  have := costs_flatten I lit ρ .times (· * ·) 1 (fun a b c => by ring) (fun a => by ring) (fun a => by ring) (fun l => rfl) es
  revert this
  cases metricValues I lit ρ (flattenEs (.fop .times) es) <;> cases metricValues I lit ρ es <;> simp [arith]

/-- Different operands, none of the same class, are kept as they are. -/
theorem construct_fop_plain (o : FOp) (es : List Expr) (hd : Distinct es) (hf : ∀ e ∈ es, ∀ as, e ≠ .bfun o as) :
    construct (.fop o) es = .bfun o es := by
  have hc : Canonical (.fop o) es := by
    refine ⟨fun e he => ?_, ?_⟩
    · cases h : e.operandsIf (.fop o) with
      | none => rfl
      | some as => exact absurd (ofCls_operandsIf.mp h) (hf e he as)
    · refine List.Pairwise.imp ?_ hd
      intro a b e
      cases e' : b.pyEq a with
      | false => rfl
      | true => rw [Expr.pyEq_symm e'] at e; simp at e
  rw [hc.stable (by simp [Cls.idempotent])]
  simp [Expr.ofCls]

theorem costs_pairs {ρ : Str → D} {args : List Tree} {es : List Expr} (hl : args.length = es.length)
    (h : ∀ p ∈ args.zip es, metricValue I lit ρ p.2 = treeValue I lit ρ p.1) :
    metricValues I lit ρ es = treeValues I lit ρ args := by
  induction args generalizing es with
  | nil => cases es with
    | nil => rfl
    | cons _ _ => simp at hl
  | cons a args ih =>
    cases es with
    | nil => simp at hl
    | cons e es =>
      simp only [metricValues, treeValues]
      rw [h (a, e) (by simp), ih (by simpa using hl) (fun p hp => h p (by simp [hp]))]

theorem Spec.KeepsMetric.sub {s t : Tree} (h : KeepsMetric t) (hs : Inside s t) : KeepsMetric s where
  plus a es hi := h.plus a es (hi.trans hs)
  times a es hi := h.times a es (hi.trans hs)
  divide a es hi := h.divide a es (hi.trans hs)

/-- The expression of a metric has the written value. -/
theorem metricExp_cost {ρ : Str → D} {t : Tree} : ∀ {e}, metricExp t = .ok e → KeepsMetric t → metricValue I lit ρ e = treeValue I lit ρ t := by
  induction t using Tree.ind with
  | hatom t =>
    intro e h hk
    unfold metricExp at h
    split at h
    all_goals first
      | (rename_i heq; cases heq; done)
      | (rename_i heq; cases heq
         simp only [pure_ok, Except.ok.injEq] at h
         subst h
         simp [metricValue, numberVal, treeValue]
         done)
      | (rename_i heq; cases heq
         obtain ⟨f, h1, h⟩ := bind_ok_iff.1 h
         simp only [pure_ok, Except.ok.injEq] at h
         subst h
         obtain ⟨_, rfl⟩ := mkNFun_ok.1 h1
         simp [metricValue, treeValue])
      | cases h
  | hnode l ih =>
    intro e h hk
    have hall : ∀ {args es}, (∀ t ∈ args, t ∈ l) → metricExps args = .ok es → args.length = es.length ∧
        metricValues I lit ρ es = treeValues I lit ρ args := by
      intro args es hs h
      obtain ⟨h1, h2⟩ := metricExps_zip h
      refine ⟨h1, costs_pairs I lit h1 fun p hp => ?_⟩
      have hm := hs p.1 (List.of_mem_zip hp).1
      exact ih p.1 hm (h2 p hp) (hk.sub (.node hm .refl))
    unfold metricExp at h
    split at h
    · rename_i heq; cases heq
    · rename_i args heq
      cases heq
      obtain ⟨es, h1, h⟩ := bind_ok_iff.1 h
      obtain ⟨_, h2, h⟩ := bind_ok_iff.1 h
      simp only [check_ok, decide_eq_true_eq] at h2
      simp only [pure_ok, Except.ok.injEq] at h
      subst h
      obtain ⟨a, b⟩ := hall (by simp +contextual) h1
      rw [cost_plus I lit ρ es (by omega) (hk.plus args es .refl h1), b]
      simp [treeValue]
    · rename_i args heq
      cases heq
      obtain ⟨es, h1, h⟩ := bind_ok_iff.1 h
      obtain ⟨_, h2, h⟩ := bind_ok_iff.1 h
      simp only [check_ok, decide_eq_true_eq] at h2
      simp only [pure_ok, Except.ok.injEq] at h
      subst h
      obtain ⟨a, b⟩ := hall (by simp +contextual) h1
      rw [cost_times I lit ρ es (by omega) (hk.times args es .refl h1), b]
      simp [treeValue]
    · rename_i args heq
      cases heq
      obtain ⟨es, h1, h⟩ := bind_ok_iff.1 h
      obtain ⟨_, h2, h⟩ := bind_ok_iff.1 h
      simp only [pure_ok, Except.ok.injEq] at h
      subst h
      obtain ⟨a, b⟩ := hall (by simp +contextual) h1
      obtain ⟨k1, k2⟩ := hk.divide args es .refl h1
      rw [construct_fop_plain .divide es k1 k2, metricValue, b]
      simp [treeValue]
    · rename_i args heq
      cases heq
      obtain ⟨es, h1, h⟩ := bind_ok_iff.1 h
      obtain ⟨_, h2, h⟩ := bind_ok_iff.1 h
      simp only [check_ok, decide_eq_true_eq] at h2
      simp only [pure_ok, Except.ok.injEq] at h
      subst h
      obtain ⟨a, b⟩ := hall (by simp +contextual) h1
      obtain ⟨x', rfl⟩ := length_one (a.symm.trans h2)
      rw [construct_minus1, metricValue, b]
      simp [treeValue]
    · rename_i heq; cases heq
    · rename_i n args heq
      cases heq
      obtain ⟨f, h1, h⟩ := bind_ok_iff.1 h
      simp only [pure_ok, Except.ok.injEq] at h
      subst h
      simp only [basicFunction] at h1
      split at h1
      · cases h1
      · rename_i ns hns
        obtain ⟨ts, h2, h3⟩ := bind_ok_iff.1 h1
        obtain ⟨_, rfl⟩ := mkNFun_ok.1 h3
        rw [namesOnly_some hns]
        simp [metricValue, treeValue, (terms_sem I (ρ := ρ) (goalEnv_ok (fun _ => none)) (terms_consts h2)).1]
    · cases h

theorem metricSpec_cost {b : List Tree} {m : Metric} (h : metricSpec b = .ok m) :
    ∃ t, WrittenMetric m.max b t ∧ metricExp t = .ok m.expr := by
  unfold metricSpec at h
  split at h
  · rename_i t hd
    obtain ⟨e, h1, h⟩ := bind_ok_iff.1 h
    simp only [pure_ok, Except.ok.injEq] at h
    subst h
    exact ⟨t, dropKeyword_grammar.1 hd, h1⟩
  · cases h
  · split at h
    · rename_i t hd
      obtain ⟨e, h1, h⟩ := bind_ok_iff.1 h
      simp only [pure_ok, Except.ok.injEq] at h
      subst h
      exact ⟨t, dropKeyword_grammar.1 hd, h1⟩
    · cases h

/-- The metric of a parsed problem is the one of its text. -/
theorem ProblemParse.metric_cost {F σ ts p σ'} (P : ProblemParse F σ ts p σ') {m : Metric} (hm : p.metric = some m) :
    ∃ b t, P.sections.metric = some b ∧ WrittenMetric m.max b t ∧ metricExp t = .ok m.expr := by
  obtain ⟨_, _, _, _, _, f6, _⟩ := mkProblem_fields P.hproblem
  rw [f6] at hm
  rcases problemMetric_cases P.hmetric with ⟨h, h'⟩ | ⟨b, m', h, h', h''⟩
  · rw [h'] at hm; cases hm
  · rw [h'] at hm
    cases hm
    obtain ⟨t, ht, he⟩ := metricSpec_cost h''
    exact ⟨b, t, by simp [ProblemParse.sections, h, metricBody, section_], ht, he⟩

/-- Check for `KeepsMetric` at one part. -/
def keepsMetricAt : Tree → Bool
  | .node (.atom .plus :: args) => match metricExps args with
      | .ok es => distinctB (leavesAll (.fop .plus) es)
      | .error _ => true
  | .node (.atom .times :: args) => match metricExps args with
      | .ok es => distinctB (leavesAll (.fop .times) es)
      | .error _ => true
  | .node (.atom .divide :: args) => match metricExps args with
      | .ok es => distinctB es && es.all notQuotient
      | .error _ => true
  | _ => true

theorem keepsMetric_of_check {t : Tree} (h : t.parts.all keepsMetricAt = true) : KeepsMetric t where
  plus args es hi he := by
    have := List.all_eq_true.1 h _ (Tree.mem_parts.2 hi)
    simp only [keepsMetricAt, he] at this
    exact distinctB_iff.1 this
  times args es hi he := by
    have := List.all_eq_true.1 h _ (Tree.mem_parts.2 hi)
    simp only [keepsMetricAt, he] at this
    exact distinctB_iff.1 this
  divide args es hi he := by
    have := List.all_eq_true.1 h _ (Tree.mem_parts.2 hi)
    simp only [keepsMetricAt, he, Bool.and_eq_true, List.all_eq_true] at this
    exact ⟨distinctB_iff.1 this.1, fun e he => notQuotient_ne (this.2 e he)⟩

end Pddl
