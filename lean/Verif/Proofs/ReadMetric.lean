/-
Metrics are read as `readMetric` says.
-/
import Verif.Spec.ReadExecute
import Verif.Proofs.AsReadCond
import Verif.Proofs.Cost
import Verif.Proofs.DerivedSem

namespace Pddl
open Spec Grammar

variable {D : Type} (I : Interp D) (lit : Str → Option Rat)

theorem sameText_iff (t u : Tree) : sameText t u = decide (t = u) := by
  induction t using Tree.ind generalizing u with
  | hatom a => cases u <;> simp [sameText]
  | hnode l ih =>
    cases u with
    | atom b => simp [sameText]
    | node l' =>
      simp only [sameText, Tree.node.injEq]
      induction l generalizing l' with
      | nil => cases l' <;> simp [sameTexts]
      | cons t l ih2 =>
        cases l' with
        | nil => simp [sameTexts]
        | cons u l' =>
          rw [sameTexts, ih t (by simp), ih2 (fun t ht => ih t (List.mem_cons_of_mem _ ht)) l']
          simp [Bool.decide_and]

theorem firstTexts_cons (t : Tree) (ts : List Tree) : firstTexts (t :: ts) = t :: (firstTexts ts).filter (fun u => !decide (t = u)) := by
  rw [firstTexts]
  congr 1
  exact List.filter_congr fun u _ => by rw [sameText_iff]

/-- The expression of a metric in which no operand is to be dropped. -/
inductive MRel : Tree → Expr → Prop
  | num (s : Str) : MRel (.atom (.num s)) (.num (.str s))
  | fn (n : Str) (ns : List Str) : MRel (.node (.atom (.name n) :: ns.map (fun x => .atom (.name x)))) (.nfun ⟨n, ns.map (.const · none)⟩)
  | op {k : Tok} {o : FOp} {args : List Tree} {es : List Expr} : Sign k o → List.Forall₂ MRel args es → MRel (.node (.atom k :: args)) (.bfun o es)

theorem mrel_ind {P : Tree → Expr → Prop} (h1 : ∀ s, P (.atom (.num s)) (.num (.str s)))
    (h2 : ∀ (n : Str) (ns : List Str), P (.node (.atom (.name n) :: ns.map (fun x => .atom (.name x)))) (.nfun ⟨n, ns.map (.const · none)⟩))
    (h3 : ∀ k o args es, Sign k o → List.Forall₂ (fun t e => MRel t e ∧ P t e) args es → P (.node (.atom k :: args)) (.bfun o es))
    {t : Tree} {e : Expr} (h : MRel t e) : P t e := by
  induction t using Tree.ind generalizing e with
  | hatom a => cases h with | num => exact h1 _
  | hnode l ih =>
    cases h with
    | fn => exact h2 _ _
    | op hs hr =>
      refine h3 _ _ _ _ hs ?_
      have ih' : ∀ t ∈ _, ∀ e, MRel t e → P t e := fun t ht e he => ih t (List.mem_cons_of_mem _ ht) he
      clear ih h1 h2 h3
      induction hr with
      | nil => exact .nil
      | cons h _ ih2 => exact .cons ⟨h, ih' _ (by simp) _ h⟩ (ih2 fun t ht => ih' t (List.mem_cons_of_mem _ ht))

theorem consts_value {ρ : Str → D} (ns : List Str) :
    treeTerms I ρ (ns.map (fun x => .atom (.name x))) = some (ns.map I.const) := by
  induction ns with
  | nil => simp [treeTerms]
  | cons n ns ih => simp [treeTerms, ih]

theorem mrel_value {ρ : Str → D} {t : Tree} {e : Expr} (h : MRel t e) : metricValue I lit ρ e = treeValue I lit ρ t := by
  refine mrel_ind (P := fun t e => metricValue I lit ρ e = treeValue I lit ρ t) ?_ ?_ ?_ h
  · intro s; simp [metricValue, treeValue, numberVal]
  · intro n ns
    simp [metricValue, treeValue, consts_value I ns, Function.comp_def, denote]
  · intro k o args es hs hr
    have : metricValues I lit ρ es = treeValues I lit ρ args := by
      clear hs
      induction hr with
      | nil => rfl
      | cons h _ ih => simp only [metricValues, treeValues]; rw [h.2, ih]
    rcases hs with ⟨rfl, rfl⟩ | ⟨rfl, rfl⟩ | ⟨rfl, rfl⟩ | ⟨rfl, rfl⟩ <;> simp only [metricValue, treeValue, this]

theorem consts_norm {ns ns' : List Str} : (ns.map (Term.const · none)).map Term.norm = (ns'.map (Term.const · none)).map Term.norm ↔ ns = ns' := by
  rw [List.map_map, List.map_map]
  constructor
  · intro h
    refine List.map_injective_iff.2 ?_ h
    intro a b hab
    simpa [Term.norm] using hab
  · rintro rfl; rfl

theorem mrel_same {t u : Tree} {e f : Expr} (h : MRel t e) (h' : MRel u f) : e.pyEq f = true ↔ t = u := by
  rw [Expr.pyEq_iff]
  refine mrel_ind (P := fun t e => ∀ u f, MRel u f → (e.norm = f.norm ↔ t = u)) ?_ ?_ ?_ h u f h'
  · intro s u f hu
    cases hu <;> simp [Expr.norm, Num.key]
  · intro n ns u f hu
    cases hu with
    | num => simp [Expr.norm]
    | fn n' ns' =>
      simp only [Expr.norm, NExpr.nfun.injEq, Tree.node.injEq, List.cons.injEq, Tree.atom.injEq, Tok.name.injEq, consts_norm]
      refine and_congr_right fun _ => ⟨fun h => by rw [h], names_inj⟩
    | op hs _ =>
      simp only [Expr.norm, reduceCtorEq, Tree.node.injEq, List.cons.injEq, Tree.atom.injEq, false_iff, not_and]
      intro h; exact absurd h.symm ((sign_ne hs).1 n)
  · intro k o args es hs hr u f hu
    cases hu with
    | num => simp [Expr.norm]
    | fn n ns =>
      simp only [Expr.norm, reduceCtorEq, Tree.node.injEq, List.cons.injEq, Tree.atom.injEq, false_iff, not_and]
      intro h; exact absurd h ((sign_ne hs).1 n)
    | @op k' o' args' es' hs' hr' =>
      simp only [Expr.norm, NExpr.bfun.injEq, sign_unique hs hs', Tree.node.injEq, List.cons.injEq, Tree.atom.injEq]
      refine and_congr_right fun _ => ?_
      clear hs hs'
      induction hr generalizing args' es' with
      | nil => cases hr' <;> simp [Expr.norms]
      | cons h _ ih =>
        cases hr' with
        | nil => simp [Expr.norms]
        | cons h' hr' => simp [Expr.norms, h.2 _ _ h', ih hr']

theorem mrel_spread {k : Tok} {o : FOp} (hk : Sign k o) {t : Tree} {e : Expr} (h : MRel t e) :
    List.Forall₂ MRel (spread k t) (leaves (.fop o) e) := by
  refine mrel_ind (P := fun t e => List.Forall₂ MRel (spread k t) (leaves (.fop o) e)) ?_ ?_ ?_ h
  · intro s; simp [spread, leaves, MRel.num]
  · intro n ns
    rw [spread, if_neg fun e => (sign_ne hk).1 n e.symm]
    simp only [leaves, List.forall₂_cons, List.Forall₂.nil, and_true]
    exact .fn n ns
  · intro k' o' args es hs hr
    rw [spread, leaves]
    by_cases he : k' = k
    · rw [if_pos he, if_pos (by rw [(sign_unique hs hk).2 he])]
      clear hs
      induction hr with
      | nil => simp [spreadAll, leavesAll]
      | cons h _ ih => rw [spreadAll, leavesAll]; exact List.rel_append h.2 ih
    · rw [if_neg he, if_neg (by simpa using fun h => he ((sign_unique hs hk).1 h.symm))]
      simp only [List.forall₂_cons, List.Forall₂.nil, and_true]
      exact .op hs (hr.imp fun _ _ h => h.1)

theorem mrel_spreadAll {k : Tok} {o : FOp} (hk : Sign k o) {ts : List Tree} {es : List Expr} (h : List.Forall₂ MRel ts es) :
    List.Forall₂ MRel (spreadAll k ts) (leavesAll (.fop o) es) := by
  induction h with
  | nil => simp [spreadAll, leavesAll]
  | cons h _ ih => rw [spreadAll, leavesAll]; exact List.rel_append (mrel_spread hk h) ih

theorem firstTexts_rel {ts : List Tree} {es : List Expr} (h : List.Forall₂ MRel ts es)
    {ss : List Tree} {seen : List Expr} (hs : List.Forall₂ MRel ss seen) : ∃ kept dropped, FirstsOf seen es kept dropped ∧
    List.Forall₂ MRel ((firstTexts ts).filter fun u => !decide (u ∈ ss)) kept := by
  induction h generalizing ss seen with
  | nil => exact ⟨[], [], .nil, by simp [firstTexts]⟩
  | @cons x e ts es hx hr ih =>
    by_cases hm : x ∈ ss
    · obtain ⟨f, hf1, hf2⟩ := forall2_mem' hs x hm
      have hef := (mrel_same hf2 hx).2 rfl
      obtain ⟨kept, dropped, h1, h2⟩ := ih hs
      refine ⟨kept, e :: dropped, .drop ⟨f, hf1, Expr.pyEq_symm hef⟩ h1, ?_⟩
      rw [firstTexts_cons, List.filter_cons_of_neg (by simp [hm]), List.filter_filter]
      have : (firstTexts ts).filter (fun u => !decide (u ∈ ss) && !decide (x = u)) = (firstTexts ts).filter fun u => !decide (u ∈ ss) := by
        refine List.filter_congr fun u _ => ?_
        by_cases hu : u ∈ ss
        · simp [hu]
        · have : x ≠ u := by rintro rfl; exact hu hm
          simp [hu, this]
      rw [this]
      exact h2
    · obtain ⟨kept, dropped, h1, h2⟩ := ih (.cons hx hs)
      refine ⟨e :: kept, dropped, .keep ?_ h1, ?_⟩
      · intro y hy
        rw [Bool.eq_false_iff]
        intro he
        obtain ⟨s, hs1, hs2⟩ := forall2_mem hs y hy
        exact hm ((mrel_same hx hs2).1 he ▸ hs1)
      · rw [firstTexts_cons, List.filter_cons_of_pos (by simp [hm]), List.filter_filter]
        refine .cons hx ?_
        have : (fun u => !decide (u ∈ ss) && !decide (x = u)) = fun u => !decide (u ∈ x :: ss) := by
          funext u
          rw [Bool.eq_iff_iff]
          simp only [Bool.and_eq_true, Bool.not_eq_true', decide_eq_false_iff_not, List.mem_cons, not_or]
          exact ⟨fun h => ⟨fun e => h.2 e.symm, h.1⟩, fun h => ⟨h.2, fun e => h.1 e.symm⟩⟩
        rw [this]
        exact h2

theorem mrel_construct {k : Tok} {o : FOp} (hk : Sign k o) {ts : List Tree} {es : List Expr}
    (h : List.Forall₂ MRel ts es) (h2 : 2 ≤ es.length) :
    MRel (.node (.atom k :: firstTexts (spreadAll k ts))) (construct (.fop o) es) := by
  obtain ⟨kept, dropped, h3, h4⟩ := firstTexts_rel (mrel_spreadAll hk h) .nil
  have hm : (Cls.fop o).isMeta = true := by
    rcases hk with ⟨_, rfl⟩ | ⟨_, rfl⟩ | ⟨_, rfl⟩ | ⟨_, rfl⟩ <;> rfl
  rw [(Props.C09_exact hm h2 h3).1]
  refine .op hk ?_
  simpa using h4

theorem mkConsts_none {ns : List Str} : ∀ {ts}, ns.mapM (fun n => mkConst n none) = .ok ts → ts = ns.map (.const · none) := by
  induction ns with
  | nil => intro ts h; simpa [pure_ok] using h
  | cons n ns ih =>
    intro ts h
    simp only [List.mapM_cons, bind_ok_iff, pure_ok, Except.ok.injEq] at h
    obtain ⟨t, ht, r, hr, rfl⟩ := h
    rw [ih hr, mkConst_const ht]
    rfl

/-- What `metric_f_exp` gives for a text is the expression of the text as it is read. -/
theorem metricExp_asRead {t : Tree} : ∀ {e}, metricExp t = .ok e → MRel (readMetric t) e := by
  induction t using Tree.ind with
  | hatom t =>
    intro e h
    unfold metricExp at h
    split at h
    all_goals first
      | (rename_i heq; cases heq; done)
      | (rename_i heq; cases heq
         simp only [pure_ok, Except.ok.injEq] at h
         subst h
         exact .num _)
      | (rename_i heq; cases heq
         obtain ⟨f, h1, h⟩ := bind_ok_iff.1 h
         simp only [pure_ok, Except.ok.injEq] at h
         subst h
         obtain ⟨_, rfl⟩ := mkNFun_ok.1 h1
         exact .fn _ [])
      | cases h
  | hnode l ih =>
    intro e h
    have hall : ∀ {args es}, (∀ t ∈ args, t ∈ l) → metricExps args = .ok es → args.length = es.length ∧
        List.Forall₂ MRel (readMetrics args) es := by
      intro args
      induction args with
      | nil => intro es _ h; simp [metricExps] at h; subst h; exact ⟨rfl, .nil⟩
      | cons a args ih2 =>
        intro es hs h
        simp only [metricExps, bind_ok_iff, pure_ok, Except.ok.injEq] at h
        obtain ⟨x, hx, r, hr, rfl⟩ := h
        obtain ⟨h1, h2⟩ := ih2 (fun t ht => hs t (List.mem_cons_of_mem _ ht)) hr
        exact ⟨by simp [h1], .cons (ih a (hs a (by simp)) hx) h2⟩
    unfold metricExp at h
    split at h
    · rename_i heq; cases heq
    · rename_i args heq
      cases heq
      obtain ⟨es, h1, h⟩ := bind_ok_iff.1 h
      obtain ⟨_, h2, h⟩ := bind_ok_iff.1 h
      simp only [check_ok, decide_eq_true_eq] at h2
      simp only [pure_ok, Except.ok.injEq] at h
      subst h
      obtain ⟨a, b⟩ := hall (by simp +contextual) h1
      rw [readMetric]
      exact mrel_construct (.inl ⟨rfl, rfl⟩) b (by omega)
    · rename_i args heq
      cases heq
      obtain ⟨es, h1, h⟩ := bind_ok_iff.1 h
      obtain ⟨_, h2, h⟩ := bind_ok_iff.1 h
      simp only [check_ok, decide_eq_true_eq] at h2
      simp only [pure_ok, Except.ok.injEq] at h
      subst h
      obtain ⟨a, b⟩ := hall (by simp +contextual) h1
      rw [readMetric]
      exact mrel_construct (.inr (.inl ⟨rfl, rfl⟩)) b (by omega)
    · rename_i args heq
      cases heq
      obtain ⟨es, h1, h⟩ := bind_ok_iff.1 h
      obtain ⟨_, h2, h⟩ := bind_ok_iff.1 h
      simp only [check_ok, decide_eq_true_eq] at h2
      simp only [pure_ok, Except.ok.injEq] at h
      subst h
      obtain ⟨a, b⟩ := hall (by simp +contextual) h1
      rw [readMetric]
      exact mrel_construct (.inr (.inr (.inl ⟨rfl, rfl⟩))) b (by omega)
    · rename_i args heq
      cases heq
      obtain ⟨es, h1, h⟩ := bind_ok_iff.1 h
      obtain ⟨_, h2, h⟩ := bind_ok_iff.1 h
      simp only [check_ok, decide_eq_true_eq] at h2
      simp only [pure_ok, Except.ok.injEq] at h
      subst h
      obtain ⟨a, b⟩ := hall (by simp +contextual) h1
      obtain ⟨x', rfl⟩ := length_one (a.symm.trans h2)
      rw [construct_minus1, readMetric]
      exact .op (.inr (.inr (.inr ⟨rfl, rfl⟩))) b
    · rename_i heq; cases heq
    · rename_i n args heq
      cases heq
      obtain ⟨f, h1, h⟩ := bind_ok_iff.1 h
      simp only [pure_ok, Except.ok.injEq] at h
      subst h
      simp only [basicFunction] at h1
      split at h1
      · cases h1
      · rename_i ns hns
        obtain ⟨ts, h2, h3⟩ := bind_ok_iff.1 h1
        obtain ⟨_, rfl⟩ := mkNFun_ok.1 h3
        rw [namesOnly_some hns, mkConsts_none h2, readMetric]
        · exact .fn _ _
        all_goals simp
    · cases h

end Pddl
