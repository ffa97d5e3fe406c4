/-
Printed problems are read back.
-/
import Verif.Proofs.SectionText
import Verif.Proofs.TokenShape
import Verif.Proofs.Printable
import Verif.Proofs.PlanText
import Verif.Proofs.ParseProb
import Verif.Proofs.Problem
import Verif.Proofs.EqDomain
import Verif.Proofs.Echo

namespace Pddl
open Spec

variable {F : FloatOf}

/-! ### Goals -/

theorem Spec.GoalTerm.valid {t : Term} (h : GoalTerm t) : ValidName t.name := by
  cases t with
  | const n x => exact h
  | var v => exact h.1

theorem goalEnv_terms {ts : List Term} (h : ∀ t ∈ ts, GoalTerm t) :
    ∃ ts', (goalEnv F).terms (ts.flatMap Term.trees) = .ok ts' ∧ ts'.map Term.norm = ts.map Term.norm ∧
      ∀ t ∈ ts', t.tags = [] := by
  induction ts with
  | nil => exact ⟨[], rfl, rfl, by simp⟩
  | cons t ts ih =>
    obtain ⟨ts', h1, h2, h3⟩ := ih (fun x hx => h x (by simp [hx]))
    have ht := h t (by simp)
    cases t with
    | const n x =>
      have hc : mkConst n none = .ok (.const n none) := mkConst_none ht
      refine ⟨.const n none :: ts', ?_, by simp [Term.norm, h2], ?_⟩
      · simp [Term.trees, GEnv.terms, h1, goalEnv, hc] at h1 ⊢
      · intro y hy
        rcases List.mem_cons.1 hy with rfl | hy
        · rfl
        · exact h3 y hy
    | var v =>
      have hc : mkVar v.name (.set []) = .ok ⟨v.name, []⟩ :=
        mkVar_set_ok.2 ⟨ht.1, by simp, by simp [dedupBy, dedupAux]⟩
      refine ⟨.var ⟨v.name, []⟩ :: ts', ?_, ?_, ?_⟩
      · have : (goalEnv F).variable v.name = .ok (.var ⟨v.name, []⟩) := by
          simp [GEnv.variable, goalEnv, dictGet, hc]
        simp [Term.trees, GEnv.terms, h1, this]
      · simp [Term.norm, Var.norm, ht.2, h2]
      · intro y hy
        rcases List.mem_cons.1 hy with rfl | hy
        · rfl
        · exact h3 y hy

theorem untyped_consistent {ts : List Term} (h : ∀ t ∈ ts, t.tags = []) : termsConsistent [] ts = true := by
  rw [consistent_iff]
  intro a ha b hb _ x
  rw [h a ha, h b hb]

theorem function_shape {n : Str} (h : parseFunction n = .ok n) : NameShape n := by
  rcases (parseFunction_ok.1 h).2 with hv | hv
  · exact hv.1
  · rw [hv]; exact (nameRegex_iff _).1 (by decide)

theorem goalNum_rel {e : Expr} (hp : GoalNum F e) (hg : e.Good) :
    (∃ e', FRel (goalEnv F) e.tree e' ∧ e'.Echo e) ∧ Writable e := by
  induction hp with
  | num h => exact ⟨⟨_, .num (numberText_literal h), .refl _⟩, .num (Prints.number (numberText_shape h))⟩
  | @fn f h =>
    obtain ⟨ts', h1, h2, _⟩ := goalEnv_terms (F := F) h
    have hf : parseFunction f.name = .ok f.name := hg
    refine ⟨⟨.nfun ⟨f.name, ts'⟩, .fn h1 (mkNFun_ok.2 ⟨hf, rfl⟩), echo_nfun ?_⟩, .nfun (function_shape hf) (fun t ht => (h t ht).valid.1)⟩
    simp [Expr.norm, h2]
  | @plus as hl _ ih =>
    have hg' := goods_iff.1 hg.2
    obtain ⟨es, h1, h2, h3⟩ := collectE (fun a ha => (ih a ha (hg' a ha)).1)
    exact ⟨⟨_, .plus (by rw [trees_length]; exact hl) h1 h2, echo_construct hg.1 h3⟩,
      .bfun (fun a ha => (ih a ha (hg' a ha)).2)⟩
  | @times as hl _ ih =>
    have hg' := goods_iff.1 hg.2
    obtain ⟨es, h1, h2, h3⟩ := collectE (fun a ha => (ih a ha (hg' a ha)).1)
    exact ⟨⟨_, .times (by rw [trees_length]; exact hl) h1 h2, echo_construct hg.1 h3⟩,
      .bfun (fun a ha => (ih a ha (hg' a ha)).2)⟩
  | @divide a b _ _ ih1 ih2 =>
    obtain ⟨⟨x, h1, h2⟩, w1⟩ := ih1 hg.2.1
    obtain ⟨⟨y, h3, h4⟩, w2⟩ := ih2 hg.2.2.1
    exact ⟨⟨_, .divide h1 h3, echo_construct hg.1 (.cons h2 (.cons h4 .nil))⟩, pair_writable w1 w2⟩
  | @minus a _ ih =>
    obtain ⟨⟨x, h1, h2⟩, w1⟩ := ih hg.2.1
    refine ⟨⟨_, .minus h1, echo_construct hg.1 (.cons h2 .nil)⟩, .bfun ?_⟩
    intro z hz
    simp only [List.mem_cons, List.not_mem_nil, or_false] at hz
    subst hz; exact w1

theorem goalNum_tree {e : Expr} (hp : GoalNum F e) (l : List Tree) :
    startsWithTerm (e.tree :: l) = false := by
  cases hp <;> rfl

theorem goalText_rel {e : Expr} (hp : GoalText F e) (hg : e.Good) :
    (∃ e', GRel (goalEnv F) e.tree e' ∧ e'.Echo e) ∧ Writable e := by
  induction hp with
  | @pred p h =>
    obtain ⟨ts', h1, h2, h3⟩ := goalEnv_terms (F := F) h
    refine ⟨⟨.pred ⟨p.name, ts'⟩, .atom (validName_gd (parseName_ok.1 hg.1).2) h1
      (mkPred_ok.2 ⟨hg.1, untyped_consistent h3, rfl⟩), echo_pred ?_⟩,
      .pred (parseName_ok.1 hg.1).2.1 (fun t ht => (h t ht).valid.1)⟩
    simp [Expr.norm, h2]
  | @and as _ ih =>
    have hg' := goods_iff.1 hg.2
    obtain ⟨es, h1, h2, h3⟩ := collectE (fun a ha => (ih a ha (hg' a ha)).1)
    exact ⟨⟨_, .and h1 h2, echo_construct hg.1 h3⟩, .bin (fun a ha => (ih a ha (hg' a ha)).2)⟩
  | @not a _ ih =>
    obtain ⟨⟨x, h1, h2⟩, w⟩ := ih hg
    exact ⟨⟨_, .not h1, h2.not⟩, .not w⟩
  | @comp o a b ho ha hb =>
    obtain ⟨⟨x, h1, h2⟩, w1⟩ := goalNum_rel ha hg.2.1
    obtain ⟨⟨y, h3, h4⟩, w2⟩ := goalNum_rel hb hg.2.2.1
    exact ⟨⟨_, .comp (comp_tok ho) (fun _ => goalNum_tree ha _) (fExp_of_rel h1) (fExp_of_rel h3),
      echo_construct hg.1 (.cons h2 (.cons h4 .nil))⟩, pair_writable w1 w2⟩

/-! ### Initial facts -/

theorem constants_trees {ts : List Term} (h : ∀ t ∈ ts, IsConstant t) :
    ts.flatMap Term.trees = (ts.map Term.name).map (fun n => Tree.atom (.name n)) := by
  induction ts with
  | nil => rfl
  | cons t ts ih =>
    rw [List.flatMap_cons, ih (fun x hx => h x (by simp [hx]))]
    cases t with
    | const n x => simp [Term.trees, Term.name]
    | var v => exact absurd (h (.var v) (by simp)) (by simp [IsConstant])

theorem constant_valid {t : Term} (h : IsConstant t) : ValidName t.name := by
  cases t with
  | const n x => exact h
  | var v => exact absurd h (by simp [IsConstant])

theorem initTerm_own {σ : List (Str × Term)} (hσ : OwnNames σ) {n : Str} (h : ValidName n) :
    ∃ x, initTerm σ n = .ok (.const n x) := by
  unfold initTerm
  split
  · rename_i t ht
    obtain ⟨_, x, rfl⟩ := hσ n _ ht
    exact ⟨x, rfl⟩
  · exact ⟨none, mkConst_none h⟩

theorem init_terms {σ : List (Str × Term)} (hσ : OwnNames σ) {ts : List Term} (h : ∀ t ∈ ts, IsConstant t) :
    ∃ ts', (ts.map Term.name).mapM (initTerm σ) = .ok ts' ∧ ts'.map Term.norm = ts.map Term.norm ∧
      ∀ t ∈ ts', ∃ n, initTerm σ n = .ok t ∧ t.name = n := by
  induction ts with
  | nil => exact ⟨[], rfl, rfl, by simp⟩
  | cons t ts ih =>
    obtain ⟨ts', h1, h2, h3⟩ := ih (fun x hx => h x (by simp [hx]))
    have ht := h t (by simp)
    obtain ⟨x, hx⟩ := initTerm_own hσ (constant_valid ht)
    refine ⟨.const t.name x :: ts', ?_, ?_, ?_⟩
    · simp [hx, h1]
    · cases t with
      | const n y => simp [Term.norm, Term.name, h2]
      | var v => exact absurd ht (by simp [IsConstant])
    · intro y hy
      rcases List.mem_cons.1 hy with rfl | hy
      · exact ⟨t.name, hx, rfl⟩
      · exact h3 y hy

theorem init_consistent {σ : List (Str × Term)} {ts : List Term}
    (h : ∀ t ∈ ts, ∃ n, initTerm σ n = .ok t ∧ t.name = n) : termsConsistent [] ts = true := by
  rw [consistent_iff]
  intro a ha b hb hab x
  obtain ⟨n, h1, h2⟩ := h a ha
  obtain ⟨m, h3, h4⟩ := h b hb
  have : n = m := by rw [← h2, ← h4, hab]
  subst this
  rw [h1] at h3
  simp only [Except.ok.injEq] at h3
  rw [h3]

theorem atomicName_tree {σ : List (Str × Term)} (hσ : OwnNames σ) {p : Pred} (h : ∀ t ∈ p.terms, IsConstant t)
    (hg : parseName p.name = .ok p.name) :
    ∃ q : Pred, atomicName σ (.atom (.name p.name) :: p.terms.flatMap Term.trees) = .ok (.pred q) ∧
      (Expr.pred q).norm = (Expr.pred p).norm := by
  obtain ⟨ts', h1, h2, h3⟩ := init_terms hσ h
  refine ⟨⟨p.name, ts'⟩, ?_, by simp [Expr.norm, h2]⟩
  have := mkPred_ok.2 ⟨hg, init_consistent h3, (rfl : (⟨p.name, ts'⟩ : Pred) = _)⟩
  rw [constants_trees h]
  simp only [atomicName, namesOnly_map, h1, this, ok_bind, pure_ok]

theorem basicFunction_tree {f : NFun} (h : ∀ t ∈ f.terms, IsConstant t) (hg : parseFunction f.name = .ok f.name) :
    ∃ q : NFun, basicFunction (.node (.atom (.name f.name) :: f.terms.flatMap Term.trees)) = .ok q ∧
      (Expr.nfun q).norm = (Expr.nfun f).norm := by
  refine ⟨⟨f.name, (f.terms.map Term.name).map (fun n => Term.const n none)⟩, ?_, ?_⟩
  · rw [constants_trees h]
    have hv : ∀ n ∈ f.terms.map Term.name, ValidName n := by
      intro n hn
      obtain ⟨t, ht, rfl⟩ := List.mem_map.1 hn
      exact constant_valid (h t ht)
    simp only [basicFunction, namesOnly_map, mapM_mkConst hv, ok_bind]
    exact mkNFun_ok.2 ⟨hg, rfl⟩
  · simp only [Expr.norm, List.map_map]
    congr 1
    apply List.map_congr_left
    intro t ht
    cases t with
    | const n x => rfl
    | var v => exact absurd (h _ ht) (by simp [IsConstant])

theorem constants_shape {ts : List Term} (h : ∀ t ∈ ts, IsConstant t) : ∀ t ∈ ts, NameShape t.name :=
  fun t ht => (constant_valid (h t ht)).1

theorem initEl_tree {σ : List (Str × Term)} (hσ : OwnNames σ) {e : Expr} (hp : InitText F e) (hg : e.Good) :
    (∃ e', initEl F σ e.tree = .ok e' ∧ e'.Echo e ∧ isLiteral e' = true) ∧ Writable e := by
  cases hp with
  | @pred p h =>
    obtain ⟨q, h1, h2⟩ := atomicName_tree hσ h hg.1
    have hn : p.name ≠ s%"not" := by
      intro e
      have := ((valid_iff _).1 (parseName_ok.1 hg.1).2).2
      rw [e] at this; exact this (by decide)
    refine ⟨⟨.pred q, ?_, echo_pred h2, rfl⟩, .pred (parseName_ok.1 hg.1).2.1 (constants_shape h)⟩
    simp [Expr.tree, initEl, hn, h1]
  | @not p h =>
    obtain ⟨q, h1, h2⟩ := atomicName_tree hσ h hg.1
    refine ⟨⟨.not (.pred q), ?_, ?_, rfl⟩, .not (.pred (parseName_ok.1 hg.1).2.1 (constants_shape h))⟩
    · simp [Expr.tree, initEl, h1]
    · exact (echo_pred h2).not
  | @value f n h hn =>
    obtain ⟨q, h1, h2⟩ := basicFunction_tree h hg.2.1
    have hl := numberText_literal hn
    refine ⟨⟨construct (.fop .eq) [.nfun q, .num n], ?_, ?_, ?_⟩,
      pair_writable (.nfun (function_shape hg.2.1) (constants_shape h)) (.num (Prints.number (numberText_shape hn)))⟩
    · simp [Expr.tree, Expr.trees, FOp.tok, initEl, h1, hl]
    · exact echo_construct hg.1 (.cons (echo_nfun h2) (.cons (.refl _) .nil))
    · rcases construct_cases (.fop .eq) [.nfun q, .num n] with ⟨e, h1, _, h3⟩ | ⟨as, h1, _⟩
      · exact absurd h3 (by simp [Cls.idempotent])
      · rw [h1]; rfl

/-! ### Metrics -/

theorem metricExps_collect {as : List Expr}
    (h : ∀ a ∈ as, ∃ e', metricExp a.tree = .ok e' ∧ e'.Echo a) :
    ∃ es', metricExps (Expr.trees as) = .ok es' ∧ List.Forall₂ Expr.Echo es' as := by
  induction as with
  | nil => exact ⟨[], rfl, .nil⟩
  | cons a as ih =>
    obtain ⟨e', h1, h2⟩ := h a (by simp)
    obtain ⟨es', h3, h4⟩ := ih (fun x hx => h x (by simp [hx]))
    exact ⟨e' :: es', by simp [Expr.trees, metricExps, h1, h3], List.Forall₂.cons h2 h4⟩

theorem metric_tree {e : Expr} (hp : MetricText e) (hg : e.Good) :
    (∃ e', metricExp e.tree = .ok e' ∧ e'.Echo e) ∧ Writable e := by
  induction hp with
  | num h => exact ⟨⟨_, rfl, .refl _⟩, .num (Prints.numeral h)⟩
  | @fn f h =>
    obtain ⟨q, h1, h2⟩ := basicFunction_tree h hg
    exact ⟨⟨.nfun q, by simp [Expr.tree, metricExp, h1], echo_nfun h2⟩, .nfun (function_shape hg) (constants_shape h)⟩
  | @plus as hl _ ih =>
    have hg' := goods_iff.1 hg.2
    obtain ⟨es, h1, h2⟩ := metricExps_collect (fun a ha => (ih a ha (hg' a ha)).1)
    exact ⟨⟨_, by simp [Expr.tree, FOp.tok, metricExp, h1, trees_length, hl, check], echo_construct hg.1 h2⟩,
      .bfun (fun a ha => (ih a ha (hg' a ha)).2)⟩
  | @times as hl _ ih =>
    have hg' := goods_iff.1 hg.2
    obtain ⟨es, h1, h2⟩ := metricExps_collect (fun a ha => (ih a ha (hg' a ha)).1)
    exact ⟨⟨_, by simp [Expr.tree, FOp.tok, metricExp, h1, trees_length, hl, check], echo_construct hg.1 h2⟩,
      .bfun (fun a ha => (ih a ha (hg' a ha)).2)⟩
  | @divide a b _ _ ih1 ih2 =>
    obtain ⟨⟨x, h1, h2⟩, w1⟩ := ih1 hg.2.1
    obtain ⟨⟨y, h3, h4⟩, w2⟩ := ih2 hg.2.2.1
    exact ⟨⟨construct (.fop .divide) [x, y], by
      simp [Expr.tree, FOp.tok, metricExp, metricExps, Expr.trees, h1, h3, check],
      echo_construct hg.1 (.cons h2 (.cons h4 .nil))⟩, pair_writable w1 w2⟩
  | @minus a _ ih =>
    obtain ⟨⟨x, h1, h2⟩, w1⟩ := ih hg.2.1
    refine ⟨⟨construct (.fop .minus) [x], by
      simp [Expr.tree, FOp.tok, metricExp, metricExps, Expr.trees, h1, check],
      echo_construct hg.1 (.cons h2 .nil)⟩, .bfun ?_⟩
    intro z hz
    simp only [List.mem_cons, List.not_mem_nil, or_false] at hz
    subst hz; exact w1

/-! ### Objects and constants -/

theorem constants_text {kw : Str} {kts : List Tree} (hk : Prints kw kts) {cs : List Term}
    (h : ∀ o ∈ cs, IsObject o) (hd : (cs.map Term.name).Nodup) (hne : cs ≠ []) :
    ∃ l : NameList, Prints (constantsSection ('(' :: kw) cs) [.node (kts ++ l.text)] ∧ l.Ok ∧
      l.pairs.Perm (cs.map (fun c => (c.name, c.tags.head?))) := by
  let items : List (Option Str × Str) := cs.map (fun c => (c.tags.head?, c.name))
  let g := groupsOf id items
  have hvalid : ∀ p ∈ items, ValidName p.2 ∧ ∀ t, p.1 = some t → ValidType t := by
    intro p hp
    obtain ⟨c, hc, rfl⟩ := List.mem_map.1 hp
    have := h c hc
    cases c with
    | var v => exact absurd this (by simp [IsObject])
    | const n x =>
      refine ⟨this.1, ?_⟩
      intro t ht
      refine this.2 t ?_
      cases x <;> simpa [Term.tags] using ht
  have hperm := groupsOf_perm id items
  refine ⟨⟨g.groups.map (fun p => (p.2, p.1)), g.rest⟩, ?_, ?_, ?_⟩
  · have := Prints.typed (f := id) (tr := fun n => [word n]) (items := items) hk
      (fun p hp t ht => validType_shape ((hvalid p hp).2 t ht)) (fun p hp => Prints.name (hvalid p hp).1.1)
    unfold constantsSection
    rw [if_neg hne]
    have e : items.map (fun p => (p.1, id p.2)) = cs.map (fun c => (c.tags.head?, c.name)) := by
      simp [items]
    rw [e] at this
    have e2 : (groupsOf id items).trees (fun n => [word n]) =
        NameList.text ⟨g.groups.map (fun p => (p.2, p.1)), g.rest⟩ := by
      simp only [Groups.trees, NameList.text, List.flatMap_map, flatMap_single]
      rfl
    rw [e2] at this
    exact this
  · have epairs : NameList.pairs ⟨g.groups.map (fun p => (p.2, p.1)), g.rest⟩ = g.pairs.map Prod.swap := by
      simp only [NameList.pairs, Groups.pairs, List.flatMap_map, List.map_append, List.map_flatMap, List.map_map]
      rfl
    refine ⟨?_, ?_, ?_, ?_⟩
    · intro p hp
      obtain ⟨q, hq, rfl⟩ := List.mem_map.1 hp
      exact (groupsOf_nonempty id items q hq).1
    · intro p hp
      rw [epairs] at hp
      obtain ⟨q, hq, rfl⟩ := List.mem_map.1 hp
      exact (hvalid q (hperm.mem_iff.1 hq)).1
    · intro p hp
      obtain ⟨q, hq, rfl⟩ := List.mem_map.1 hp
      obtain ⟨_, a, ha⟩ := groupsOf_nonempty id items q hq
      exact (hvalid _ ha).2 _ rfl
    · rw [epairs, List.map_map]
      have := hperm.map (Prod.fst ∘ Prod.swap)
      refine this.nodup_iff.2 ?_
      rw [List.map_map]
      exact hd
  · have epairs : NameList.pairs ⟨g.groups.map (fun p => (p.2, p.1)), g.rest⟩ = g.pairs.map Prod.swap := by
      simp only [NameList.pairs, Groups.pairs, List.flatMap_map, List.map_append, List.map_flatMap, List.map_map]
      rfl
    rw [epairs]
    have := hperm.map Prod.swap
    rw [List.map_map] at this
    exact this

theorem mkConsts_valid {l : List (Str × Option Str)}
    (h : ∀ p ∈ l, ValidName p.1 ∧ ∀ t, p.2 = some t → ValidType t) :
    mkConsts l = .ok (l.map (fun p => (p.1, Term.const p.1 p.2))) := by
  induction l with
  | nil => rfl
  | cons p l ih =>
    obtain ⟨n, x⟩ := p
    have hp := h (n, x) (by simp)
    have hc : mkConst n x = .ok (.const n x) := by
      cases x with
      | none => exact mkConst_none hp.1
      | some t =>
        have := parseType_ok.2 ⟨rfl, hp.2 t rfl⟩
        simp [mkConst, parseName_of_valid hp.1, this]
    simp [mkConsts, hc, ih (fun q hq => h q (by simp [hq]))]

/-- The constants read from a typed list. -/
def constsOf (l : NameList) : List (Str × Term) := l.pairs.map (fun p => (p.1, Term.const p.1 p.2))

theorem constsOf_read {l : NameList} (h : l.Ok) : 
    (do let d ← parseTypedNames l.text; let cs ← mkConsts d; pure (dictOf cs)) = Except.ok (ε := Exc) (constsOf l) := by
  rw [parseTypedNames_text h]
  have : mkConsts l.pairs = .ok (constsOf l) := mkConsts_valid (by
    intro p hp
    refine ⟨h.names p hp, ?_⟩
    intro t ht
    unfold NameList.pairs at hp
    rcases List.mem_append.1 hp with hp | hp
    · obtain ⟨g, hg, hp⟩ := List.mem_flatMap.1 hp
      obtain ⟨n, _, rfl⟩ := List.mem_map.1 hp
      simp only [Option.some.injEq] at ht
      rw [← ht]; exact h.types g hg
    · obtain ⟨n, _, rfl⟩ := List.mem_map.1 hp
      simp at ht)
  have hn : IsDict (constsOf l) := by
    have := h.nodup
    simpa [IsDict, constsOf, List.map_map, Function.comp_def] using this
  simp [this, dictOf_nodup hn]

theorem problemObjects_text {l : NameList} (h : l.Ok) :
    problemObjects l.text = .ok ((constsOf l).map Prod.snd, constsOf l) := by
  have := constsOf_read h
  unfold problemObjects
  simp only [bind_ok_iff, pure_ok, Except.ok.injEq] at this ⊢
  obtain ⟨d, h1, cs, h2, h3⟩ := this
  exact ⟨d, h1, cs, h2, by rw [h3]⟩

theorem constsOf_own {l : NameList} (h0 : l.Ok) : OwnNames (constsOf l) := by
  intro n t h
  have hm := mem_of_dictGet h
  obtain ⟨p, hp, e⟩ := List.mem_map.1 hm
  simp only [Prod.mk.injEq] at e
  obtain ⟨rfl, rfl⟩ := e
  exact ⟨h0.names p hp, _, rfl⟩

theorem constsOf_eq {l : NameList} {cs : List Term} (h : ∀ o ∈ cs, IsObject o)
    (hp : l.pairs.Perm (cs.map (fun c => (c.name, c.tags.head?)))) : ((constsOf l).map Prod.snd).Perm cs := by
  have := hp.map (fun p => Term.const p.1 p.2)
  rw [List.map_map] at this
  have e : cs.map ((fun p : Str × Option Str => Term.const p.1 p.2) ∘ (fun c => (c.name, c.tags.head?))) = cs := by
    conv_rhs => rw [← List.map_id cs]
    apply List.map_congr_left
    intro c hc
    have := h c hc
    cases c with
    | var v => exact absurd this (by simp [IsObject])
    | const n x => cases x <;> simp [Term.name, Term.tags]
  rw [e] at this
  unfold constsOf
  rw [List.map_map]
  exact this

theorem names_nodup {cs : List Term} (h : ∀ o ∈ cs, IsObject o) (hp : cs.Pairwise (fun a b => b.pyEq a = false)) :
    (cs.map Term.name).Nodup := by
  rw [List.Nodup, List.pairwise_map]
  refine hp.imp_of_mem ?_
  intro a b ha hb hab e
  have h1 := h a ha
  have h2 := h b hb
  cases a with
  | var v => exact absurd h1 (by simp [IsObject])
  | const n x =>
    cases b with
    | var v => exact absurd h2 (by simp [IsObject])
    | const m y =>
      simp only [Term.name] at e
      simp [Term.pyEq, e] at hab

/-! ### The whole problem -/

theorem mapM_collect {α β γ} {f : α → Except Exc β} {g : γ → α} {P : γ → β → Prop} {l : List γ}
    (h : ∀ x ∈ l, ∃ y, f (g x) = .ok y ∧ P x y) :
    ∃ ys, (l.map g).mapM f = .ok ys ∧ List.Forall₂ P l ys := by
  induction l with
  | nil => exact ⟨[], rfl, .nil⟩
  | cons a l ih =>
    obtain ⟨y, h1, h2⟩ := h a (by simp)
    obtain ⟨ys, h3, h4⟩ := ih (fun x hx => h x (by simp [hx]))
    exact ⟨y :: ys, by simp [h1, h3], .cons h2 h4⟩

theorem forall₂_left {α β} {P : α → β → Prop} {l : List α} {ys : List β} (h : List.Forall₂ P l ys) :
    ∀ x ∈ l, ∃ y ∈ ys, P x y := by
  induction h with
  | nil => simp
  | cons h1 _ ih =>
    intro x hx
    rcases List.mem_cons.1 hx with rfl | hx
    · exact ⟨_, by simp, h1⟩
    · obtain ⟨y, hy, h⟩ := ih x hx
      exact ⟨y, by simp [hy], h⟩

theorem forall₂_right {α β} {P : α → β → Prop} {l : List α} {ys : List β} (h : List.Forall₂ P l ys) :
    ∀ y ∈ ys, ∃ x ∈ l, P x y := by
  induction h with
  | nil => simp
  | cons h1 _ ih =>
    intro x hx
    rcases List.mem_cons.1 hx with rfl | hx
    · exact ⟨_, by simp, h1⟩
    · obtain ⟨y, hy, h⟩ := ih x hx
      exact ⟨y, by simp [hy], h⟩

/-- The header and the reference to the domain. -/
theorem header_text {k n : Str} (hk : lex k = [.name k]) (hs : ∀ c ∈ k, c ≠ ';') (h : NameShape n) :
    Prints (s%"define (" ++ k ++ s%" " ++ n ++ s%")") [.atom (.name s%"define"), .node [.atom (.name k), .atom (.name n)]] := by
  have h1 : Prints s%"define" [.atom (.name s%"define")] :=
    Prints.tok (by decide +kernel) (by decide) (by decide) (by decide)
  have h2 : Prints k [.atom (.name k)] := Prints.tok hk (by simp) (by simp) hs
  have := h1.sep isSpace_blank ((h2.sep isSpace_blank (Prints.name h)).paren)
  simpa using this

theorem init_text {es : List Expr} (h : ∀ e ∈ es, Writable e) :
    Prints (sortAndPrint s%"(:init " (es.map Expr.str) s%")\n" true)
      [.node (.atom (.kw s%"init") :: (inOrder Expr.str es).map Expr.tree)] := by
  have hk : Prints s%":init" [.atom (.kw s%"init")] := Prints.kw (k := s%"init") (by decide +kernel) (by decide +kernel)
  have h1 : Prints (joinStr s%" " ((inOrder Expr.str es).map Expr.str)) ((inOrder Expr.str es).flatMap (fun e => [e.tree])) :=
    Prints.join_map isSpace_blank (fun e he => Prints.expr (h e ((inOrder_perm _ _).mem_iff.1 he)))
  rw [flatMap_single] at h1
  have h2 := (Prints.op hk h1).newline_end
  unfold sortAndPrint
  split
  · rw [inOrder_map]
    simpa using h2
  · rename_i h0
    have : es = [] := by simpa using h0
    subst this
    simpa [inOrder, sortBy, joinStr] using h2

theorem metric_text {m : Metric} (h : Writable m.expr) :
    Prints (s%"(:metric " ++ m.str ++ s%")\n")
      [.node [.atom (.kw s%"metric"), .atom (.name m.optimization), m.expr.tree]] := by
  have hk : Prints s%":metric" [.atom (.kw s%"metric")] := Prints.kw (k := s%"metric") (by decide +kernel) (by decide +kernel)
  have ho : Prints m.optimization [.atom (.name m.optimization)] := by
    unfold Metric.optimization
    split
    · exact Prints.tok (by decide +kernel) (by decide) (by decide) (by decide)
    · exact Prints.tok (by decide +kernel) (by decide) (by decide) (by decide)
  have := (Prints.op hk (ho.sep isSpace_blank (Prints.expr h))).newline_end
  simpa [Metric.str] using this

theorem metricSpec_tree {m : Metric} {e' : Expr} (h : metricExp m.expr.tree = .ok e') :
    metricSpec [.atom (.name m.optimization), m.expr.tree] = .ok ⟨e', m.max⟩ := by
  unfold Metric.optimization
  cases hm : m.max
  · have e1 : dropKeyword s%"maximize" [.atom (.name s%"minimize"), m.expr.tree] = none := rfl
    have e2 : dropKeyword s%"minimize" [.atom (.name s%"minimize"), m.expr.tree] = some [m.expr.tree] := rfl
    simp only [Bool.false_eq_true, if_false, metricSpec, e1, e2, h, ok_bind, pure_ok]
  · have e2 : dropKeyword s%"maximize" [.atom (.name s%"maximize"), m.expr.tree] = some [m.expr.tree] := rfl
    simp only [if_true, metricSpec, e2, h, ok_bind, pure_ok]

theorem parseDomainName_none {dn : Option Str} {n : Str} (h : parseDomainName none dn = .ok n) : ValidName n := by
  cases dn with
  | none => simp [parseDomainName] at h
  | some x =>
    obtain ⟨h1, h2⟩ := parseName_ok.1 (show parseName x = .ok n from h)
    rw [h1]; exact h2

theorem requirements_block {rs : List Req} (h : .objectFluents ∉ rs) :
    ∃ (r : Option (List Tree)) (rs' : Option (List Req)),
      Block (sortAndPrint s%"(:requirements " (rs.map Req.str) s%")\n" false) (secTree s%"requirements" r) ∧
      ((r = none ∧ rs' = none) ∨ ∃ b x, r = some b ∧ parseRequirements b = .ok x ∧ rs' = some x) ∧
      ∀ x, x ∈ (rs'.getD []) ↔ x ∈ rs := by
  by_cases h0 : rs = []
  · subst h0
    exact ⟨none, none, Block.nil, .inl ⟨rfl, rfl⟩, by simp⟩
  · have hb := Block.requirements h
    rw [if_neg h0] at hb
    have hm : ∀ x, x ∈ inOrder Req.str rs ↔ x ∈ rs := fun x => (inOrder_perm _ _).mem_iff
    have hne : inOrder Req.str rs ≠ [] := by
      intro e
      exact h0 (List.Perm.eq_nil (e ▸ (inOrder_perm Req.str rs).symm))
    refine ⟨some _, some _, hb, .inr ⟨_, _, rfl, parseRequirements_trees (by rw [hm]; exact h) hne, rfl⟩, ?_⟩
    intro x
    rw [Option.getD_some, mem_reqSet, hm]

theorem objects_block {cs : List Term} (h : ∀ o ∈ cs, IsObject o) (hd : (cs.map Term.name).Nodup)
    {σ : List (Str × Term)} (hσ : OwnNames σ) :
    ∃ (r : Option (List Tree)) (objs : List Term) (σ' : List (Str × Term)),
      Block (constantsSection s%"(:objects" cs) (secTree s%"objects" r) ∧
      ((r = none ∧ objs = [] ∧ σ' = σ) ∨ ∃ b, r = some b ∧ problemObjects b = .ok (objs, σ')) ∧
      objs.Perm cs ∧ OwnNames σ' := by
  by_cases h0 : cs = []
  · subst h0
    exact ⟨none, [], σ, .nil, .inl ⟨rfl, rfl, rfl⟩, .refl _, hσ⟩
  · have hk : Prints s%":objects" [.atom (.kw s%"objects")] := Prints.kw (k := s%"objects") (by decide +kernel) (by decide +kernel)
    obtain ⟨l, h1, h2, h3⟩ := constants_text hk h hd h0
    refine ⟨some l.text, _, constsOf l, ⟨h1, .inr ?_⟩, .inr ⟨_, rfl, problemObjects_text h2⟩, constsOf_eq h h3, constsOf_own h2⟩
    unfold constantsSection
    rw [if_neg h0]
    exact printTyped_paren _ _ _

theorem dedupBy_norm {α β} {eq : α → α → Bool} {f : α → β} (h : ∀ a b, eq a b = true ↔ f a = f b) (as : List α) (x : β) :
    x ∈ (dedupBy eq as).map f ↔ x ∈ as.map f := by
  simp only [List.mem_map]
  constructor
  · rintro ⟨y, hy, rfl⟩; exact ⟨y, dedupBy_subset hy, rfl⟩
  · rintro ⟨y, hy, rfl⟩
    have := dedupBy_cover (eq := eq) (fun a => (h a a).2 rfl) hy
    obtain ⟨z, hz, e⟩ := memBy_iff.1 this
    exact ⟨z, hz, ((h _ _).1 e).symm⟩

theorem setEq_norm {α} {β : Type} {eq : α → α → Bool} {f : α → β} (hf : ∀ a b, eq a b = true ↔ f a = f b) {as bs es : List α}
    (hp : es.Perm bs) (h : List.Forall₂ (fun e e' => f e' = f e) es as) :
    setEqBy eq (dedupBy eq as) bs = true := by
  rw [setEqBy_iff' hf]
  intro x
  rw [dedupBy_norm hf]
  simp only [List.mem_map]
  constructor
  · rintro ⟨y, hy, rfl⟩
    obtain ⟨z, hz, e⟩ := forall₂_right h y hy
    exact ⟨z, hp.mem_iff.1 hz, e.symm⟩
  · rintro ⟨z, hz, rfl⟩
    obtain ⟨y, hy, e⟩ := forall₂_left h z (hp.mem_iff.2 hz)
    exact ⟨y, hy, e⟩

/-- Elements that are equal, up to order, to different ones are different. -/
theorem dedup_stays {α} {β : Type} {eq : α → α → Bool} {f : α → β} (hf : ∀ a b, eq a b = true ↔ f a = f b) {as bs es : List α}
    (hb : bs.Pairwise (fun a b => eq b a = false)) (hp : es.Perm bs) (h : List.Forall₂ (fun e e' => f e' = f e) es as) :
    dedupBy eq as = as := by
  have h1 : (bs.map f).Nodup := by
    rw [List.Nodup, List.pairwise_map]
    refine hb.imp ?_
    intro a b hab e
    rw [(hf b a).2 e.symm] at hab
    cases hab
  have h2 : (es.map f).Nodup := ((hp.map f).nodup_iff).2 h1
  have h3 : es.map f = as.map f := by
    clear hp h2
    induction h with
    | nil => rfl
    | cons h _ ih => simp [h, ih]
  rw [h3, List.Nodup, List.pairwise_map] at h2
  refine dedupBy_eq_self (h2.imp ?_)
  intro a b hab
  cases he : eq b a with
  | false => rfl
  | true => exact absurd ((hf _ _).1 he).symm hab

theorem mkProblem_reqs_nodup {a : ProblemArgs} {p : Problem} (h : mkProblem a = .ok p) (hd : a.domain = none) :
    (p.reqs_.getD []).Nodup := by
  unfold mkProblem at h
  obtain ⟨n, h1, h⟩ := bind_ok_iff.1 h
  obtain ⟨dn, _, h⟩ := bind_ok_iff.1 h
  obtain ⟨rs, h3, h⟩ := bind_ok_iff.1 h
  obtain ⟨_, h2, h⟩ := bind_ok_iff.1 h
  obtain ⟨_, _, h⟩ := bind_ok_iff.1 h
  simp only [pure_ok, Except.ok.injEq] at h
  subst h
  rw [hd] at h3
  unfold parseReqs at h3
  cases ha : a.reqs with
  | none => rw [ha] at h3; cases h3; simp
  | some rs => rw [ha] at h3; cases h3; exact dedup_nodup _

theorem Prints.congr {a b : Str} {ts : List Tree} (h : Prints a ts) (e : a = b) : Prints b ts := e ▸ h

/-- What is read back has the same parts, up to order, with the same texts. -/
structure Echoed (p' p : Problem) : Prop where
  name : p'.name = p.name
  domainName : p'.domainName = p.domainName
  reqs : p'.reqs.Perm p.reqs
  objects : p'.objects.Perm p.objects
  init : ∃ is, is.Perm p.init ∧ List.Forall₂ Expr.Echo p'.init is
  goal : p'.goal.Echo p.goal
  metric : Reorder.SameOpt (fun a b : Metric => a.expr.Echo b.expr ∧ a.max = b.max) p'.metric p.metric

/-- A problem that the grammar can write is read back. -/
theorem problem_read {σ : List (Str × Term)} (hσ : OwnNames σ) {p : Problem} (hb : BuiltProblem p) (hp : PrintProblem F p) :
    ∃ p' σ', parseProblem F σ p.str = .ok (p', σ') ∧ p'.pyEq p = true ∧ Echoed p' p := by
  obtain ⟨a, ha, hmk⟩ := hb
  obtain ⟨hname, hdom, hobj, hinit, hgoal, hmet, hlit⟩ := mkProblem_fields hmk
  have hnd : a.domain = none := by rw [← hdom]; exact hp.noDomain
  have hvn : ValidName p.name := by
    unfold mkProblem at hmk
    obtain ⟨n, h1, _⟩ := bind_ok_iff.1 hmk
    rw [hname]; exact (parseName_ok.1 h1).2
  have hvd : ValidName p.domainName_ := by
    unfold mkProblem at hmk
    obtain ⟨n, h1, hmk⟩ := bind_ok_iff.1 hmk
    obtain ⟨dn, h2, hmk⟩ := bind_ok_iff.1 hmk
    obtain ⟨rs, h3, hmk⟩ := bind_ok_iff.1 hmk
    obtain ⟨_, h4, hmk⟩ := bind_ok_iff.1 hmk
    obtain ⟨_, h5, hmk⟩ := bind_ok_iff.1 hmk
    simp only [pure_ok, Except.ok.injEq] at hmk
    rw [← hmk]
    rw [hnd] at h2
    exact parseDomainName_none h2
  have hdn : p.domainName = p.domainName_ := by unfold Problem.domainName; rw [hp.noDomain]
  have ggoal : p.goal.Good := by
    rw [hgoal]
    cases hg : a.goal with
    | none => exact good_construct (c := .bop .and) (args := []) (by simp)
    | some g => exact built_iff_good.1 (ha.goal g hg)
  obtain ⟨⟨goal', hg1, hg2⟩, wg⟩ := goalText_rel hp.goal ggoal
  obtain ⟨r1, rs', b1, hr1, hrs⟩ := requirements_block hp.reqs
  obtain ⟨r2, objs, σ', b2, hr2, hobjs, hσ'⟩ := objects_block hp.objects
    (names_nodup hp.objects (by rw [hobj]; exact dedupBy_pairwise _)) hσ
  have hi : ∀ e ∈ p.init, e.Good := by
    intro e he
    rw [hinit] at he
    exact built_iff_good.1 (ha.init e (dedupBy_subset he))
  obtain ⟨is, hi1, hi2⟩ := mapM_collect (f := initEl F σ') (g := Expr.tree) (l := inOrder Expr.str p.init)
    (P := fun e e' => e'.Echo e ∧ isLiteral e' = true) (fun e he => by
      have he := (inOrder_perm _ _).mem_iff.1 he
      exact (initEl_tree hσ' (hp.init e he) (hi e he)).1)
  have b3 : Block (sortAndPrint s%"(:init " (p.init.map Expr.str) s%")\n" true)
      [.node (.atom (.kw s%"init") :: (inOrder Expr.str p.init).map Expr.tree)] := by
    refine ⟨init_text (fun e he => (initEl_tree hσ' (hp.init e he) (hi e he)).2), .inr ?_⟩
    unfold sortAndPrint
    split
    · exact ⟨_, rfl⟩
    · exact ⟨_, rfl⟩
  have b4 : Block (s%"(:goal " ++ p.goal.str ++ s%")\n") [.node [.atom (.kw s%"goal"), p.goal.tree]] := by
    have hk : Prints s%":goal" [.atom (.kw s%"goal")] := Prints.kw (k := s%"goal") (by decide +kernel) (by decide +kernel)
    have := (Prints.op hk (Prints.expr wg)).newline_end
    exact ⟨by simpa using this, .inr ⟨_, rfl⟩⟩
  obtain ⟨mts, m', b5, hm1, hm2, hm3⟩ : ∃ (mts : List Tree) (m' : Option Metric),
      Block (match p.metric with | none => [] | some m => s%"(:metric " ++ m.str ++ s%")\n") mts ∧
      problemMetric mts = .ok m' ∧ metricEq m' p.metric = true ∧ Reorder.SameOpt (fun a b : Metric => a.expr.Echo b.expr ∧ a.max = b.max) m' p.metric := by
    cases hm : p.metric with
    | none => exact ⟨[], none, .nil, rfl, rfl, .absent⟩
    | some m =>
      have gm : m.expr.Good := built_iff_good.1 (ha.metric m (by rw [← hmet]; exact hm))
      obtain ⟨⟨e', h1, h2⟩, w⟩ := metric_tree (hp.metric m hm) gm
      refine ⟨_, some ⟨e', m.max⟩, ⟨metric_text w, .inr ⟨_, rfl⟩⟩, ?_, ?_, .present ⟨h2, rfl⟩⟩
      · have : takeSection s%"metric" [.node [.atom (.kw s%"metric"), .atom (.name m.optimization), m.expr.tree]] =
          (some [.atom (.name m.optimization), m.expr.tree], []) := rfl
        simp only [problemMetric, this, metricSpec_tree h1, ok_bind, pure_ok]
      · simp [metricEq, Metric.pyEq, (Expr.pyEq_iff _ _).2 h2.1]
  have b0 : Block (s%"(:domain " ++ p.domainName ++ s%")\n") [.node [.atom (.kw s%"domain"), .atom (.name p.domainName_)]] := by
    have hk : Prints s%":domain" [.atom (.kw s%"domain")] := Prints.kw (k := s%"domain") (by decide +kernel) (by decide +kernel)
    have := (Prints.op hk (Prints.name hvd.1)).newline_end
    rw [hdn]
    exact ⟨by simpa using this, .inr ⟨_, rfl⟩⟩
  have hbody := (((((b0.append b1).append b2).append b3).append b4).append b5).1
  have hb' := hbody.congr (b := p.bodyStr) (by
    unfold Problem.bodyStr
    simp only [List.append_assoc]
    cases p.metric <;> rfl)
  have hhead := header_text (k := s%"problem") (by decide +kernel) (by decide) hvn.1
  have hread := readText_layout hhead hb'
  let P : Problem := ⟨p.name, none, p.domainName_, rs'.map reqSet, dedupBy Term.pyEq objs, dedupBy Expr.pyEq is, goal', m'⟩
  have hmkP : mkProblem { name := p.name, domain := none, domainName := some p.domainName_, reqs := rs',
                          objects := objs, init := is, goal := some goal', metric := m' } = .ok P := by
    unfold mkProblem
    have hl : (dedupBy Expr.pyEq is).all isLiteral = true := by
      rw [List.all_eq_true]
      intro e he
      obtain ⟨x, _, h⟩ := forall₂_right hi2 e (dedupBy_subset he)
      exact h.2
    simp only [parseName_of_valid hvn, parseDomainName, parseName_of_valid hvd, ok_bind]
    cases rs' <;> simp [parseReqs, hl, check, Problem.checkConsistency, P]
  refine ⟨P, σ', ?_, ?_, ?_⟩
  · have hdef : problemDef F σ ([.atom (.name s%"define"), .node [.atom (.name s%"problem"), .atom (.name p.name)]] ++
        (((([.node [.atom (.kw s%"domain"), .atom (.name p.domainName_)]] ++ secTree s%"requirements" r1) ++ secTree s%"objects" r2) ++
          [.node (.atom (.kw s%"init") :: (inOrder Expr.str p.init).map Expr.tree)]) ++
          [.node [.atom (.kw s%"goal"), p.goal.tree]] ++ mts)) = .ok (P, σ') := by
      refine ProblemParse.run (p := P) ⟨p.name, p.domainName_,
        secTree s%"requirements" r1 ++ (secTree s%"objects" r2 ++ (.node (.atom (.kw s%"init") :: (inOrder Expr.str p.init).map Expr.tree) ::
          .node [.atom (.kw s%"goal"), p.goal.tree] :: mts)), ?_, r1, _, takeSection_sec (.sec (by decide) (.node (by decide))),
        rs', hr1, r2, _, _, takeSection_sec (.node (by decide)), objs, hr2, is, hi1, p.goal.tree, mts, rfl, goal', gd_of_rel hg1, m', hm1, hmkP⟩
      have e1 : ∀ l, dropKeyword s%"define" (.atom (.name s%"define") :: l) = some l := fun _ => rfl
      have e2 : ∀ l, dropKeyword s%"problem" (.atom (.name s%"problem") :: l) = some l := fun _ => rfl
      simp only [List.cons_append, List.nil_append, header, e1, e2, pure_ok, List.append_assoc]
    unfold parseProblem
    have htext : '(' :: (s%"define (" ++ s%"problem" ++ s%" " ++ p.name ++ s%")") =
        s%"(define (problem " ++ p.name ++ s%")" := by simp
    rw [htext] at hread
    unfold Problem.str
    rw [hread, ok_bind]
    simp only [List.append_assoc] at hdef ⊢
    exact hdef
  · have e1 : reqsEq P.reqs p.reqs = true := by
      unfold reqsEq
      rw [setEqBy_decide]
      intro x
      rw [← hrs]
      show x ∈ (rs'.map reqSet).getD [] ↔ _
      cases rs' <;> simp [mem_reqSet]
    have e2 : setEqBy Term.pyEq P.objects p.objects = true := by
      rw [setEqBy_iff' (f := Term.norm) (fun a b => Term.pyEq_iff)]
      intro x
      show x ∈ (dedupBy Term.pyEq objs).map _ ↔ _
      rw [dedupBy_norm (eq := Term.pyEq) (f := Term.norm) (fun a b => Term.pyEq_iff)]
      exact (hobjs.map _).mem_iff
    have e3 : setEqBy Expr.pyEq P.init p.init = true :=
      setEq_norm Expr.pyEq_iff (inOrder_perm Expr.str p.init) (hi2.imp (fun _ _ h => h.1.1))
    have e4 : P.goal.pyEq p.goal = true := (Expr.pyEq_iff _ _).2 hg2.1
    have e5 : P.domainName = p.domainName := by rw [hdn]; rfl
    have e6 : P.name = p.name := rfl
    have e7 : metricEq P.metric p.metric = true := hm2
    have e8 : domOptEq P.domain p.domain = true := by rw [hp.noDomain]; rfl
    simp only [Problem.pyEq, e1, e2, e3, e4, e5, e6, e7, e8, decide_true, Bool.and_self]
  · refine ⟨rfl, by rw [hdn]; rfl, ?_, ?_, ?_, hg2, hm3⟩
    · have hnd' : p.reqs.Nodup := by
        unfold Problem.reqs; rw [hp.noDomain]; exact mkProblem_reqs_nodup hmk hnd
      have hnd2 : P.reqs.Nodup := by
        show ((rs'.map reqSet).getD []).Nodup
        cases rs' with
        | none => simp
        | some rs => exact dedup_nodup _
      rw [List.perm_ext_iff_of_nodup hnd2 hnd']
      intro x
      rw [← hrs]
      show x ∈ (rs'.map reqSet).getD [] ↔ _
      cases rs' <;> simp [mem_reqSet]
    · have : dedupBy Term.pyEq objs = objs :=
        dedup_stays (f := Term.norm) (fun a b => Term.pyEq_iff) (by rw [hobj]; exact dedupBy_pairwise _) hobjs
          (List.forall₂_same.2 (fun _ _ => rfl))
      show (dedupBy Term.pyEq objs).Perm _
      rw [this]
      exact hobjs
    · refine ⟨_, inOrder_perm Expr.str p.init, ?_⟩
      have : dedupBy Expr.pyEq is = is :=
        dedup_stays (f := Expr.norm) Expr.pyEq_iff (by rw [hinit]; exact dedupBy_pairwise _) (inOrder_perm Expr.str p.init)
          (hi2.imp (fun _ _ h => h.1.1))
      show List.Forall₂ _ (dedupBy Expr.pyEq is) _
      rw [this]
      exact hi2.flip.imp (fun _ _ h => h.1)

end Pddl
