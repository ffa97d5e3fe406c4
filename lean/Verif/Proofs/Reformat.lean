/-
The text of what was read from a text.
-/
import Verif.Proofs.DomainReread
import Verif.Proofs.ProblemRead
import Verif.Proofs.Echo
import Verif.Spec.Reformat
import Verif.Props.Printer

namespace Pddl
open Spec Spec.Reorder Grammar

variable {F : FloatOf}

theorem readVar_perm {v : Var} (h : v.tags.Nodup) : (readVar v).tags.Perm v.tags := by
  refine (List.perm_ext_iff_of_nodup (dedup_nodup _) h).2 (fun t => ?_)
  simp only [readVar, dd_mem, mem_sortedStr]

theorem readPred_reorder {p : Pred} (h : PrintPredicate p) (hn : ∀ t ∈ p.terms, t.tags.Nodup) :
    SamePred (readPred p) p := by
  obtain ⟨he, _⟩ := h.vars
  refine ⟨rfl, ?_⟩
  rw [he]
  show List.Forall₂ Reorder.SameTerm (((declOf p).map readVar).map Term.var) _
  rw [List.map_map, List.forall₂_map_left_iff, List.forall₂_map_right_iff]
  refine List.forall₂_same.2 (fun v hv => .var ⟨rfl, readVar_perm (hn (.var v) ?_)⟩)
  rw [he]
  exact List.mem_map.2 ⟨v, hv, rfl⟩

theorem readPred_tags (p : Pred) : ∀ t ∈ (readPred p).terms, t.tags.Nodup := by
  intro t ht
  obtain ⟨v, hv, rfl⟩ := List.mem_map.1 ht
  obtain ⟨w, _, rfl⟩ := List.mem_map.1 hv
  exact readVar_nodup w

theorem forall₂_permBy {α} {R : α → α → Prop} {l m n : List α} (h : List.Forall₂ R l m) (hp : m.Perm n) :
    PermBy R l n := by
  have h1 : Relation.Comp (List.Forall₂ R) List.Perm l n := ⟨m, h, hp⟩
  rw [List.forall₂_comp_perm_eq_perm_comp_forall₂] at h1
  obtain ⟨k, h1, h2⟩ := h1
  exact ⟨k, h1, h2⟩

theorem predicateSet_built {d : Domain} (hb : BuiltDomain d) (hs : DeclaredSets d) : PredicateSet d.predicates := by
  obtain ⟨a, ha, hmk⟩ := hb
  refine ⟨?_, hs.predicates⟩
  obtain ⟨_, _, _, _, _, _, _, _, hda⟩ := (mkDomain_ok ha.types).1 hmk
  have hp : d.predicates = dedupBy Pred.pyEq a.predicates := by rw [hda]; rfl
  rw [hp]
  refine (dedupBy_pairwise (eq := Pred.pyEq) _).imp ?_
  intro x y hxy
  rw [← hxy, Bool.eq_iff_iff, Pred.pyEq_iff, Pred.pyEq_iff, eq_comm]

theorem DomainEchoed.set {d' d : Domain} (h : DomainEchoed d' d) (hp : PrintDomain F d)
    (hset : PredicateSet d.predicates) : PredicateSet d'.predicates := by
  obtain ⟨ps, hps, hpe⟩ := h.predicates
  rw [hpe]
  refine ⟨?_, ?_⟩
  · rw [List.pairwise_map]
    have : ps.Pairwise (fun a b => a.pyEq b = false) := by
      refine (hps.pairwise_iff ?_).2 hset.distinct
      intro a b hab
      rw [← hab, Bool.eq_iff_iff, Pred.pyEq_iff, Pred.pyEq_iff, eq_comm]
    refine this.imp_of_mem ?_
    intro a b ha hb hab
    rw [← hab, Bool.eq_iff_iff, Pred.pyEq_iff, Pred.pyEq_iff, readPred_norm (hp.predicates a (hps.subset ha)),
      readPred_norm (hp.predicates b (hps.subset hb))]
  · intro p hp'
    obtain ⟨q, _, rfl⟩ := List.mem_map.1 hp'
    exact readPred_tags q

/-- The domain read back has the same text, in every order of iteration. -/
theorem DomainEchoed.str {d' d : Domain} (h : DomainEchoed d' d) (hp : PrintDomain F d) (hs : DeclaredSets d)
    (hset : PredicateSet d.predicates) : d'.str = d.str := by
  obtain ⟨ps, hps, hpe⟩ := h.predicates
  obtain ⟨xs, hxs, hx⟩ := h.derived
  have hpr : PermBy SamePred d'.predicates d.predicates := by
    refine forall₂_permBy (m := ps) ?_ hps
    rw [hpe, List.forall₂_map_left_iff]
    exact List.forall₂_same.2 (fun p hp' => readPred_reorder (hp.predicates p (hps.subset hp')) (hs.predicates p (hps.subset hp')))
  have hset' := h.set hp hset
  have hder : (d'.derived.map derivedStr).Perm (d.derived.map derivedStr) := by
    refine List.Perm.trans (List.Perm.of_eq ?_) (hxs.map derivedStr)
    symm
    have : ∀ x ∈ xs, SamePred (readPred x.pred) x.pred := by
      intro x hx'
      obtain ⟨vs, h1, h2, _⟩ := (hp.derived x (hxs.subset hx')).head
      exact readPred_reorder ⟨vs, h1, h2⟩ (hs.derived x (hxs.subset hx'))
    clear hxs
    generalize d'.derived = ys at hx ⊢
    induction hx with
    | nil => rfl
    | cons h1 _ ih =>
      rw [List.map_cons, List.map_cons, ih (fun x hx => this x (List.mem_cons_of_mem _ hx))]
      unfold derivedStr
      rw [h1.2.1, h1.1, printPredicates_congr (.cons (this _ (List.mem_cons_self ..)) .nil)]
  have hfun : PermBy SameFun d'.functions d.functions := by
    refine forall₂_permBy (List.forall₂_same.2 (fun f _ => ⟨rfl, ?_, rfl⟩)) h.functions
    exact List.forall₂_same.2 (fun t _ => Props.sameTerm_refl t)
  unfold Domain.str Domain.bodyStr
  rw [h.name, typesSection_perm h.types, sortAndPrint_perm (h.reqs.map Req.str),
    constantsSection_perm h.constants, functionsSection_perm hfun,
    printPredicates_perm hset' hpr, sortAndPrint_perm hder,
    sortAndPrint_perm (h.actions.map (fun a => a.str ++ s%"\n"))]
  by_cases hn : d'.predicates = []
  · rw [if_pos hn, if_pos (hpr.nil_iff.1 hn)]
  · rw [if_neg hn, if_neg (fun x => hn (hpr.nil_iff.2 x))]

theorem DomainEchoed.orderFree {d' d : Domain} (h : DomainEchoed d' d) (ho : OrderFreeDomain d) : OrderFreeDomain d' := by
  obtain ⟨xs, hxs, hx⟩ := h.derived
  refine ⟨?_, fun a ha => ho.actions a (h.actions.subset ha)⟩
  intro y hy
  obtain ⟨x, hx', _, _, hb⟩ := forall₂_right hx y hy
  have := ho.derived x (hxs.subset hx')
  unfold OrderFree at this ⊢
  rwa [hb]

/-! ### Problems -/

theorem blocks_norm {a : Expr} : ∀ {b : Expr}, a.norm = b.norm → blocks a = [] → blocks b = [] := by
  induction a using Expr.ind with
  | hpred p => intro b h _; cases b <;> simp [Expr.norm, blocks] at h ⊢
  | heq l r => intro b h _; cases b <;> simp [Expr.norm, blocks] at h ⊢
  | hnfun f => intro b h _; cases b <;> simp [Expr.norm, blocks] at h ⊢
  | hnum n => intro b h _; cases b <;> simp [Expr.norm, blocks] at h ⊢
  | hbfun o as ih =>
    intro b h h0
    cases b <;> simp only [Expr.norm, NExpr.bfun.injEq, reduceCtorEq] at h
    rename_i o' bs
    simp only [blocks, blocksAll_eq, List.flatMap_eq_nil_iff] at h0 ⊢
    rw [Expr.norms_eq_map, Expr.norms_eq_map] at h
    intro x hx
    have : x.norm ∈ as.map Expr.norm := by rw [h.2]; exact List.mem_map.2 ⟨x, hx, rfl⟩
    obtain ⟨y, hy, e⟩ := List.mem_map.1 this
    exact ih y hy e (h0 y hy)
  | hbin o as ih =>
    intro b h h0
    cases b <;> simp only [Expr.norm, NExpr.bin.injEq, reduceCtorEq] at h
    rename_i o' bs
    simp only [blocks, blocksAll_eq, List.flatMap_eq_nil_iff] at h0 ⊢
    rw [Expr.norms_eq_map, Expr.norms_eq_map] at h
    intro x hx
    have : x.norm ∈ as.map Expr.norm := by rw [h.2]; exact List.mem_map.2 ⟨x, hx, rfl⟩
    obtain ⟨y, hy, e⟩ := List.mem_map.1 this
    exact ih y hy e (h0 y hy)
  | hnot a ih =>
    intro b h h0
    cases b <;> simp only [Expr.norm, NExpr.not.injEq, reduceCtorEq] at h
    have := ih h (by simpa only [blocks] using h0)
    simpa only [blocks] using this
  | hquant q vs c ih => intro b h h0; simp [blocks] at h0
  | hwhen c e ih1 ih2 =>
    intro b h h0
    cases b <;> simp only [Expr.norm, NExpr.when.injEq, reduceCtorEq] at h
    simp only [blocks, List.append_eq_nil_iff] at h0 ⊢
    exact ⟨ih1 h.1 h0.1, ih2 h.2 h0.2⟩
  | hfall vs e ih => intro b h h0; simp [blocks] at h0

theorem Echoed.str {p' p : Problem} (h : Echoed p' p) : p'.str = p.str := by
  obtain ⟨is, h1, h2⟩ := h.init
  have hi : (p'.init.map Expr.str).Perm (p.init.map Expr.str) := by
    refine List.Perm.trans (List.Perm.of_eq ?_) (h1.map Expr.str)
    exact forall₂_map_eq (fun _ _ h => h.2) h2
  unfold Problem.str Problem.bodyStr
  rw [h.name, h.domainName, sortAndPrint_perm (h.reqs.map Req.str), constantsSection_perm h.objects,
    sortAndPrint_perm hi, h.goal.2]
  have h3 := h.metric
  generalize p.metric = m at h3
  generalize p'.metric = n at h3
  cases h3 with
  | absent => rfl
  | present h3 => simp only [Metric.str, Metric.optimization, h3.2, h3.1.2]

theorem goalNum_blocks {e : Expr} (h : GoalNum F e) : blocks e = [] := by
  induction h with
  | num _ => rfl
  | fn _ => rfl
  | plus _ _ ih => simpa only [blocks, blocksAll_eq, List.flatMap_eq_nil_iff] using ih
  | times _ _ ih => simpa only [blocks, blocksAll_eq, List.flatMap_eq_nil_iff] using ih
  | divide _ _ ih1 ih2 => simp [blocks, blocksAll, ih1, ih2]
  | minus _ ih => simp [blocks, blocksAll, ih]

theorem goalText_blocks {e : Expr} (h : GoalText F e) : blocks e = [] := by
  induction h with
  | pred _ => rfl
  | and _ ih => simpa only [blocks, blocksAll_eq, List.flatMap_eq_nil_iff] using ih
  | not _ ih => simpa [blocks] using ih
  | comp _ h1 h2 => simp [blocks, blocksAll, goalNum_blocks h1, goalNum_blocks h2]

theorem metricText_blocks {e : Expr} (h : MetricText e) : blocks e = [] := by
  induction h with
  | num _ => rfl
  | fn _ => rfl
  | plus _ _ ih => simpa only [blocks, blocksAll_eq, List.flatMap_eq_nil_iff] using ih
  | times _ _ ih => simpa only [blocks, blocksAll_eq, List.flatMap_eq_nil_iff] using ih
  | divide _ _ ih1 ih2 => simp [blocks, blocksAll, ih1, ih2]
  | minus _ ih => simp [blocks, blocksAll, ih]

theorem initText_blocks {e : Expr} (h : InitText F e) : blocks e = [] := by
  cases h <;> rfl

theorem orderFree_of_nil {e : Expr} (h : blocks e = []) : OrderFree e := by
  intro vs hv
  rw [h] at hv
  simp at hv

/-- A problem that was read back has no quantifiers. -/
theorem Echoed.orderFree {p' p : Problem} (h : Echoed p' p) (hp : PrintProblem F p) : OrderFreeProblem p' := by
  obtain ⟨is, h1, h2⟩ := h.init
  refine ⟨?_, ?_, ?_⟩
  · intro e he
    obtain ⟨x, hx, hxe⟩ := forall2_mem' h2 e he
    exact orderFree_of_nil (blocks_norm hxe.1.symm (initText_blocks (hp.init x (h1.subset hx))))
  · exact orderFree_of_nil (blocks_norm h.goal.1.symm (goalText_blocks hp.goal))
  · intro m hm
    have h3 := h.metric
    rw [show p'.metric = some m from hm] at h3
    cases hq : p.metric with
    | none => rw [hq] at h3; cases h3
    | some n =>
      rw [hq] at h3
      cases h3 with
      | present h3 => exact orderFree_of_nil (blocks_norm h3.1.1.symm (metricText_blocks (hp.metric n hq)))

/-! ### Declarations that have been read -/

theorem filledHead_sets : ∀ {vs : List Var} {ds : List Term}, (∀ v ∈ vs, v.tags.Nodup) → (∀ t ∈ ds, t.tags.Nodup) →
    ∀ v ∈ filledHead vs ds, v.tags.Nodup
  | [], _, _, _ => by simp [filledHead]
  | _ :: _, [], _, _ => by simp [filledHead]
  | v :: vs, d :: ds, h1, h2 => by
    intro w hw
    rw [filledHead, List.mem_cons] at hw
    rcases hw with rfl | hw
    · by_cases hv : v.tags ≠ []
      · simp only [if_pos hv]; exact h1 v (List.mem_cons_self ..)
      · simp only [if_neg hv]; exact h2 d (List.mem_cons_self ..)
    · exact filledHead_sets (fun x hx => h1 x (List.mem_cons_of_mem _ hx)) (fun x hx => h2 x (List.mem_cons_of_mem _ hx)) w hw

section
variable {ts : List Tree} {d : Domain} {σ' : PState} (P : DomainParse F PState.fresh ts d σ')

theorem DomainParse.head_sets (hw : ∀ w, Inside (.atom (.name w)) (.node ts) → nameRegex w = true)
    {body : List Tree} {x : Derived} (hbody : section_ s%"derived" body ∈ P.ts5)
    (h : derivedDef F P.σ4 body = .ok x) (hd : (x.pred.terms.map Term.name).Nodup) :
    ∀ t ∈ x.pred.terms, t.tags.Nodup := by
  obtain ⟨t, c, head, cond, rfl, hh, hc, hx⟩ := derivedDef_ok h
  obtain ⟨_, p, env, us, hp, hl, he, hu, hcond, hpred⟩ := derivedPredicate_ok hx
  obtain ⟨hpm, hpn⟩ := P.fresh_preds _ _ hp
  obtain ⟨_, ds, hds, hds1, hds2⟩ := P.preds_decl hw p hpm
  have hts : ∀ w, Inside (.atom (.name w)) t → nameRegex w = true := fun w hi =>
    hw w (hi.trans (P.section_mem (k := s%"derived") (b := [t, c]) (by simp [hbody]) (by simp)))
  obtain ⟨_, vs, hvs, hvs1, hvs2⟩ := skeleton_decl hts hh
  have hnames : (vs.map Var.name).Nodup := by
    rw [hpred] at hd
    simp only at hd
    rw [retag_mapM_names hu, hvs, List.map_map] at hd
    exact hd
  have hlen : ds.length = vs.length := by rw [hds, hvs] at hl; simpa using hl
  have hlen' : p.terms.length = vs.length := by rw [hds]; simpa using hlen
  rw [hvs] at he hu
  have hzip : ((((vs.map Term.var).zip p.terms).map Prod.fst).map Term.name).Nodup := by
    rw [List.map_fst_zip (by rw [List.length_map]; omega), List.map_map]
    exact hnames
  have henv : EnvOf env [] (headTypes ((vs.map Term.var).zip p.terms)) := by
    intro n
    rw [derivedEnv_ok he hzip n]
    rw [show dictGet ([] : VarTypes) n = none from rfl, Option.or_none]
    rfl
  have hdt : ∀ u ∈ p.terms, u.tags.Nodup := by
    intro u hu'
    rw [hds] at hu'
    obtain ⟨w, hw', rfl⟩ := List.mem_map.1 hu'
    exact hds2 w hw'
  have hsn : ScopeNodup [] (headTypes ((vs.map Term.var).zip p.terms)) := by
    refine scopeNodup_base (headTypes_nodup ?_)
    rintro ⟨a, b⟩ hab
    have h1 := List.of_mem_zip hab
    obtain ⟨h1, h2⟩ := h1
    obtain ⟨v, hv, rfl⟩ := List.mem_map.1 h1
    exact ⟨hvs2 v hv, hdt b h2⟩
  have hus := retags_ok henv hsn hu
  rw [filled_retag hlen' hnames] at hus
  have hterms : x.pred.terms = (filledHead vs p.terms).map Term.var := by rw [hpred]; exact hus
  rw [hterms]
  intro u hu'
  obtain ⟨v, hv, rfl⟩ := List.mem_map.1 hu'
  exact filledHead_sets hvs2 hdt v hv

theorem declared_sets {text : Str} {d : Domain} {σ' : PState} (h : parseDomain F PState.fresh text = .ok (d, σ'))
    (ho : DerivedFirst text) (hn : DomainNoObstacle F d) : DeclaredSets d := by
  obtain ⟨ts, hr, h⟩ := parseDomain_ok h
  obtain ⟨P⟩ := domainDef_ok h
  have hw : ∀ w, Inside (.atom (.name w)) (.node ts) → nameRegex w = true :=
    fun w hw => readText_words hr (t := .node ts) (by simp) hw
  have hp := ho ts (readText_brackets.1 hr)
  have hts : Tree.node ts = .node (word s%"define" :: _ :: (_ ++ P.ts5)) := P.sections_of.choose_spec.2
  simp only [Tree.node.injEq] at hts
  rw [hts] at hp
  have hfirst := (List.pairwise_append.1 (List.pairwise_cons.1 (List.pairwise_cons.1 hp).2).2).2.1
  obtain ⟨hT, _⟩ := Props.DomainParse.types_ok P hw
  have hd := P.domain_eq hT
  constructor
  · have hde : d.predicates = dedupBy Pred.pyEq P.preds := congrArg Domain.predicates hd
    intro p hp
    rw [hde] at hp
    obtain ⟨_, vs, h1, _, h2⟩ := P.preds_decl hw p (dedupBy_subset hp)
    rw [h1]
    intro t ht
    obtain ⟨v, hv, rfl⟩ := List.mem_map.1 ht
    exact h2 v hv
  · have hde : d.derived = dedupBy Derived.pyEq P.ds := congrArg Domain.derived hd
    intro x hx
    have hx' := hx
    rw [hde] at hx'
    obtain ⟨body, hb, hdef⟩ := structures_first P.hstruct hfirst x (dedupBy_subset hx')
    exact P.head_sets hw hb hdef (hn.head x hx)

end

end Pddl
