/-
A parsed problem contains what is written.
-/
import Verif.Spec.WrittenProblem
import Verif.Proofs.Written
import Verif.Proofs.ParseProb
import Verif.Proofs.ProblemRead

namespace Pddl
open Spec Grammar

/-! ### The sections -/

/-- The text of the metric. -/
def metricBody : List Tree → Option (List Tree)
  | .node (_ :: b) :: _ => some b
  | _ => none

theorem problemMetric_cases {ts : List Tree} {m : Option Metric} (h : problemMetric ts = .ok m) :
    ts = [] ∧ m = none ∨ ∃ b m', ts = [section_ s%"metric" b] ∧ m = some m' ∧ metricSpec b = .ok m' := by
  unfold problemMetric at h
  split at h
  · simp only [pure_ok, Except.ok.injEq] at h
    exact .inl ⟨rfl, h.symm⟩
  · split at h
    · rename_i b heq
      obtain ⟨m', h1, h2⟩ := bind_ok_iff.1 h
      simp only [pure_ok, Except.ok.injEq] at h2
      exact .inr ⟨b, m', takeSection_some heq, h2.symm, h1⟩
    · cases h

theorem metricBody_text {ts : List Tree} {m : Option Metric} (h : problemMetric ts = .ok m) :
    ts = optText s%"metric" (metricBody ts) := by
  rcases problemMetric_cases h with ⟨rfl, _⟩ | ⟨b, m', rfl, _⟩ <;> rfl

/-- The sections that were read. -/
def ProblemParse.sections {F σ ts p σ'} (P : ProblemParse F σ ts p σ') : ProblemSections where
  name := P.n
  domain := P.dn
  reqs := P.r1
  objects := P.r2
  init := P.ib
  goal := P.g
  metric := metricBody P.ts5

theorem ProblemParse.sections_of {F σ ts p σ'} (P : ProblemParse F σ ts p σ') : P.sections.Of (.node ts) := by
  obtain ⟨t, ht, hts⟩ := header_named P.hheader
  refine ⟨t, ht, ?_⟩
  have h5 : P.ts5 = optText s%"metric" P.sections.metric := metricBody_text P.hmetric
  refine congrArg Tree.node (hts.trans ?_)
  rw [opt_text P.htake1, opt_text P.htake2, P.hts4, h5]
  simp [section_, word, sections]

/-! ### Objects -/

theorem problemObjects_written {b : List Tree} {os : List Term} {σ : List (Str × Term)}
    (hw : ∀ w, .atom (.name w) ∈ b → nameRegex w = true) (h : problemObjects b = .ok (os, σ)) :
    ConstantsWritten b (dedupBy Term.pyEq os) ∧ ∀ n x, (n, x) ∈ σ → x ∈ dedupBy Term.pyEq os ∧ ∃ t, x = .const n t := by
  unfold problemObjects at h
  obtain ⟨d, h1, h2⟩ := bind_ok_iff.1 h
  obtain ⟨cs', h3, h4⟩ := bind_ok_iff.1 h2
  simp only [pure_ok, Except.ok.injEq, Prod.mk.injEq] at h4
  obtain ⟨l, hl, rfl, rfl⟩ := (parseTypedNames_iff hw).1 h1
  have h3 := mkConsts_ok h3
  have hd : IsDict cs' := by
    rw [h3]
    have := hl.nodup
    simpa [IsDict, List.map_map, Function.comp_def] using this
  have e : dedupBy Term.pyEq os = l.pairs.map (fun p => .const p.1 p.2) := by
    rw [← h4.1, dictOf_nodup hd, h3, List.map_map, dedupBy_eq_self]
    · rfl
    · rw [List.pairwise_map]
      have := hl.nodup
      rw [List.Nodup, List.pairwise_map] at this
      refine this.imp (fun h => ?_)
      simp only [Function.comp_apply, Term.pyEq, decide_eq_false_iff_not]
      exact fun e => h e.symm
  refine ⟨⟨l, rfl, e⟩, ?_⟩
  intro n x hx
  rw [← h4.2, dictOf_nodup hd, h3] at hx
  obtain ⟨p, hp, hpe⟩ := List.mem_map.1 hx
  simp only [Prod.mk.injEq] at hpe
  obtain ⟨rfl, rfl⟩ := hpe
  exact ⟨by rw [e]; exact List.mem_map.2 ⟨p, hp, rfl⟩, _, rfl⟩

theorem problemObjects_all {b : List Tree} {os : List Term} {σ : List (Str × Term)}
    (h : problemObjects b = .ok (os, σ)) {n : Str} {y : Option Str} (hy : .const n y ∈ os) : n ∈ σ.map Prod.fst := by
  unfold problemObjects at h
  obtain ⟨d, h1, h2⟩ := bind_ok_iff.1 h
  obtain ⟨cs', h3, h4⟩ := bind_ok_iff.1 h2
  simp only [pure_ok, Except.ok.injEq, Prod.mk.injEq] at h4
  rw [← h4.1] at hy
  obtain ⟨p, hp, hpe⟩ := List.mem_map.1 hy
  have h3 := mkConsts_ok h3
  have := dictOf_mem hp
  rw [h3] at this
  obtain ⟨q, hq, hqe⟩ := List.mem_map.1 this
  rw [← hqe] at hpe
  simp only [Term.const.injEq] at hpe
  rw [← h4.2, ← hpe.1]
  exact List.mem_map.2 ⟨p, hp, by rw [← hqe]⟩

/-! ### The initial state -/

/-- The parser knows the objects: under their names, and with the declared types if `T`. -/
structure Knows (T : Prop) (σ : List (Str × Term)) (objs : List Term) : Prop where
  name : ∀ n x, dictGet σ n = some x → ∃ t, x = .const n t
  type : T → ∀ n x, dictGet σ n = some x → x ∈ objs
  all : T → ∀ n, dictGet σ n = none → ∀ y, .const n y ∉ objs

theorem initTerm_written {T : Prop} {σ : List (Str × Term)} {objs : List Term} (K : Knows T σ objs) {n : Str} {u : Term}
    (h : initTerm σ n = .ok u) : ∃ x, u = .const n x ∧ (T → ObjectType objs n x) := by
  unfold initTerm at h
  split at h
  · rename_i t ht
    simp only [pure_ok, Except.ok.injEq] at h
    subst h
    obtain ⟨x, rfl⟩ := K.name _ _ ht
    exact ⟨x, rfl, fun hT => .inl (K.type hT _ _ ht)⟩
  · rename_i ht
    exact ⟨none, mkConst_const h, fun hT => .inr ⟨rfl, K.all hT _ ht⟩⟩

theorem atomicName_written {T : Prop} {σ : List (Str × Term)} {objs : List Term} (K : Knows T σ objs) {l : List Tree}
    {e : Expr} (h : atomicName σ l = .ok e) : ∃ p, e = .pred p ∧ FactWritten T objs (.node l) p := by
  unfold atomicName at h
  split at h
  · rename_i n args
    split at h
    · cases h
    · rename_i ns hns
      obtain ⟨ts, h1, h⟩ := bind_ok_iff.1 h
      obtain ⟨q, h2, h⟩ := bind_ok_iff.1 h
      simp only [pure_ok, Except.ok.injEq] at h
      obtain ⟨_, _, rfl⟩ := mkPred_ok.1 h2
      refine ⟨_, h.symm, ns, ?_, ?_⟩
      · rw [namesOnly_some hns]; rfl
      · exact (mapM_ok_iff.1 h1).imp (fun _ _ h => initTerm_written K h)
  · cases h

theorem basicFunction_written {t : Tree} {f : NFun} (h : basicFunction t = .ok f) : FluentWritten t f := by
  unfold basicFunction at h
  split at h
  · obtain ⟨_, rfl⟩ := mkNFun_ok.1 h
    exact ⟨[], .inr ⟨rfl, rfl⟩, .nil⟩
  · split at h
    · cases h
    · rename_i n args ns hns
      obtain ⟨ts, h1, h⟩ := bind_ok_iff.1 h
      obtain ⟨_, rfl⟩ := mkNFun_ok.1 h
      refine ⟨ns, .inl ?_, ?_⟩
      · rw [namesOnly_some hns]; rfl
      · exact (mapM_ok_iff.1 h1).imp (fun _ _ h => ⟨_, mkConst_const h⟩)
  · cases h

theorem construct_eq_value (f : NFun) (v : Num) :
    construct (.fop .eq) [.nfun f, .num v] = .bfun .eq [.nfun f, .num v] := by
  have h : simplLoop (.fop .eq) [.nfun f, .num v] [] = [.nfun f, .num v] := by
    rw [simplLoop_flat _ _ _ (by simp [Expr.operandsIf])]
    simp [dedupAux, memBy, Expr.pyEq]
  simp [construct, Cls.isMeta, simplOperands, Cls.idempotent, Expr.ofCls, h]

theorem initEl_written {F : FloatOf} {T : Prop} {σ : List (Str × Term)} {objs : List Term} (K : Knows T σ objs) {t : Tree}
    {e : Expr} (h : initEl F σ t = .ok e) : InitWritten F T objs t e := by
  unfold initEl at h
  split at h
  · split at h
    · rename_i f s
      obtain ⟨f', h1, h⟩ := bind_ok_iff.1 h
      obtain ⟨n, h2, h⟩ := bind_ok_iff.1 h
      simp only [pure_ok, Except.ok.injEq, construct_eq_value] at h
      subst h
      exact .value (basicFunction_written h1) (fun lit hl => (hl _ _ h2).symm)
    · cases h
  · split at h
    · rename_i hw
      subst hw
      split at h
      · obtain ⟨e', h1, h⟩ := bind_ok_iff.1 h
        simp only [pure_ok, Except.ok.injEq] at h
        subst h
        obtain ⟨p, rfl, hp⟩ := atomicName_written K h1
        exact .not hp
      · cases h
    · obtain ⟨p, rfl, hp⟩ := atomicName_written K h
      exact .fact hp
  · cases h

theorem const_names {P : Str → Option Str → Prop} {ns ms : List Str} {ts us : List Term}
    (h1 : List.Forall₂ (fun n u => ∃ x, u = .const n x ∧ P n x) ns ts)
    (h2 : List.Forall₂ (fun n u => ∃ x, u = .const n x ∧ P n x) ms us)
    (h : us.map Term.norm = ts.map Term.norm) : ns = ms := by
  induction h1 generalizing ms us with
  | nil => cases h2 with
    | nil => rfl
    | cons _ _ => simp at h
  | cons a _ ih => cases h2 with
    | nil => simp at h
    | cons b h2 =>
      obtain ⟨x, rfl, _⟩ := a
      obtain ⟨y, rfl, _⟩ := b
      simp only [List.map_cons, List.cons.injEq, Term.norm, NTerm.const.injEq] at h
      rw [h.1, ih h2 h.2]

theorem Spec.FactWritten.congr {T : Prop} {objs : List Term} {t t' : Tree} {p p' : Pred} (h : FactWritten T objs t p)
    (h' : FactWritten T objs t' p') (en : p'.name = p.name) (e : p'.terms.map Term.norm = p.terms.map Term.norm) :
    FactWritten T objs t p' := by
  obtain ⟨ns, h1, h2⟩ := h
  obtain ⟨ms, _, h4⟩ := h'
  have := const_names h2 h4 e
  subst this
  exact ⟨ns, by rw [en]; exact h1, h4⟩

theorem Spec.FluentWritten.congr {t t' : Tree} {p p' : NFun} (h : FluentWritten t p)
    (h' : FluentWritten t' p') (en : p'.name = p.name) (e : p'.terms.map Term.norm = p.terms.map Term.norm) :
    FluentWritten t p' := by
  obtain ⟨ns, h1, h2⟩ := h
  obtain ⟨ms, _, h4⟩ := h'
  have : ns = ms := const_names (P := fun _ _ => True) (h2.imp fun _ _ ⟨x, h⟩ => ⟨x, h, trivial⟩)
    (h4.imp fun _ _ ⟨x, h⟩ => ⟨x, h, trivial⟩) e
  subst this
  exact ⟨ns, by rw [en]; exact h1, h4⟩

theorem Spec.InitWritten.congr {F : FloatOf} {T : Prop} {objs : List Term} {t t' : Tree} {e e' : Expr}
    (h : InitWritten F T objs t e) (h' : InitWritten F T objs t' e') (he : e'.norm = e.norm) :
    InitWritten F T objs t e' := by
  cases h with
  | fact h1 =>
    cases h' with
    | fact h2 =>
      simp only [Expr.norm, NExpr.pred.injEq] at he
      exact .fact (h1.congr h2 he.1 he.2)
    | not h2 => simp [Expr.norm] at he
    | value _ _ => simp [Expr.norm] at he
  | not h1 =>
    cases h' with
    | fact h2 => simp [Expr.norm] at he
    | not h2 =>
      simp only [Expr.norm, NExpr.not.injEq, NExpr.pred.injEq] at he
      exact .not (h1.congr h2 he.1 he.2)
    | value _ _ => simp [Expr.norm] at he
  | value h1 hv =>
    cases h' with
    | fact h2 => simp [Expr.norm] at he
    | not h2 => simp [Expr.norm] at he
    | value h2 _ =>
      simp only [Expr.norm, Expr.norms, NExpr.bfun.injEq, List.cons.injEq, NExpr.nfun.injEq, NExpr.num.injEq, and_true,
        true_and] at he
      exact .value (h1.congr h2 he.1.1 he.1.2) (fun lit hl => by rw [← hv lit hl]; exact numVal_key he.2)

/-! ### The metric -/

theorem terms_consts {F : FloatOf} {ns : List Str} : ∀ {ts}, ns.mapM (fun n => mkConst n none) = .ok ts →
    (goalEnv F).terms (ns.map (fun x => .atom (.name x))) = .ok ts := by
  induction ns with
  | nil => intro ts h; simpa [GEnv.terms] using h
  | cons n ns ih =>
    intro ts h
    simp only [List.mapM_cons, bind_ok_iff, pure_ok, Except.ok.injEq] at h
    obtain ⟨u, hu, us, hus, rfl⟩ := h
    simp only [List.map_cons, GEnv.terms, ih hus, ok_bind]
    simp only [goalEnv, hu, ok_bind, pure_ok]

theorem metricExps_zip {ts : List Tree} : ∀ {es}, metricExps ts = .ok es → ts.length = es.length ∧
    ∀ p ∈ ts.zip es, metricExp p.1 = .ok p.2 := by
  induction ts with
  | nil => intro es h; simp [metricExps] at h; subst h; simp
  | cons a ts ih =>
    intro es h
    simp only [metricExps, bind_ok_iff, pure_ok, Except.ok.injEq] at h
    obtain ⟨e, he, es', hes, rfl⟩ := h
    obtain ⟨i1, i2⟩ := ih hes
    refine ⟨by simp [i1], ?_⟩
    intro p hp
    simp only [List.zip_cons_cons, List.mem_cons] at hp
    rcases hp with rfl | hp
    · exact he
    · exact i2 p hp

/-- Without numbers, a metric is read like a numeric expression of a goal. -/
theorem metricExp_rel {F : FloatOf} {t : Tree} : ∀ {e}, NoNumbers t → metricExp t = .ok e → FRel (goalEnv F) t e := by
  induction t using Tree.ind with
  | hatom t =>
    intro e hn h
    unfold metricExp at h
    split at h
    all_goals first
      | (rename_i heq; cases heq; done)
      | (rename_i heq; cases heq; exact absurd .refl (hn _))
      | (rename_i heq; cases heq
         obtain ⟨f, h1, h⟩ := bind_ok_iff.1 h
         simp only [pure_ok, Except.ok.injEq] at h
         subst h
         exact .fn0 h1)
      | cases h
  | hnode l ih =>
    intro e hn h
    have hall : ∀ {args es}, (∀ t ∈ args, t ∈ l) → metricExps args = .ok es → args.length = es.length ∧
        ∀ p ∈ args.zip es, FRel (goalEnv F) p.1 p.2 := by
      intro args es hs h
      obtain ⟨h1, h2⟩ := metricExps_zip h
      refine ⟨h1, fun p hp => ?_⟩
      have hm := hs p.1 (List.of_mem_zip hp).1
      exact ih p.1 hm (fun s hi => hn s (hi.trans (.node hm .refl))) (h2 p hp)
    unfold metricExp at h
    split at h
    · rename_i heq; cases heq
    · rename_i args heq
      cases heq
      obtain ⟨es, h1, h⟩ := bind_ok_iff.1 h
      obtain ⟨_, h2, h⟩ := bind_ok_iff.1 h
      simp only [check_ok, decide_eq_true_eq] at h2
      simp only [pure_ok, Except.ok.injEq] at h
      subst h
      obtain ⟨a, b⟩ := hall (by simp +contextual) h1
      exact .plus h2 a b
    · rename_i args heq
      cases heq
      obtain ⟨es, h1, h⟩ := bind_ok_iff.1 h
      obtain ⟨_, h2, h⟩ := bind_ok_iff.1 h
      simp only [check_ok, decide_eq_true_eq] at h2
      simp only [pure_ok, Except.ok.injEq] at h
      subst h
      obtain ⟨a, b⟩ := hall (by simp +contextual) h1
      exact .times h2 a b
    · rename_i args heq
      cases heq
      obtain ⟨es, h1, h⟩ := bind_ok_iff.1 h
      obtain ⟨_, h2, h⟩ := bind_ok_iff.1 h
      simp only [check_ok, decide_eq_true_eq] at h2
      simp only [pure_ok, Except.ok.injEq] at h
      subst h
      obtain ⟨a, b⟩ := hall (by simp +contextual) h1
      obtain ⟨x, y, rfl⟩ := length_two h2
      obtain ⟨x', y', rfl⟩ := length_two (a.symm.trans h2)
      exact .divide (b (x, x') (by simp)) (b (y, y') (by simp))
    · rename_i args heq
      cases heq
      obtain ⟨es, h1, h⟩ := bind_ok_iff.1 h
      obtain ⟨_, h2, h⟩ := bind_ok_iff.1 h
      simp only [check_ok, decide_eq_true_eq] at h2
      simp only [pure_ok, Except.ok.injEq] at h
      subst h
      obtain ⟨a, b⟩ := hall (by simp +contextual) h1
      obtain ⟨x, rfl⟩ := length_one h2
      obtain ⟨x', rfl⟩ := length_one (a.symm.trans h2)
      exact .minus (b (x, x') (by simp))
    · rename_i heq; cases heq
    · rename_i n args heq
      cases heq
      obtain ⟨f, h1, h⟩ := bind_ok_iff.1 h
      simp only [pure_ok, Except.ok.injEq] at h
      subst h
      simp only [basicFunction] at h1
      split at h1
      · cases h1
      · rename_i ns hns
        obtain ⟨ts, h2, h3⟩ := bind_ok_iff.1 h1
        rw [namesOnly_some hns]
        exact .fn (terms_consts h2) h3
    · cases h

theorem metricSpec_written {F : FloatOf} {b : List Tree} {m : Metric} (h : metricSpec b = .ok m) :
    MetricWritten F (fun t => NoNumbers t ∧ KeepsOperands (goalEnv F) t) b m := by
  have key : ∀ {t e}, metricExp t = .ok e → NoNumbers t ∧ KeepsOperands (goalEnv F) t →
      ∀ (D : Type) (I : Interp D) lit ρ, LitOk lit F → value I ρ e = treeValue I lit ρ t :=
    fun h hc D I lit ρ hl => (metricExp_rel hc.1 h).sem I lit (goalEnv_ok F) hl hc.2
  unfold metricSpec at h
  split at h
  · rename_i t hd
    obtain ⟨e, h1, h⟩ := bind_ok_iff.1 h
    simp only [pure_ok, Except.ok.injEq] at h
    subst h
    exact ⟨t, dropKeyword_grammar.1 hd, key h1⟩
  · cases h
  · split at h
    · rename_i t hd
      obtain ⟨e, h1, h⟩ := bind_ok_iff.1 h
      simp only [pure_ok, Except.ok.injEq] at h
      subst h
      exact ⟨t, dropKeyword_grammar.1 hd, key h1⟩
    · cases h

/-! ### The problem -/

theorem mkProblem_names {a : ProblemArgs} {p : Problem} {dn : Str} (h : mkProblem a = .ok p) (hd : a.domain = none)
    (hn : a.domainName = some dn) : p.domainName = dn ∧ p.reqs_ = a.reqs.map reqSet := by
  unfold mkProblem at h
  obtain ⟨n, h1, h⟩ := bind_ok_iff.1 h
  obtain ⟨dn', h2, h⟩ := bind_ok_iff.1 h
  obtain ⟨rs, h3, h⟩ := bind_ok_iff.1 h
  obtain ⟨_, _, h⟩ := bind_ok_iff.1 h
  obtain ⟨_, _, h⟩ := bind_ok_iff.1 h
  simp only [pure_ok, Except.ok.injEq] at h
  rw [hd, hn] at h2
  rw [hd] at h3
  simp only [parseDomainName] at h2
  subst h
  constructor
  · simp only [Problem.domainName, hd]
    exact (parseName_ok.1 h2).1
  · cases hr : a.reqs with
    | none => rw [hr] at h3; simp only [parseReqs, pure_ok, Except.ok.injEq] at h3; simp [← h3]
    | some r => rw [hr] at h3; simp only [parseReqs, pure_ok, Except.ok.injEq] at h3; simp [← h3]

/-- The objects that the parser keeps are constants under their names. -/
def ObjectsOk (σ : List (Str × Term)) : Prop := ∀ n x, dictGet σ n = some x → ∃ t, x = .const n t

theorem ProblemParse.knows {F σ ts p σ'} (P : ProblemParse F σ ts p σ') (hσ : ObjectsOk σ)
    (hw : ∀ w, Inside (.atom (.name w)) (.node ts) → nameRegex w = true) :
    Knows (σ = [] ∨ P.sections.objects ≠ none) σ' p.objects ∧ ConstantsWritten (P.r2.getD []) p.objects := by
  have ho : p.objects = dedupBy Term.pyEq P.objs := (mkProblem_fields P.hproblem).2.2.1
  rw [ho]
  rcases P.hobjs with ⟨h, h', h''⟩ | ⟨b, h, h'⟩
  · rw [h', h]
    refine ⟨⟨by rw [h'']; exact hσ, ?_, ?_⟩, ⟨⟨[], []⟩, rfl, rfl⟩⟩
    · rintro (hT | hT)
      · rw [h'', hT]; simp [dictGet]
      · exact absurd h hT
    · simp [dedupBy, dedupAux]
  · have hw' : ∀ w, .atom (.name w) ∈ b → nameRegex w = true := by
      intro w hb
      refine hw w (.node (t := section_ s%"objects" b) ?_ (.node (.tail _ hb) .refl))
      obtain ⟨w, x, hts, _⟩ := header_ok P.hheader
      rw [hts]
      have : section_ s%"objects" b ∈ P.ts2 := by
        have := takeSection_some (h ▸ P.htake2)
        rw [this]; exact .head _
      simp only [List.mem_cons]
      exact .inr (.inr (.inr (takeSection_sub P.htake1 this)))
    obtain ⟨h1, h2⟩ := problemObjects_written hw' h'
    refine ⟨⟨fun n x hx => (h2 n x (mem_of_dictGet hx)).2, fun _ n x hx => (h2 n x (mem_of_dictGet hx)).1, ?_⟩, by
      rw [h]; exact h1⟩
    intro _ n hn y hy
    obtain ⟨v, hv⟩ := dictGet_of_key (problemObjects_all h' (dedupBy_subset hy))
    rw [hn] at hv; cases hv

theorem ProblemParse.written {F σ ts p σ'} (P : ProblemParse F σ ts p σ') (hσ : ObjectsOk σ)
    (hw : ∀ w, Inside (.atom (.name w)) (.node ts) → nameRegex w = true) :
    ProblemWritten F (σ = [] ∨ P.sections.objects ≠ none) (fun t => NoNumbers t ∧ KeepsOperands (goalEnv F) t)
      P.sections p := by
  obtain ⟨f1, f2, f3, f4, f5, f6, f7⟩ := mkProblem_fields P.hproblem
  obtain ⟨g1, g2⟩ := mkProblem_names P.hproblem rfl rfl
  obtain ⟨K, ho⟩ := P.knows hσ hw
  have hall : ∀ e ∈ P.init, ∃ t ∈ P.ib, InitWritten F (σ = [] ∨ P.sections.objects ≠ none) p.objects t e := by
    intro e he
    obtain ⟨t, ht, h⟩ := zipped_right (mapM_ok_iff.1 P.hinit) he
    exact ⟨t, ht, initEl_written K h⟩
  refine ⟨f1, f2, g1, ?_, ho, ?_, ?_, ?_, ?_⟩
  · rw [g2]
    rcases P.hreqs with ⟨h, h'⟩ | ⟨b, rs, h, h', h''⟩
    · simp [sections, h, h']
    · simp only [sections, h, h'', Option.map_some]
      intro r
      rw [mem_reqSet]
      exact parseRequirements_written h' r
  · intro e he
    rw [f4] at he
    exact hall e (dedupBy_subset he)
  · intro t ht
    obtain ⟨e, he, h⟩ := mapM_ok_mem P.hinit ht
    have h := initEl_written K h
    obtain ⟨e', he', hq⟩ := memBy_iff.1 (dedupBy_cover Expr.pyEq_refl he)
    rw [f4]
    obtain ⟨t', _, h'⟩ := hall e' (dedupBy_subset he')
    exact ⟨e', he', h.congr h' ((Expr.pyEq_iff _ _).1 hq).symm⟩
  · intro hk D I lit ρ hlit
    rw [f5]
    have hG := gd_iff.1 P.hgoal
    exact hG.sem I lit (goalEnv_ok F) hlit (fun w hi => hw w (hi.trans (.node P.goal_mem (.node (by simp) .refl)))) hk ρ
  · rw [f6]
    rcases problemMetric_cases P.hmetric with ⟨h, h'⟩ | ⟨b, m, h, h', h''⟩
    · simp [sections, h, h', metricBody]
    · simp only [sections, h, h', metricBody, section_]
      exact metricSpec_written h''

/-! ### Plans -/

theorem groundAction_written {t : Tree} {s : Str × List Term} (h : groundAction t = .ok s) : StepWritten t s := by
  unfold groundAction at h
  split at h
  · split at h
    · cases h
    · rename_i n args ns hns
      obtain ⟨ts, h1, h⟩ := bind_ok_iff.1 h
      simp only [pure_ok, Except.ok.injEq] at h
      subst h
      refine ⟨ns, by rw [namesOnly_some hns]; rfl, ?_⟩
      have := mapM_ok_iff.1 h1
      clear * - this
      simp only
      induction this with
      | nil => rfl
      | cons h _ ih => rw [List.map_cons, ih, mkConst_const h]
  · cases h

theorem groundAction_valid {t : Tree} {s : Str × List Term} (h : groundAction t = .ok s) : ∀ c ∈ s.2, ValidName c.name := by
  unfold groundAction at h
  split at h
  · split at h
    · cases h
    · rename_i n args ns hns
      obtain ⟨ts, h1, h⟩ := bind_ok_iff.1 h
      simp only [pure_ok, Except.ok.injEq] at h
      subst h
      intro c hc
      obtain ⟨m, _, h⟩ := zipped_right (mapM_ok_iff.1 h1) hc
      obtain ⟨h1, _, rfl⟩ := mkConst_ok h
      exact h1
  · cases h

theorem groundAction_of {t : Tree} {s : Str × List Term} (h : StepWritten t s) (hv : ∀ c ∈ s.2, ValidName c.name) :
    groundAction t = .ok s := by
  obtain ⟨n, cs⟩ := s
  obtain ⟨ns, rfl, h⟩ := h
  simp only at h
  subst h
  have hn : namesOnly (ns.map word) = some ns := by
    clear hv
    induction ns with
    | nil => rfl
    | cons a ns ih => simp [namesOnly, word] at ih ⊢; exact ih
  have hm : ns.mapM (fun n => mkConst n none) = .ok (ns.map (.const · none)) := by
    clear hn
    induction ns with
    | nil => rfl
    | cons a ns ih =>
      have ha : mkConst a none = .ok (.const a none) := mkConst_none (hv (.const a none) (by simp))
      have := ih (fun c hc => hv c (by simp only [List.map_cons, List.mem_cons]; exact .inr hc))
      simp only [List.mapM_cons, ha, this, ok_bind, pure_ok, List.map_cons]
  simp only [groundAction, word] at hn ⊢
  simp only [hn, hm, ok_bind, pure_ok]

end Pddl
