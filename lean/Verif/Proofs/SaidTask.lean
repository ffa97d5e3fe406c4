/-
The texts of tasks say what the tasks say.
-/
import Verif.Spec.SaidTask
import Verif.Proofs.Said
import Verif.Proofs.DomainRead
import Verif.Proofs.Execute
import Verif.Proofs.PlanText
import Verif.Proofs.Cost

namespace Pddl
open Spec Spec.Grammar

variable {F : FloatOf}

/-- The section of the predicates, with what is written in it. -/
theorem predicates_text {ps : List Pred} (h : ∀ p ∈ ps, PrintPredicate p) (hb : ∀ p ∈ ps, ∃ n ts, mkPred n ts = .ok p) :
    ∃ r : Option (List Tree), Block (if ps = [] then [] else s%"(:predicates " ++ printPredicates ps ++ s%")\n") (secTree s%"predicates" r) ∧
      r.getD [] = (sortedBy Pred.lt ps).map (fun p => predTree p.name (declOf p)) := by
  by_cases h0 : ps = []
  · subst h0
    exact ⟨none, .nil, rfl⟩
  · have hk : Prints s%":predicates" [.atom (.kw s%"predicates")] := Prints.kw (k := s%"predicates") (by decide +kernel) (by decide +kernel)
    have hpp := printPredicates_prints (ps := ps) (fun p hp => ⟨h p hp, by
      obtain ⟨n, ts, h1⟩ := hb p hp
      obtain ⟨h1, _, h3⟩ := mkPred_ok.1 h1
      rw [h3]; exact (parseName_ok.1 h1).2.1⟩)
    refine ⟨some ((sortedBy Pred.lt ps).map (fun p => predTree p.name (declOf p))), ?_, rfl⟩
    rw [if_neg h0]
    refine ⟨?_, .inr ⟨_, rfl⟩⟩
    have := (Prints.op hk hpp).newline_end
    simpa [secTree] using this

theorem secTree_opt (k : Str) (r : Option (List Tree)) : secTree k r = optText k r := by cases r <;> rfl

/-- The text of a domain, with its sections, predicates, derived predicates and actions. -/
theorem domain_textSections {d : Domain} (hb : BuiltDomain d) (hp : SaidDomain F d) :
    ∃ (text : Str) (ts : List Tree) (s : DomainSections), d.str = .ok text ∧ readText text = .ok [.node ts] ∧ s.Of (.node ts) ∧
      (∀ t ∈ s.structures, (∃ b, t = section_ s%"derived" b) ∨ ∃ b, t = section_ s%"action" b) ∧
      (∀ n b, .node (word n :: b) ∈ s.predicates.getD [] ↔ ∃ q ∈ d.predicates, q.name = n ∧ b = (declOf q).flatMap declTrees) ∧
      (∀ n b c, section_ s%"derived" [.node (word n :: b), c] ∈ s.structures ↔
        ∃ x ∈ d.derived, x.pred.name = n ∧ b = (declOf x.pred).flatMap declTrees ∧ c = x.cond.tree) ∧
      ∀ n ps pre eff, actionText n ps pre eff ∈ ts ↔ ∃ a ∈ d.actions, ∃ (vs : List Var) (p e : Expr), a.name = n ∧ a.params = vs.map Term.var ∧ a.pre = some p ∧
        a.eff = some e ∧ ps = vs.flatMap quantVarTrees ∧ pre = p.tree ∧ eff = e.tree := by
  obtain ⟨a, ha, hmk⟩ := hb
  have hc := checked_of_mk ha.types hmk
  obtain ⟨_, _, _, _, _, _, _, _, hda⟩ := (mkDomain_ok ha.types).1 hmk
  have hmp : ∀ p ∈ d.predicates, p ∈ a.predicates := by rw [hda]; exact fun p hp => dedupBy_subset hp
  have hma : ∀ x ∈ d.actions, x ∈ a.actions := by rw [hda]; exact fun p hp => dedupBy_subset hp
  have hmd : ∀ x ∈ d.derived, x ∈ a.derived := by rw [hda]; exact fun p hp => dedupBy_subset hp
  have hfun : d.functions = a.functions := by rw [hda]; rfl
  have hfd : IsFunDict d.functions := by rw [hfun]; exact ha.functions
  have hnames := names_nodup hp.constants hc.distinct
  obtain ⟨r1, rs0, b1, _, _⟩ := requirements_block hp.reqs
  obtain ⟨ttext, r2, T, ht0, b2, _⟩ := types_block (σ := ⟨extendReqs d.reqs, [], [], [], none⟩) hc.dict hc.typeNames hc.hierarchy.acyclic
    hc.clean hp.types rfl (fun h => typing_of_has (hp.types.typing h))
  obtain ⟨r3, objs, cs, b3, _⟩ := constants_block hp.constants hnames PState.fresh
  obtain ⟨r4, b4, hr4⟩ := predicates_text hp.predicates (fun p h => ha.predicates p (hmp p h))
  obtain ⟨r5, fs, b5, _⟩ := functions_block hp.functions (fun f h => ha.functionNames f (by rw [← hfun]; exact h)) hfd
  have b6 := sorted_block (f := derivedStr) (g := fun x => [derivedTree x x.cond]) (l := d.derived) (fun x hx => by
      obtain ⟨h1, h2⟩ := hp.derived x hx
      obtain ⟨n, us, hn⟩ := (ha.derived x (hmd x hx)).pred
      exact Prints.derived (by rw [(mkPred_ok.1 hn).2.2]; exact (mkPred_valid hn).1) h1 rfl h2.writable)
    (fun x => ⟨_, rfl⟩)
  have hact : ∀ x : Action, ∃ p e : Expr, x ∈ d.actions → Prints (x.str ++ s%"\n") [actionTree x p e] ∧ x.pre = some p ∧ x.eff = some e := by
    intro x
    by_cases hx : x ∈ d.actions
    · obtain ⟨h1, h2, _⟩ := hc.actions x hx
      obtain ⟨p, hpe⟩ := Option.ne_none_iff_exists'.1 h1
      obtain ⟨e, hee⟩ := Option.ne_none_iff_exists'.1 h2
      obtain ⟨vs, hv, hs⟩ := (hp.actions x hx).params
      have hbx := ha.actions x (hma x hx)
      have hn : ValidName x.name := by obtain ⟨n, hn⟩ := hbx.name; have := parseName_ok.1 hn; rw [this.1]; exact this.2
      exact ⟨p, e, fun _ => ⟨Prints.action hn.1 hv hs hpe hee ((hp.actions x hx).pre p hpe).writable
        ((hp.actions x hx).eff e hee).writable, hpe, hee⟩⟩
    · exact ⟨.num (.int 0), .num (.int 0), fun h => absurd h hx⟩
  choose pf ef hact using hact
  have b7 := sorted_block (f := fun x : Action => x.str ++ s%"\n") (g := fun x => [actionTree x (pf x) (ef x)]) (l := d.actions)
    (fun x hx => (hact x hx).1) (fun x => ⟨_, rfl⟩)
  rw [flatMap_single] at b6 b7
  have hA := inOrder_perm (fun x : Action => x.str ++ s%"\n") d.actions
  have hbody := ((((((b1.append b2).append b3).append b4).append b5).append b6).append b7).1
  obtain ⟨body, hbs, hbody⟩ : ∃ body, d.bodyStr = .ok body ∧ Prints body _ := by
    refine ⟨_, ?_, hbody⟩
    unfold Domain.bodyStr
    rw [ht0, ok_bind]
    rfl
  have hhead := header_text (k := s%"domain") (by decide +kernel) (by decide) hc.name.1
  have hread := readText_layout hhead hbody
  have htext : '(' :: (s%"define (" ++ s%"domain" ++ s%" " ++ d.name ++ s%")") =
      s%"(define (domain " ++ d.name ++ s%")" := by simp
  rw [htext] at hread
  have hD := inOrder_perm derivedStr d.derived
  refine ⟨_, _, ⟨d.name, r1, r2, r3, r4, r5, (inOrder derivedStr d.derived).map (fun x => derivedTree x x.cond) ++
      (inOrder (fun x : Action => x.str ++ s%"\n") d.actions).map (fun x => actionTree x (pf x) (ef x))⟩,
    by unfold Domain.str; rw [hbs, ok_bind]; rfl, hread, ⟨_, ⟨_, rfl, .word _⟩, ?_⟩, ?_, ?_, ?_, ?_⟩
  · simp only [secTree_opt, List.append_assoc]
    rfl
  · intro t ht
    rcases List.mem_append.1 ht with ht | ht
    · obtain ⟨x, _, rfl⟩ := List.mem_map.1 ht
      exact .inl ⟨_, rfl⟩
    · obtain ⟨x, _, rfl⟩ := List.mem_map.1 ht
      exact .inr ⟨_, rfl⟩
  · intro n b
    simp only [hr4, List.mem_map]
    constructor
    · rintro ⟨q, hq, e⟩
      simp only [predTree, word, Tree.node.injEq, List.cons.injEq, Tree.atom.injEq, Tok.name.injEq] at e
      exact ⟨q, (sortBy_perm _ _).mem_iff.1 hq, e.1, e.2.symm⟩
    · rintro ⟨q, hq, rfl, rfl⟩
      exact ⟨q, (sortBy_perm _ _).mem_iff.2 hq, rfl⟩
  · intro n b c
    simp only [List.mem_append, List.mem_map]
    constructor
    · rintro (⟨x, hx, e⟩ | ⟨x, _, e⟩)
      · simp only [derivedTree, section_, predTree, word, Tree.node.injEq, List.cons.injEq, Tree.atom.injEq, Tok.name.injEq, true_and,
          and_true] at e
        exact ⟨x, hD.mem_iff.1 hx, e.1.1, e.1.2.symm, e.2.symm⟩
      · simp [actionTree, section_] at e
    · rintro ⟨x, hx, rfl, rfl, rfl⟩
      exact .inl ⟨x, hD.mem_iff.2 hx, rfl⟩
  intro n ps pre eff
  have hsec : ∀ k r, k ≠ s%"action" → actionText n ps pre eff ∉ secTree k r := by
    intro k r hk
    cases r <;> simp [secTree, actionText, hk.symm]
  simp only [List.mem_append, hsec _ _ (show s%"requirements" ≠ s%"action" by decide), hsec _ _ (show s%"types" ≠ s%"action" by decide),
    hsec _ _ (show s%"constants" ≠ s%"action" by decide), hsec _ _ (show s%"predicates" ≠ s%"action" by decide),
    hsec _ _ (show s%"functions" ≠ s%"action" by decide), false_or, or_false]
  constructor
  · rintro (h | h | h)
    · simp [actionText] at h
    · obtain ⟨x, _, e⟩ := List.mem_map.1 h
      simp [derivedTree, actionText] at e
    · obtain ⟨x, hx, e⟩ := List.mem_map.1 h
      have hx := hA.mem_iff.1 hx
      obtain ⟨vs, hv, _⟩ := (hp.actions x hx).params
      simp only [actionTree, actionText, Tree.node.injEq, List.cons.injEq, Tree.atom.injEq, Tok.name.injEq, true_and, and_true] at e
      obtain ⟨e1, e2, e3, e4⟩ := e
      refine ⟨x, hx, vs, pf x, ef x, e1, hv, (hact x hx).2.1, (hact x hx).2.2, ?_, e3.symm, e4.symm⟩
      rw [← e2, hv, declOf_vars]
  · rintro ⟨x, hx, vs, p, e, rfl, hv, h1, h2, rfl, rfl, rfl⟩
    right; right
    refine List.mem_map.2 ⟨x, hA.mem_iff.2 hx, ?_⟩
    obtain ⟨_, k1, k2⟩ := hact x hx
    rw [h1] at k1; rw [h2] at k2
    cases k1; cases k2
    simp only [actionTree, actionText, hv, declOf_vars]

/-- The text of a domain, with its actions. -/
theorem domain_text {d : Domain} (hb : BuiltDomain d) (hp : SaidDomain F d) :
    ∃ (text : Str) (ts : List Tree), d.str = .ok text ∧ readText text = .ok [.node ts] ∧
      ∀ n ps pre eff, actionText n ps pre eff ∈ ts ↔ ∃ a ∈ d.actions, ∃ (vs : List Var) (p e : Expr), a.name = n ∧ a.params = vs.map Term.var ∧ a.pre = some p ∧
        a.eff = some e ∧ ps = vs.flatMap quantVarTrees ∧ pre = p.tree ∧ eff = e.tree := by
  obtain ⟨text, ts, _, h1, h2, _, _, _, _, h3⟩ := domain_textSections hb hp
  exact ⟨text, ts, h1, h2, h3⟩

/-! ### The problem -/

theorem constants_written {ts : List Term} (h : ∀ t ∈ ts, IsConstant t) {P : Str → Option Str → Prop} (hP : ∀ n x, P n x) :
    List.Forall₂ (fun n u => ∃ x, u = .const n x ∧ P n x) (ts.map Term.name) ts := by
  rw [List.forall₂_map_left_iff, List.forall₂_same]
  intro t ht
  cases t with
  | var v => exact absurd (h _ ht) (by simp [IsConstant])
  | const n x => exact ⟨x, rfl, hP n x⟩

theorem init_written {objs : List Term} {e : Expr} (h : InitText F e) : InitWritten F False objs e.tree e := by
  cases h with
  | @pred p h =>
    refine .fact ⟨p.terms.map Term.name, ?_, constants_written h fun _ _ h => h.elim⟩
    rw [Expr.tree, constants_trees h]
    rfl
  | @not p h =>
    rw [Expr.tree]
    refine .not ⟨p.terms.map Term.name, ?_, constants_written h fun _ _ h => h.elim⟩
    rw [Expr.tree, constants_trees h]
    rfl
  | @value f n h hn =>
    simp only [Expr.tree, Expr.trees, FOp.tok]
    refine .value ⟨f.terms.map Term.name, .inl ?_, (constants_written h (P := fun _ _ => True) fun _ _ => trivial).imp
      fun _ _ ⟨x, e, _⟩ => ⟨x, e⟩⟩ fun lit hlit => (hlit _ _ (numberText_literal hn)).symm
    rw [constants_trees h]
    rfl

theorem Spec.SaidMetric.value {D : Type} (I : Interp D) (lit : Str → Option Rat) (ρ : Str → D) {e : Expr} (h : SaidMetric e) :
    treeValue I lit ρ e.tree = metricValue I lit ρ e := by
  induction h with
  | num _ => simp [Expr.tree, treeValue, metricValue, numberVal, Num.text]
  | fn h1 _ => simp [Expr.tree, treeValue, metricValue, treeTerms_trees]
  | @op o as ho _ ih =>
    have : ∀ bs : List Expr, (∀ a ∈ bs, treeValue I lit ρ a.tree = metricValue I lit ρ a) →
        treeValues I lit ρ (Expr.trees bs) = metricValues I lit ρ bs := by
      intro bs hb
      induction bs with
      | nil => rfl
      | cons b bs ih =>
        rw [Expr.trees, treeValues, metricValues, hb b (by simp), ih (fun a ha => hb a (by simp [ha]))]
    have := this as ih
    cases o <;> simp only [IsArithmetic] at ho <;> simp [Expr.tree, FOp.tok, treeValue, metricValue, this]

theorem Spec.SaidMetric.writable {e : Expr} (h : SaidMetric e) : Writable e := by
  induction h with
  | num h => exact .num (Prints.numeral h)
  | fn h1 h2 => exact .nfun (validFunction_shape h1) fun t ht => (h2 t ht).1
  | op _ _ ih => exact .bfun ih

/-- The text of a problem. -/
theorem problem_text {p : Problem} (hb : BuiltProblem p) (hp : SaidProblem F p) :
    ∃ (t : Tree) (s : ProblemSections), readText p.str = .ok [t] ∧ s.Of t ∧ (∀ u, u ∈ s.init ↔ ∃ e ∈ p.init, u = e.tree) ∧
      s.goal = p.goal.tree ∧ s.metric = p.metric.map (fun m => [word m.optimization, m.expr.tree]) := by
  obtain ⟨a, ha, hmk⟩ := hb
  obtain ⟨hname, hdom, hobj, hinit, hgoal, hmet, hlit⟩ := mkProblem_fields hmk
  have hnd : a.domain = none := by rw [← hdom]; exact hp.noDomain
  have hvn : ValidName p.name := by
    unfold mkProblem at hmk
    obtain ⟨n, h1, _⟩ := bind_ok_iff.1 hmk
    rw [hname]; exact (parseName_ok.1 h1).2
  have hvd : ValidName p.domainName_ := by
    unfold mkProblem at hmk
    obtain ⟨n, h1, hmk⟩ := bind_ok_iff.1 hmk
    obtain ⟨dn, h2, hmk⟩ := bind_ok_iff.1 hmk
    obtain ⟨rs, h3, hmk⟩ := bind_ok_iff.1 hmk
    obtain ⟨_, h4, hmk⟩ := bind_ok_iff.1 hmk
    obtain ⟨_, h5, hmk⟩ := bind_ok_iff.1 hmk
    simp only [pure_ok, Except.ok.injEq] at hmk
    rw [← hmk]
    rw [hnd] at h2
    exact parseDomainName_none h2
  have hdn : p.domainName = p.domainName_ := by unfold Problem.domainName; rw [hp.noDomain]
  obtain ⟨r1, rs', b1, _⟩ := requirements_block hp.reqs
  obtain ⟨r2, objs, σ', b2, _, _, hσ'⟩ := objects_block hp.objects
    (names_nodup hp.objects (by rw [hobj]; exact dedupBy_pairwise _)) (σ := []) (by intro n t h; cases h)
  have hi : ∀ e ∈ p.init, e.Good := by
    intro e he
    rw [hinit] at he
    exact built_iff_good.1 (ha.init e (dedupBy_subset he))
  have b3 : Block (sortAndPrint s%"(:init " (p.init.map Expr.str) s%")\n" true)
      [.node (.atom (.kw s%"init") :: (inOrder Expr.str p.init).map Expr.tree)] := by
    refine ⟨init_text (fun e he => (initEl_tree hσ' (hp.init e he) (hi e he)).2), .inr ?_⟩
    unfold sortAndPrint
    split
    · exact ⟨_, rfl⟩
    · exact ⟨_, rfl⟩
  have b4 : Block (s%"(:goal " ++ p.goal.str ++ s%")\n") [.node [.atom (.kw s%"goal"), p.goal.tree]] := by
    have hk : Prints s%":goal" [.atom (.kw s%"goal")] := Prints.kw (k := s%"goal") (by decide +kernel) (by decide +kernel)
    have := (Prints.op hk (Prints.expr hp.goal.writable)).newline_end
    exact ⟨by simpa using this, .inr ⟨_, rfl⟩⟩
  have b5 : Block (match p.metric with | none => [] | some m => s%"(:metric " ++ m.str ++ s%")\n")
      (secTree s%"metric" (p.metric.map (fun m => [word m.optimization, m.expr.tree]))) := by
    cases hm : p.metric with
    | none => exact .nil
    | some m => exact ⟨metric_text (hp.metric m hm).writable, .inr ⟨_, rfl⟩⟩
  have b0 : Block (s%"(:domain " ++ p.domainName ++ s%")\n") [.node [.atom (.kw s%"domain"), .atom (.name p.domainName_)]] := by
    have hk : Prints s%":domain" [.atom (.kw s%"domain")] := Prints.kw (k := s%"domain") (by decide +kernel) (by decide +kernel)
    have := (Prints.op hk (Prints.name hvd.1)).newline_end
    rw [hdn]
    exact ⟨by simpa using this, .inr ⟨_, rfl⟩⟩
  have hbody := (((((b0.append b1).append b2).append b3).append b4).append b5).1
  have hb' := hbody.congr (b := p.bodyStr) (by
    unfold Problem.bodyStr
    simp only [List.append_assoc]
    cases p.metric <;> rfl)
  have hhead := header_text (k := s%"problem") (by decide +kernel) (by decide) hvn.1
  have hread := readText_layout hhead hb'
  have htext : '(' :: (s%"define (" ++ s%"problem" ++ s%" " ++ p.name ++ s%")") =
      s%"(define (problem " ++ p.name ++ s%")" := by simp
  rw [htext] at hread
  refine ⟨_, ⟨p.name, p.domainName_, r1, r2, (inOrder Expr.str p.init).map Expr.tree, p.goal.tree,
    p.metric.map (fun m => [word m.optimization, m.expr.tree])⟩, hread, ⟨_, ⟨_, rfl, .word _⟩, ?_⟩, ?_, rfl, rfl⟩
  · simp only [secTree_opt, section_, word, List.append_assoc, List.cons_append, List.nil_append]
  · intro u
    simp only [List.mem_map, (inOrder_perm Expr.str p.init).mem_iff, eq_comm]

/-! ### The plan -/

theorem plan_text {plan : Plan} (h : SaidPlan plan) : readText plan.str = .ok (plan.steps.map stepTree) := by
  have h1 : Prints plan.str (plan.steps.flatMap (fun s => [stepTree s])) :=
    Prints.join_map (c := '\n') (by decide) (fun s hs => prints_step ⟨(h s hs).1, fun t ht => by
      have := (h s hs).2 t ht
      cases t with
      | var v => exact absurd this (by simp [IsConstant])
      | const n x => exact ⟨n, x, rfl, this⟩⟩)
  rw [flatMap_single] at h1
  exact h1.readText

theorem stepTree_applied (s : Str × List Term) : stepTree s = applied s.1 (s.2.map Term.name) := by
  simp [stepTree, applied, List.map_map, Function.comp_def]

/-! ### Steps -/

theorem params_text {vs : List Var} (h : PrintVars vs) :
    ∃ l, VarsText (vs.flatMap quantVarTrees) l ∧ l.vars.map Prod.fst = vs.map Var.name := by
  obtain ⟨l, h1, h2⟩ := (Spec.SaidVars.text ⟨h.names, h.types, h.order⟩ : ∃ l, VarsText (vs.flatMap quantVarTrees) l ∧ l.varList = vs)
  refine ⟨l, h1, ?_⟩
  rw [← h2, TypedList.varList, List.map_map]
  rfl

theorem binds_consts {D : Type} {I : Interp D} {vs : List Var} {args : List Term} (h : ∀ t ∈ args, IsConstant t) {ρ ρ' : Str → D} :
    Binds I (vs.map Term.var) args ρ ρ' ↔
      (∀ q ∈ (vs.map Var.name).zip (args.map Term.name), ρ' q.1 = I.const q.2) ∧ ∀ m, m ∉ vs.map Var.name → ρ' m = ρ m := by
  have hd : ∀ t ∈ args, denote I ρ t = I.const t.name := by
    intro t ht
    cases t with
    | var v => exact absurd (h _ ht) (by simp [IsConstant])
    | const n x => rfl
  constructor
  · intro hb
    refine ⟨?_, fun m hm => hb.other m ?_⟩
    · intro q hq
      rw [List.zip_map] at hq
      obtain ⟨⟨v, t⟩, hq', rfl⟩ := List.mem_map.1 hq
      have := hb.param (.var v, t) (by rw [List.zip_map_left]; exact List.mem_map.2 ⟨(v, t), hq', rfl⟩)
      rw [hd t (List.of_mem_zip hq').2] at this
      exact this
    · intro t ht e
      obtain ⟨v, hv, rfl⟩ := List.mem_map.1 ht
      exact hm (List.mem_map.2 ⟨v, hv, e⟩)
  · rintro ⟨h1, h2⟩
    refine ⟨?_, fun m hm => h2 m ?_⟩
    · intro q hq
      rw [List.zip_map_left] at hq
      obtain ⟨⟨v, t⟩, hq', rfl⟩ := List.mem_map.1 hq
      have := h1 (v.name, t.name) (by rw [List.zip_map]; exact List.mem_map.2 ⟨(v, t), hq', rfl⟩)
      show ρ' v.name = denote I ρ t
      rw [hd t (List.of_mem_zip hq').2]
      exact this
    · intro hx
      obtain ⟨v, hv, e⟩ := List.mem_map.1 hx
      exact hm (.var v) (List.mem_map.2 ⟨v, hv, rfl⟩) e

/-- The text `ts` has the actions of the domain. -/
def ActionsOf (d : Domain) (ts : List Tree) : Prop :=
  ∀ n ps pre eff, actionText n ps pre eff ∈ ts ↔ ∃ a ∈ d.actions, ∃ (vs : List Var) (p e : Expr), a.name = n ∧ a.params = vs.map Term.var ∧
    a.pre = some p ∧ a.eff = some e ∧ ps = vs.flatMap quantVarTrees ∧ pre = p.tree ∧ eff = e.tree

theorem vars_inj {vs ws : List Var} (h : vs.map Term.var = ws.map Term.var) : vs = ws :=
  List.map_injective_iff.2 (fun a b e => by injection e) h

theorem steps_iff {D : Type} {d : Domain} {ts : List Tree} (hd : SaidDomain F d) (hfull : ∀ a ∈ d.actions, a.pre ≠ none ∧ a.eff ≠ none)
    (ht : ActionsOf d ts) {st : Str × List Term} (hs : ∀ t ∈ st.2, IsConstant t) {I : Interp D} {lit : Str → Option Rat} (hlit : LitOk lit F)
    {ρ : Str → D} {Q : Expr → (Str → D) → Prop} {R : Tree → (Str → D) → Prop}
    (hQ : ∀ e ρ', SaidEff F e → (Q e ρ' ↔ R e.tree ρ')) :
    (∃ a ∈ d.actions, ∃ ρ', a.name = st.1 ∧ st.2.length = a.params.length ∧ Binds I a.params st.2 ρ ρ' ∧
      (∀ e, a.pre = some e → holds I e ρ') ∧ ∃ e, a.eff = some e ∧ Q e ρ') ↔
    ∃ n ns ps pre eff l ρ', stepTree st = applied n ns ∧ actionText n ps pre eff ∈ ts ∧ VarsText ps l ∧ ns.length = l.vars.length ∧
      (∀ q ∈ (l.vars.map Prod.fst).zip ns, ρ' q.1 = I.const q.2) ∧ (∀ m, m ∉ l.vars.map Prod.fst → ρ' m = ρ m) ∧
      preHolds I lit pre ρ' ∧ R eff ρ' := by
  constructor
  · rintro ⟨a, ha, ρ', h1, h2, h3, h4, e, he, h5⟩
    obtain ⟨p, hp⟩ := Option.ne_none_iff_exists'.1 (hfull a ha).1
    obtain ⟨vs, hv, hpv⟩ := (hd.actions a ha).params
    obtain ⟨l, hl, hl2⟩ := params_text hpv
    rw [hv, binds_consts hs, ← hl2] at h3
    refine ⟨st.1, st.2.map Term.name, _, p.tree, e.tree, l, ρ', stepTree_applied st,
      (ht _ _ _ _).2 ⟨a, ha, vs, p, e, h1, hv, hp, he, rfl, rfl, rfl⟩, hl, ?_, h3.1, h3.2,
      .inr (((hd.actions a ha).pre p hp).says I lit hlit ρ' |>.1 (h4 p hp)), (hQ e ρ' ((hd.actions a ha).eff e he)).1 h5⟩
    have := congrArg List.length hl2
    simp only [List.length_map] at this ⊢
    rw [h2, hv, List.length_map, this]
  · rintro ⟨n, ns, ps, pre, eff, l, ρ', e1, hin, hl, hlen, z1, z2, h4, h5⟩
    rw [stepTree_applied] at e1
    obtain ⟨rfl, rfl⟩ := applied_inj e1
    obtain ⟨a, ha, vs, p, e, hn, hv, hp, he, rfl, rfl, rfl⟩ := (ht _ _ _ _).1 hin
    have hpv : PrintVars vs := by
      obtain ⟨ws, hw, hpw⟩ := (hd.actions a ha).params
      rw [hv] at hw
      rw [vars_inj hw]; exact hpw
    obtain ⟨l', hl', hl2⟩ := params_text hpv
    have := hl.unique hl'
    subst this
    rw [hl2] at z1 z2
    refine ⟨a, ha, ρ', hn, ?_, by rw [hv]; exact (binds_consts hs).2 ⟨z1, z2⟩, ?_, e, he, (hQ e ρ' ((hd.actions a ha).eff e he)).2 h5⟩
    · have := congrArg List.length hl2
      simp only [List.length_map] at this hlen
      rw [hv, List.length_map, hlen, this]
    · intro p' hp'
      rw [hp] at hp'
      cases hp'
      rcases h4 with h4 | h4
      · exact absurd h4 (tree_ne_empty p)
      · exact (((hd.actions a ha).pre p hp).says I lit hlit ρ').2 h4

theorem performs_iff {D : Type} {d : Domain} {ts : List Tree} (hd : SaidDomain F d) (hfull : ∀ a ∈ d.actions, a.pre ≠ none ∧ a.eff ≠ none)
    (ht : ActionsOf d ts) {st : Str × List Term} (hs : ∀ t ∈ st.2, IsConstant t) {I J : Interp D} {lit : Str → Option Rat} (hlit : LitOk lit F)
    {ρ : Str → D} : Performs d ρ st I J ↔ TextActs lit ts ρ (stepTree st) I J := by
  unfold TextActs
  rw [← steps_iff hd hfull ht hs hlit (Q := fun e ρ' => Next (fun c => makes I c e ρ') I J)
    (R := fun t ρ' => Next (fun c => treeMakes I lit c t ρ') I J) (fun e ρ' he =>
      ⟨fun h => h.congr fun c => he.makes I lit hlit c ρ', fun h => h.congr fun c => (he.makes I lit hlit c ρ').symm⟩)]
  constructor
  · rintro ⟨a, ha, ρ', h1, h2, h3, h4, h5⟩
    obtain ⟨e, he⟩ := Option.ne_none_iff_exists'.1 (hfull a ha).2
    exact ⟨a, ha, ρ', h1, h2, h3, h4, e, he, h5.congr fun c => by simp [he]⟩
  · rintro ⟨a, ha, ρ', h1, h2, h3, h4, e, he, h5⟩
    exact ⟨a, ha, ρ', h1, h2, h3, h4, h5.congr fun c => by simp [he]⟩

theorem mayPerform_iff {D : Type} {d : Domain} {ts : List Tree} (hd : SaidDomain F d) (hfull : ∀ a ∈ d.actions, a.pre ≠ none ∧ a.eff ≠ none)
    (ht : ActionsOf d ts) {st : Str × List Term} (hs : ∀ t ∈ st.2, IsConstant t) {I J : Interp D} {lit : Str → Option Rat} (hlit : LitOk lit F)
    {ρ : Str → D} : MayPerform d ρ st I J ↔ TextMayAct lit ts ρ (stepTree st) I J := by
  unfold TextMayAct
  rw [← steps_iff hd hfull ht hs hlit (Q := fun e ρ' => ∃ C, outcome I e ρ' C ∧ Next C I J)
    (R := fun t ρ' => ∃ C, treeOutcome I lit t ρ' C ∧ Next C I J) (fun e ρ' he => by simp only [he.outcome I lit hlit])]
  constructor
  · rintro ⟨a, ha, ρ', h1, h2, h3, h4, e, C, he, h5, h6⟩
    exact ⟨a, ha, ρ', h1, h2, h3, h4, e, he, C, h5, h6⟩
  · rintro ⟨a, ha, ρ', h1, h2, h3, h4, e, he, C, h5, h6⟩
    exact ⟨a, ha, ρ', h1, h2, h3, h4, e, C, he, h5, h6⟩

theorem stepByStep_runs {D α : Type} {R : α → Interp D → Interp D → Prop} {lit : Str → Option Rat} {ts : List Tree} {ρ : Str → D} {f : α → Tree}
    {as : List α} (h : ∀ a ∈ as, ∀ I J, R a I J ↔ TextActs lit ts ρ (f a) I J) {I J : Interp D} :
    StepByStep R as I J ↔ TextRuns lit ts ρ (as.map f) I J := by
  induction as generalizing I with
  | nil => exact ⟨fun h => by cases h; exact .nil, fun h => by cases h; exact .nil⟩
  | cons a as ih =>
    have ih := fun K => ih (I := K) (fun b hb => h b (by simp [hb]))
    constructor
    · intro hr
      cases hr with
      | cons h1 h2 => exact .cons ((h a (by simp) _ _).1 h1) ((ih _).1 h2)
    · intro hr
      cases hr with
      | cons h1 h2 => exact .cons ((h a (by simp) _ _).2 h1) ((ih _).2 h2)

theorem stepByStep_mayRun {D α : Type} {R : α → Interp D → Interp D → Prop} {lit : Str → Option Rat} {ts : List Tree} {ρ : Str → D} {f : α → Tree}
    {as : List α} (h : ∀ a ∈ as, ∀ I J, R a I J ↔ TextMayAct lit ts ρ (f a) I J) {I J : Interp D} :
    StepByStep R as I J ↔ TextMayRun lit ts ρ (as.map f) I J := by
  induction as generalizing I with
  | nil => exact ⟨fun h => by cases h; exact .nil, fun h => by cases h; exact .nil⟩
  | cons a as ih =>
    have ih := fun K => ih (I := K) (fun b hb => h b (by simp [hb]))
    constructor
    · intro hr
      cases hr with
      | cons h1 h2 => exact .cons ((h a (by simp) _ _).1 h1) ((ih _).1 h2)
    · intro hr
      cases hr with
      | cons h1 h2 => exact .cons ((h a (by simp) _ _).2 h1) ((ih _).2 h2)

end Pddl
