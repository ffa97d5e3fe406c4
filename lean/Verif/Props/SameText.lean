/-
C77, C78: equality and texts.
-/
import Verif.Proofs.SameText
import Verif.Props.FormulaRoundTrip
import Verif.Props.DomainRoundTrip
import Verif.Props.ProblemRoundTrip
import Verif.Props.RoundTrip

namespace Pddl.Props
open Spec Spec.Reorder

/-! ### C77: equal objects have equal texts -/

/-- C77, in full. -/
def C77_full : Prop :=
  (∀ a b : Expr, Built a → Built b → a.pyEq b = true → a.str = b.str) ∧
  (∀ d e : Domain, BuiltDomain d → BuiltDomain e → d.pyEq e = true → d.str = e.str) ∧
  (∀ p q : Problem, BuiltProblem p → BuiltProblem q → p.pyEq q = true → p.str = q.str) ∧
  (∀ p q : Plan, p.pyEq q = true → p.str = q.str)

/-- C77 for terms, predicates, functions and plans, without conditions. -/
theorem C77_terms {t u : Term} (h : t.pyEq u = true) : t.str = u.str := term_str_norm (Term.pyEq_iff.1 h)

theorem C77_atoms {p q : Pred} (h : p.pyEq q = true) : p.str = q.str :=
  (echo_pred (q := p) (p := q) ((Expr.pyEq_iff (.pred p) (.pred q)).1 h)).2

theorem C77_functions {f g : NFun} (h : f.pyEq g = true) : f.str = g.str :=
  (echo_nfun (q := f) (p := g) ((Expr.pyEq_iff (.nfun f) (.nfun g)).1 h)).2

theorem C77_plans {p q : Plan} (h : p.pyEq q = true) : p.str = q.str := by
  simp only [Plan.pyEq, stepsEq_iff] at h
  unfold Plan.str
  congr 1
  generalize p.steps = l at h
  generalize q.steps = m at h
  induction l generalizing m with
  | nil => cases m <;> simp_all
  | cons s l ih =>
    cases m with
    | nil => simp at h
    | cons r m =>
      simp only [List.map_cons, List.cons.injEq, Prod.mk.injEq] at h ⊢
      refine ⟨?_, ih m h.2⟩
      unfold stepStr
      rw [h.1.1, terms_str_norm h.1.2]

/-- C77 for formulas, effects and numeric expressions: equal ones have equal texts, if no quantifier binds two
variables or one with two types, and equal numbers are written alike. Missing: the others; C77 is false of
them (`C77_fails`). -/
theorem C77_partial {a b : Expr} (h : a.pyEq b = true) (ha : OrderFree a) (hb : OrderFree b)
    (hn : WrittenAlike (numbers a) (numbers b)) : a.str = b.str :=
  norm_str ((Expr.pyEq_iff _ _).1 h) ha hb hn

/-- C77 for actions. -/
theorem C77_actions_partial {a b : Action} (h : a.pyEq b = true) (ha : OrderFreeAction a) (hb : OrderFreeAction b)
    (pa : ∀ t ∈ a.params, SetVar t) (pb : ∀ t ∈ b.params, SetVar t)
    (hn : ∀ x ∈ a.pre.toList ++ a.eff.toList, ∀ y ∈ b.pre.toList ++ b.eff.toList, WrittenAlike (numbers x) (numbers y)) :
    a.str = b.str :=
  action_norm_str (Action.pyEq_iff.1 h) ha hb pa pb hn

/-- C77 for domains: in addition, equal constants have the same type. -/
theorem C77_domains_partial {d e : Domain} (bd : BuiltDomain d) (be : BuiltDomain e) (h : d.pyEq e = true)
    (vd : DeclaresVars d) (ve : DeclaresVars e) (od : OrderFreeDomain d) (oe : OrderFreeDomain e)
    (hc : ∀ t ∈ d.constants, ∃ n x, t = .const n x) (hs : SameObjectTypes d.constants e.constants)
    (hn : ∀ x ∈ formulasOf d, ∀ y ∈ formulasOf e, WrittenAlike (numbers x) (numbers y)) : d.str = e.str := by
  obtain ⟨a, ha, hd⟩ := bd
  obtain ⟨b, hb, he⟩ := be
  obtain ⟨_, _, _, _, _, _, _, _, hda⟩ := (mkDomain_ok ha.types).1 hd
  obtain ⟨_, _, _, _, _, _, _, _, heb⟩ := (mkDomain_ok hb.types).1 he
  have fd : IsFunDict d.functions := by rw [hda]; exact ha.functions
  have fe : IsFunDict e.functions := by rw [heb]; exact hb.functions
  exact domain_norm_str (checked_of_mk ha.types hd) (checked_of_mk hb.types he) fd fe vd ve od oe hc hs hn h

/-- C77 for problems. (The lists of requirements have no repetitions: they stand for sets.) -/
theorem C77_problems_partial {p q : Problem} (bp : BuiltProblem p) (bq : BuiltProblem q) (h : p.pyEq q = true)
    (rp : p.reqs.Nodup) (rq : q.reqs.Nodup) (op : OrderFreeProblem p) (oq : OrderFreeProblem q)
    (hc : ∀ t ∈ p.objects, ∃ n x, t = .const n x) (hs : SameObjectTypes p.objects q.objects)
    (hn : ∀ x ∈ problemFormulas p, ∀ y ∈ problemFormulas q, WrittenAlike (numbers x) (numbers y)) : p.str = q.str := by
  obtain ⟨a, _, hp⟩ := bp
  obtain ⟨b, _, hq⟩ := bq
  obtain ⟨_, _, p1, p2, _⟩ := mkProblem_fields hp
  obtain ⟨_, _, q1, q2, _⟩ := mkProblem_fields hq
  refine problem_norm_str rp rq ?_ ?_ ?_ ?_ op oq hc hs hn h
  · rw [p1]; exact dedupBy_pairwise _
  · rw [q1]; exact dedupBy_pairwise _
  · rw [p2]; exact dedupBy_pairwise _
  · rw [q2]; exact dedupBy_pairwise _

/-- `1 == 1.0`. -/
def oneInt : Num := .int 1
def oneFloat : Num := .flt (.fin 1) s%"1.0"

/-- C77 is false: `1 == 1.0`; and the text of a quantifier shows the order in which its set of variables is
iterated. -/
theorem C77_fails :
    let f : Expr := .nfun ⟨s%"f", []⟩
    let q : Expr := .pred ⟨s%"q", []⟩
    let x : Var := ⟨s%"x", []⟩
    let y : Var := ⟨s%"y", []⟩
    ∀ c ∈ [(Expr.bfun .ge [f, .num oneInt], Expr.bfun .ge [f, .num oneFloat]),
        (Expr.quant .all [x, y] q, Expr.quant .all [y, x] q)],
      Built c.1 ∧ Built c.2 ∧ c.1.pyEq c.2 = true ∧ c.1.str ≠ c.2.str := by
  intro f q x y c hc
  have hf : Built f := .nfun (n := s%"f") (ts := []) (by decide +kernel)
  have hq : Built q := .pred (n := s%"q") (ts := []) (by decide +kernel)
  simp only [List.mem_cons, List.not_mem_nil, or_false] at hc
  rcases hc with rfl | rfl
  · refine ⟨?_, ?_, by decide +kernel, by decide +kernel⟩
    · show Built (.bfun .ge [f, .num oneInt])
      have e : Expr.bfun .ge [f, .num oneInt] = construct (.fop .ge) [f, .num oneInt] := by decide +kernel
      rw [e]
      refine .op _ ?_
      intro a ha
      simp only [List.mem_cons, List.not_mem_nil, or_false] at ha
      rcases ha with rfl | rfl
      · exact hf
      · exact .num _
    · show Built (.bfun .ge [f, .num oneFloat])
      have e : Expr.bfun .ge [f, .num oneFloat] = construct (.fop .ge) [f, .num oneFloat] := by decide +kernel
      rw [e]
      refine .op _ ?_
      intro a ha
      simp only [List.mem_cons, List.not_mem_nil, or_false] at ha
      rcases ha with rfl | rfl
      · exact hf
      · exact .num _
  · refine ⟨?_, ?_, by decide +kernel, by decide +kernel⟩
    · exact .quant .all [x, y] hq
    · exact .quant .all [y, x] hq

theorem C77_full_fails : ¬ C77_full := by
  rintro ⟨h, _⟩
  obtain ⟨h1, h2, h3, h4⟩ := C77_fails (Expr.quant .all [⟨s%"x", []⟩, ⟨s%"y", []⟩] (.pred ⟨s%"q", []⟩),
    Expr.quant .all [⟨s%"y", []⟩, ⟨s%"x", []⟩] (.pred ⟨s%"q", []⟩)) (by simp)
  exact h4 (h _ _ h1 h2 h3)

/-- The constant `c` with the type. -/
def constantArgs (t : Option Str) : DomainArgs :=
  { name := s%"d", reqs := [.typing], types := [(s%"a", none), (s%"b", none)], constants := [.const s%"c" t] }

/-- C77 is false of domains: `==` does not compare the types of the constants, which the text shows. -/
theorem C77_constants_fails : ∃ d e, BuiltDomain d ∧ BuiltDomain e ∧ d.pyEq e = true ∧ d.str ≠ e.str := by
  have h : (match mkDomain (constantArgs (some s%"a")), mkDomain (constantArgs (some s%"b")) with
      | .ok d, .ok e => d.pyEq e && decide (d.str ≠ e.str) | _, _ => false) = true := by decide +kernel
  have hb : ∀ t, BuiltDomainArgs (constantArgs t) := fun t =>
    ⟨by show IsDict [(s%"a", (none : Option Str)), (s%"b", none)]; unfold IsDict; decide +kernel, by simp [constantArgs], by simp [constantArgs, IsFunDict], by simp [constantArgs],
      by simp [constantArgs], by simp [constantArgs], by simp [constantArgs]⟩
  split at h
  · rename_i d e hd he
    simp only [Bool.and_eq_true, decide_eq_true_eq] at h
    exact ⟨d, e, ⟨_, hb _, hd⟩, ⟨_, hb _, he⟩, h⟩
  · simp at h

/-- Two equal formulas that are not the same: types in another order, and a constant with another type. -/
example : let f (l : List Str) (t : Option Str) : Expr :=
      .bin .and [.pred ⟨s%"p", [.var ⟨s%"x", l⟩]⟩, .bfun .ge [.nfun ⟨s%"f", [.const s%"c" t]⟩, .num oneInt]]
    let a := f [s%"a", s%"b"] none
    let b := f [s%"b", s%"a"] (some s%"t")
    a.pyEq b = true ∧ OrderFree a ∧ OrderFree b ∧ WrittenAlike (numbers a) (numbers b) ∧ a ≠ b := by
  intro f a b
  refine ⟨by decide +kernel, by simp [a, f, OrderFree, blocks, blocksAll], by simp [b, f, OrderFree, blocks, blocksAll], ?_, by decide +kernel⟩
  simp [WrittenAlike, a, b, f, numbers, numbersAll]

/-- A domain, with everything in one order. -/
def orderedArgs : DomainArgs where
  name := s%"d"
  reqs := [.typing, .numericFluents, .negPrecondition]
  types := [(s%"a", none), (s%"b", some s%"a")]
  constants := [.const s%"c" (some s%"a"), .const s%"e" none]
  predicates := [⟨s%"p", [.var ⟨s%"x", [s%"a", s%"b"]⟩]⟩, ⟨s%"q", []⟩]
  functions := [(⟨s%"f", []⟩, some s%"number"), (⟨s%"g", [.var ⟨s%"x", [s%"b"]⟩]⟩, none)]
  actions := [⟨s%"m", [.var ⟨s%"x", [s%"a"]⟩], some (.pred ⟨s%"q", []⟩), some (.not (.pred ⟨s%"p", [.var ⟨s%"x", [s%"a"]⟩]⟩))⟩]

/-- The same in another order. -/
def otherArgs : DomainArgs where
  name := s%"d"
  reqs := [.negPrecondition, .typing, .numericFluents]
  types := [(s%"b", some s%"a"), (s%"a", none)]
  constants := [.const s%"e" none, .const s%"c" (some s%"a")]
  predicates := [⟨s%"q", []⟩, ⟨s%"p", [.var ⟨s%"x", [s%"b", s%"a"]⟩]⟩]
  functions := [(⟨s%"g", [.var ⟨s%"x", [s%"b"]⟩]⟩, none), (⟨s%"f", []⟩, some s%"number")]
  actions := orderedArgs.actions

/-- The hypotheses of `C77_domains_partial` hold of these two. -/
example : ∃ d e, mkDomain orderedArgs = .ok d ∧ mkDomain otherArgs = .ok e ∧ BuiltDomain d ∧ BuiltDomain e ∧
    d.pyEq e = true ∧ DeclaresVars d ∧ DeclaresVars e ∧ OrderFreeDomain d ∧ OrderFreeDomain e ∧
    (∀ t ∈ d.constants, ∃ n x, t = .const n x) ∧ SameObjectTypes d.constants e.constants ∧
    (∀ x ∈ formulasOf d, ∀ y ∈ formulasOf e, WrittenAlike (numbers x) (numbers y)) ∧ d.predicates ≠ e.predicates := by
  have key : (match mkDomain orderedArgs, mkDomain otherArgs with
      | .ok d, .ok e => decide (d.pyEq e = true ∧ d.predicates = orderedArgs.predicates ∧ e.predicates = otherArgs.predicates ∧
          d.functions = orderedArgs.functions ∧ e.functions = otherArgs.functions ∧ d.derived = [] ∧ e.derived = [] ∧
          d.actions = orderedArgs.actions ∧ e.actions = orderedArgs.actions ∧ d.constants = orderedArgs.constants ∧
          e.constants = otherArgs.constants)
      | _, _ => false) = true := by decide +kernel
  split at key
  · rename_i d e hd he
    simp only [decide_eq_true_eq] at key
    obtain ⟨h1, h2, h3, h4, h5, h6, h7, h8, h9, h10, h11⟩ := key
    have hact : BuiltAction ⟨s%"m", [.var ⟨s%"x", [s%"a"]⟩], some (.pred ⟨s%"q", []⟩), some (.not (.pred ⟨s%"p", [.var ⟨s%"x", [s%"a"]⟩]⟩))⟩ := by
      refine ⟨?_, ?_, s%"m", by decide +kernel⟩
      · exact .pred (n := s%"q") (ts := []) (by decide +kernel)
      · exact .not (.pred (n := s%"p") (ts := [.var ⟨s%"x", [s%"a"]⟩]) (by decide +kernel))
    have hfree : ∀ a ∈ orderedArgs.actions, OrderFreeAction a := by
      intro a ha
      simp only [orderedArgs, List.mem_singleton] at ha
      subst ha
      exact ⟨by simp [Term.tags], by simp [OrderFree, blocks], by simp [OrderFree, blocks]⟩
    have hb1 : BuiltDomainArgs orderedArgs := by
      refine ⟨by unfold IsDict; decide +kernel, ?_, by unfold IsFunDict; decide +kernel, ?_, ?_, by simp [orderedArgs], by decide +kernel⟩
      · intro p hp
        simp only [orderedArgs, List.mem_cons, List.not_mem_nil, or_false] at hp
        rcases hp with rfl | rfl
        · exact ⟨_, _, show mkPred s%"p" [.var ⟨s%"x", [s%"a", s%"b"]⟩] = _ by decide +kernel⟩
        · exact ⟨_, _, show mkPred s%"q" [] = _ by decide +kernel⟩
      · intro p hp
        simp only [orderedArgs, List.mem_cons, List.not_mem_nil, or_false] at hp
        rcases hp with rfl | rfl
        · exact ⟨_, _, show mkNFun s%"f" [] = _ by decide +kernel⟩
        · exact ⟨_, _, show mkNFun s%"g" [.var ⟨s%"x", [s%"b"]⟩] = _ by decide +kernel⟩
      · intro a ha
        simp only [orderedArgs, List.mem_singleton] at ha
        exact ha ▸ hact
    have hb2 : BuiltDomainArgs otherArgs := by
      refine ⟨by unfold IsDict; decide +kernel, ?_, by unfold IsFunDict; decide +kernel, ?_, hb1.actions, by simp [otherArgs], hb1.tags⟩
      · intro p hp
        simp only [otherArgs, List.mem_cons, List.not_mem_nil, or_false] at hp
        rcases hp with rfl | rfl
        · exact ⟨_, _, show mkPred s%"q" [] = _ by decide +kernel⟩
        · exact ⟨_, _, show mkPred s%"p" [.var ⟨s%"x", [s%"b", s%"a"]⟩] = _ by decide +kernel⟩
      · intro p hp
        exact hb1.functionNames p (by simp only [orderedArgs, otherArgs, List.mem_cons, List.not_mem_nil, or_false] at hp ⊢; exact hp.symm)
    refine ⟨d, e, hd, he, ⟨_, hb1, hd⟩, ⟨_, hb2, he⟩, h1, ?_, ?_, ⟨by simp [h6], by rw [h8]; exact hfree⟩,
      ⟨by simp [h7], by rw [h9]; exact hfree⟩, ?_, ?_, ?_, ?_⟩
    · refine ⟨?_, ?_, by simp [h6], ?_⟩
      · rw [h2]; simp [orderedArgs, SetVar]
      · rw [h4]; simp [orderedArgs, SetVar]
      · rw [h8]; simp [orderedArgs, SetVar]
    · refine ⟨?_, ?_, by simp [h7], ?_⟩
      · rw [h3]; simp [otherArgs, SetVar]
      · rw [h5]; simp [otherArgs, SetVar]
      · rw [h9]; simp [orderedArgs, SetVar]
    · rw [h10]; simp [orderedArgs]
    · rw [h10, h11]; unfold SameObjectTypes; decide +kernel
    · unfold formulasOf
      rw [h6, h7, h8, h9]
      simp [orderedArgs, numbers, WrittenAlike]
    · rw [h2, h3]; decide +kernel
  · simp at key

/-! ### C78: objects with equal texts are equal -/

/-- C78, in full. -/
def C78_full : Prop :=
  (∀ a b : Expr, Built a → Built b → a.str = b.str → a.pyEq b = true) ∧
  (∀ d e : Domain, BuiltDomain d → BuiltDomain e → d.str = e.str → d.pyEq e = true) ∧
  (∀ p q : Problem, BuiltProblem p → BuiltProblem q → p.str = q.str → p.pyEq q = true)

/-- C78 for conditions. Two conditions that the grammar can write in the same scope, and that have the same text,
are equal. Missing: the others; C78 is false of them (`C78_fails`). -/
theorem C78_partial {E : GEnv} {a b : Expr} (ha : Built a) (hb : Built b) (pa : PrintCond E a) (pb : PrintCond E b)
    (h : a.str = b.str) : a.pyEq b = true := by
  obtain ⟨t, g, h1, h2, h3⟩ := C41_partial ha pa
  obtain ⟨t', g', h1', h2', h3'⟩ := C41_partial hb pb
  rw [h, h1', Except.ok.injEq, List.cons.injEq] at h1
  obtain ⟨rfl, _⟩ := h1
  rw [h2', Except.ok.injEq] at h2
  subst h2
  exact Expr.pyEq_trans (Expr.pyEq_symm h3) h3'

/-- C78 for effects. -/
theorem C78_effects_partial {E : GEnv} {a b : Expr} (ha : Built a) (hb : Built b) (pa : PrintEff E true a)
    (pb : PrintEff E true b) (h : a.str = b.str) : a.pyEq b = true := by
  obtain ⟨t, g, h1, h2, h3⟩ := C41_effects_partial ha pa
  obtain ⟨t', g', h1', h2', h3'⟩ := C41_effects_partial hb pb
  rw [h, h1', Except.ok.injEq, List.cons.injEq] at h1
  obtain ⟨rfl, _⟩ := h1
  rw [h2', Except.ok.injEq] at h2
  subst h2
  exact Expr.pyEq_trans (Expr.pyEq_symm h3) h3'

/-- C78 for domains. The constants also have the same types, which `==` does not compare. -/
theorem C78_domains_partial {F : FloatOf} {d e : Domain} (hd : BuiltDomain d) (he : BuiltDomain e) (pd : PrintDomain F d)
    (pe : PrintDomain F e) (h : d.str = e.str) : d.pyEq e = true ∧ d.constants.Perm e.constants := by
  obtain ⟨s, d', σ, h1, h2, h3, h4⟩ := domain_read hd pd
  obtain ⟨s', e', σ', h1', h2', h3', h4'⟩ := domain_read he pe
  rw [h, h1', Except.ok.injEq] at h1
  subst h1
  rw [h2', Except.ok.injEq, Prod.mk.injEq] at h2
  obtain ⟨rfl, _⟩ := h2
  exact ⟨Domain.pyEq_trans (Domain.pyEq_symm h3) h3', h4.constants.symm.trans h4'.constants⟩

/-- C78 for texts of domains: two texts, without obstacles, that are formatted to the same text are read as
equal domains. -/
theorem C78_texts_partial {F : FloatOf} {text text' : Str} {d e : Domain} {σ σ' : PState}
    (hd : parseDomain F PState.fresh text = .ok (d, σ)) (he : parseDomain F PState.fresh text' = .ok (e, σ'))
    (fd : DerivedFirst text) (fe : DerivedFirst text') (nd : DomainNoObstacle F d) (ne : DomainNoObstacle F e)
    (h : d.str = e.str) : d.pyEq e = true ∧ d.constants.Perm e.constants :=
  let ⟨b1, p1⟩ := domain_reread hd fd nd
  let ⟨b2, p2⟩ := domain_reread he fe ne
  C78_domains_partial b1 b2 p1 p2 h

/-- C78 for problems. The objects also have the same types. -/
theorem C78_problems_partial {F : FloatOf} {p q : Problem} (bp : BuiltProblem p) (bq : BuiltProblem q)
    (hp : PrintProblem F p) (hq : PrintProblem F q) (h : p.str = q.str) :
    p.pyEq q = true ∧ p.objects.Perm q.objects := by
  have hσ : OwnNames [] := by intro n t h; simp [dictGet] at h
  obtain ⟨p', σ, h1, h2, h3⟩ := problem_read hσ bp hp
  obtain ⟨q', σ', h1', h2', h3'⟩ := problem_read hσ bq hq
  rw [h, h1', Except.ok.injEq, Prod.mk.injEq] at h1
  obtain ⟨rfl, _⟩ := h1
  exact ⟨Problem.pyEq_trans (Problem.pyEq_symm h2) h2', h3.objects.symm.trans h3'.objects⟩

/-- C78 for plans with valid names. -/
theorem C78_plans {p q : Plan}
    (hp : ∀ s ∈ p.steps, NameShape s.1 ∧ ∀ t ∈ s.2, ∃ n tag, t = Term.const n tag ∧ ValidName n)
    (hq : ∀ s ∈ q.steps, NameShape s.1 ∧ ∀ t ∈ s.2, ∃ n tag, t = Term.const n tag ∧ ValidName n)
    (h : p.str = q.str) : p.pyEq q = true := by
  obtain ⟨r, h1, h2⟩ := C29_roundtrip p hp
  obtain ⟨r', h1', h2'⟩ := C29_roundtrip q hq
  rw [h, h1', Except.ok.injEq] at h1
  subst h1
  exact eqv_plan.trans h2 (eqv_plan.symm h2')

/-- C78 is false: the types of variables are not written; predicates and functions are written alike; and so
are numbers and the strings that the metric has instead of numbers. -/
theorem C78_fails :
    let v (t : List Str) : Expr := .pred ⟨s%"q", [.var ⟨s%"x", t⟩]⟩
    ∀ c ∈ [(v [s%"a"], v [s%"b"]), (Expr.pred ⟨s%"f", []⟩, Expr.nfun ⟨s%"f", []⟩), (Expr.num oneInt, Expr.num (.str s%"1"))],
      Built c.1 ∧ Built c.2 ∧ c.1.str = c.2.str ∧ c.1.pyEq c.2 = false := by
  intro v c hc
  have hv : ∀ c ∈ [s%"a", s%"b"], Built (v [c]) := by
    intro c hc
    refine .pred (n := s%"q") (ts := [.var ⟨s%"x", [c]⟩]) ?_
    revert c
    decide +kernel
  simp only [List.mem_cons, List.not_mem_nil, or_false] at hc
  rcases hc with rfl | rfl | rfl
  · exact ⟨hv _ (by simp), hv _ (by simp), by decide +kernel, by decide +kernel⟩
  · refine ⟨.pred (n := s%"f") (ts := []) (by decide +kernel), .nfun (n := s%"f") (ts := []) (by decide +kernel), by decide +kernel, by decide +kernel⟩
  · exact ⟨.num _, .num _, by decide +kernel, by decide +kernel⟩

theorem C78_full_fails : ¬ C78_full := by
  rintro ⟨h, _⟩
  obtain ⟨h1, h2, h3, h4⟩ := C78_fails (Expr.pred ⟨s%"f", []⟩, Expr.nfun ⟨s%"f", []⟩) (by simp)
  rw [h _ _ h1 h2 h3] at h4
  cases h4

/-- C78 is false of domains: of two types of a variable of a function only the first is written. -/
theorem C78_domains_fails : ∃ d e, BuiltDomain d ∧ BuiltDomain e ∧ d.str = e.str ∧ d.pyEq e = false := by
  let args (v : List Str) : DomainArgs :=
    { name := s%"d", reqs := [.typing, .fluents], types := [(s%"a", none), (s%"b", none)],
      functions := [(⟨s%"f", [.var ⟨s%"x", v⟩]⟩, none)] }
  have h : (match mkDomain (args [s%"a", s%"b"]), mkDomain (args [s%"a"]) with
      | .ok d, .ok e => decide (d.str = e.str) && !d.pyEq e | _, _ => false) = true := by decide +kernel
  have hb : ∀ v, (∃ n ts, mkNFun n ts = .ok ⟨s%"f", [.var ⟨s%"x", v⟩]⟩) → BuiltDomainArgs (args v) := by
    intro v hv
    refine ⟨?_, by simp [args], by simp [args, IsFunDict], ?_, by simp [args], by simp [args], by simp [args]⟩
    · show IsDict [(s%"a", (none : Option Str)), (s%"b", none)]
      unfold IsDict; decide +kernel
    · intro f hf
      simp only [args, List.mem_singleton] at hf
      exact hf ▸ hv
  split at h
  · rename_i d e hd he
    simp only [Bool.and_eq_true, decide_eq_true_eq, Bool.not_eq_true'] at h
    refine ⟨d, e, ⟨_, hb _ ?_, hd⟩, ⟨_, hb _ ?_, he⟩, h⟩
    · exact ⟨s%"f", [.var ⟨s%"x", [s%"a", s%"b"]⟩], by decide +kernel⟩
    · exact ⟨s%"f", [.var ⟨s%"x", [s%"a"]⟩], by decide +kernel⟩
  · simp at h

/-- Two texts with the same format, of which the second is not the first: `C78_texts_partial` applies to them. -/
example : ∃ d σ e σ', parseDomain (fun _ => none) PState.fresh readSample = .ok (d, σ) ∧ d.str = .ok e ∧
    parseDomain (fun _ => none) PState.fresh e = .ok σ' ∧ σ'.1.str = .ok e ∧ e ≠ readSample := by
  have key : (match parseDomain (fun _ => none) PState.fresh readSample with
      | .ok (d, _) => (match d.str with
        | .ok s => (match parseDomain (fun _ => none) PState.fresh s with
          | .ok r => decide (r.1.str = .ok s ∧ s ≠ readSample)
          | .error _ => false)
        | .error _ => false)
      | .error _ => false) = true := by decide +kernel
  split at key
  · rename_i d σ hd
    split at key
    · rename_i s hs
      split at key
      · rename_i r hr
        simp only [decide_eq_true_eq] at key
        exact ⟨d, σ, s, r, hd, hs, hr, key⟩
      · simp at key
    · simp at key
  · simp at key

end Pddl.Props
