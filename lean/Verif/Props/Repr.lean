/-
C91: `repr` is unambiguous.
-/
import Verif.Proofs.ReprRead
import Verif.Props.SameText

namespace Pddl.Props
open Spec

/-- C91, full statement: formulas with the same `repr` are equal, and so are actions, derived predicates and metrics.
`A` and `B` give the addresses of the objects in the two formulas. -/
def C91_full : Prop :=
  (∀ (A B : List Nat → Str) (a b : Expr), Built a → Built b → a.repr A [] = b.repr B [] → a.pyEq b = true) ∧
  (∀ a b : Action, BuiltAction a → BuiltAction b → a.repr = b.repr → a.pyEq b = true) ∧
  (∀ (A B : List Nat → Str) (a b : Derived), BuiltDerived a → BuiltDerived b → a.repr A = b.repr B → a.pyEq b = true) ∧
  ∀ a b : Metric, Built a.expr → Built b.expr → a.repr = b.repr → a.pyEq b = true

private theorem shown_inj {E : GEnv} {A B : List Nat → Str} {a b : Expr} (ha : ShownParts E a) (hb : ShownParts E b)
    (h : a.repr A [] = b.repr B []) : a.pyEq b = true := by
  refine (Expr.pyEq_iff _ _).2 (repr_inj (s := []) (t := []) ha.shows_ hb.shows_ ?_ ?_ (by rw [h])).1
  · intro c hc c' hc' hs
    obtain ⟨p, g⟩ := ha.conds c hc
    obtain ⟨p', g'⟩ := hb.conds c' hc'
    exact (Expr.pyEq_iff _ _).1 (C78_partial (built_iff_good.2 g) (built_iff_good.2 g') p p' hs)
  · intro c hc c' hc' hs
    obtain ⟨p, g⟩ := ha.effs c hc
    obtain ⟨p', g'⟩ := hb.effs c' hc'
    exact (Expr.pyEq_iff _ _).1 (C78_effects_partial (built_iff_good.2 g) (built_iff_good.2 g') p p' hs)

/-- C91 for conditions of the same scope in which no number is shown by its address and no outermost quantifier has
typed variables. -/
theorem C91_partial {E : GEnv} {A B : List Nat → Str} {a b : Expr} (ha : Built a) (hb : Built b) (pa : PrintCond E a)
    (pb : PrintCond E b) (na : NoNumberShown a) (nb : NoNumberShown b) (ta : NoTypeHidden a) (tb : NoTypeHidden b)
    (h : a.repr A [] = b.repr B []) : a.pyEq b = true :=
  shown_inj (shown_cond pa (built_iff_good.1 ha) na ta) (shown_cond pb (built_iff_good.1 hb) nb tb) h

/-- C91 for effects. -/
theorem C91_effects_partial {E : GEnv} {A B : List Nat → Str} {a b : Expr} (ha : Built a) (hb : Built b) (pa : PrintEff E true a)
    (pb : PrintEff E true b) (na : NoNumberShown a) (nb : NoNumberShown b) (ta : NoTypeHidden a) (tb : NoTypeHidden b)
    (h : a.repr A [] = b.repr B []) : a.pyEq b = true :=
  shown_inj (shown_eff pa (built_iff_good.1 ha) na ta) (shown_eff pb (built_iff_good.1 hb) nb tb) h

private theorem untyped_params {vs : List Var} : ∀ {ws : List Var}, (∀ t ∈ vs.map Term.var, t.tags = []) →
    (∀ t ∈ ws.map Term.var, t.tags = []) → (vs.map Term.var).map Term.str = (ws.map Term.var).map Term.str → vs = ws := by
  induction vs with
  | nil => intro ws _ _ h; cases ws <;> simp_all
  | cons v vs ih =>
    intro ws hv hw h
    cases ws with
    | nil => simp at h
    | cons w ws =>
      simp only [List.map_cons, List.cons.injEq, Term.str, true_and] at h
      have h1 : v.tags = [] := hv (.var v) (by simp)
      have h2 : w.tags = [] := hw (.var w) (by simp)
      obtain ⟨n, x⟩ := v
      obtain ⟨m, y⟩ := w
      rw [ih (fun t ht => hv t (by simp [ht])) (fun t ht => hw t (by simp [ht])) h.2]
      simp_all

/-- C91 for actions of a domain whose parameters have no types. Numbers and quantified variables with types are
allowed here: `Action.__repr__` shows the precondition and the effect with `str`. -/
theorem C91_actions_partial {F : FloatOf} {d : Domain} {a b : Action} (ha : BuiltAction a) (hb : BuiltAction b)
    (pa : PrintAction F d a) (pb : PrintAction F d b) (ta : ∀ t ∈ a.params, t.tags = []) (tb : ∀ t ∈ b.params, t.tags = [])
    (h : a.repr = b.repr) : a.pyEq b = true := by
  obtain ⟨n, hn⟩ := ha.name
  obtain ⟨m, hm⟩ := hb.name
  obtain ⟨vs, ev, hv⟩ := pa.params
  obtain ⟨ws, ew, hw⟩ := pb.params
  have shape : ∀ {n s : Str}, parseName n = .ok s → NameShape s := by
    intro n s h
    obtain ⟨rfl, h⟩ := parseName_ok.1 h
    exact h.1
  simp only [Action.repr, List.append_assoc, List.cons_append, List.nil_append, List.cons.injEq, true_and] at h
  obtain ⟨e1, h⟩ := cut_at (nameShape_not_mem (shape hn) (by decide)) (nameShape_not_mem (shape hm) (by decide)) h
  simp only [List.cons.injEq, true_and] at h
  have par : ∀ {vs : List Var} {ps : List Term}, ps = vs.map Term.var → PrintVars vs →
      ∀ r ∈ ps.map Term.str, ∃ n, r = '?' :: n ∧ ',' ∉ n := by
    rintro vs _ rfl hv r hr
    simp only [List.map_map, List.mem_map, Function.comp_apply] at hr
    obtain ⟨v, hv', rfl⟩ := hr
    exact ⟨v.name, rfl, nameShape_not_mem (hv.names v hv').1 (by decide)⟩
  obtain ⟨e2, h⟩ := params_cut (par ev hv) (par ew hw) (by simpa using h)
  simp only [List.cons.injEq, true_and] at h
  have e3 : a.params = b.params := by
    rw [ev] at ta e2 ⊢
    rw [ew] at tb e2 ⊢
    rw [untyped_params ta tb e2]
  have good : ∀ {x : Option Expr}, BuiltOpt x → ∀ {e}, x = some e → e.Good := by
    rintro x hx e rfl
    exact built_iff_good.1 hx
  have sc : domainScope F d b.params = domainScope F d a.params := by rw [e3]
  have pb1 := pb.pre
  have pb2 := pb.eff
  rw [sc] at pb1 pb2
  obtain ⟨e4, h⟩ := optStr_cut (fun e he => closed_cond (pa.pre e he) (good ha.pre he))
    (fun e he => closed_cond (pb1 e he) (good hb.pre he)) h
  simp only [List.cons.injEq, true_and] at h
  obtain ⟨e5, _⟩ := optStr_cut (fun e he => closed_eff (pa.eff e he) (good ha.eff he))
    (fun e he => closed_eff (pb2 e he) (good hb.eff he)) h
  have o1 : optEq a.pre b.pre = true := by
    rcases e4 with ⟨h1, h2⟩ | ⟨e, f, h1, h2, h3⟩
    · rw [h1, h2]; rfl
    · rw [h1, h2]
      exact C78_partial (built_iff_good.2 (good ha.pre h1)) (built_iff_good.2 (good hb.pre h2)) (pa.pre e h1) (pb1 f h2) h3
  have o2 : optEq a.eff b.eff = true := by
    rcases e5 with ⟨h1, h2⟩ | ⟨e, f, h1, h2, h3⟩
    · rw [h1, h2]; rfl
    · rw [h1, h2]
      exact C78_effects_partial (built_iff_good.2 (good ha.eff h1)) (built_iff_good.2 (good hb.eff h2)) (pa.eff e h1) (pb2 f h2) h3
  simp [Action.pyEq, e1, o1, o2, termsEq_iff, e3]

/-- C91 for derived predicates whose heads and conditions are in one scope (which gives the types of the variables). -/
theorem C91_derived_partial {E : GEnv} {A B : List Nat → Str} {a b : Derived} (ha : BuiltDerived a) (hb : BuiltDerived b)
    (ka : PrintCond E (.pred a.pred)) (kb : PrintCond E (.pred b.pred)) (pa : PrintCond E a.cond) (pb : PrintCond E b.cond)
    (na : NoNumberShown a.cond) (nb : NoNumberShown b.cond) (ta : NoTypeHidden a.cond) (tb : NoTypeHidden b.cond)
    (h : a.repr A = b.repr B) : a.pyEq b = true := by
  have sa := shown_cond ka (built_iff_good.1 (ha.pred.elim fun _ h => h.elim fun _ h => Built.pred h)) trivial trivial
  have sb := shown_cond kb (built_iff_good.1 (hb.pred.elim fun _ h => h.elim fun _ h => Built.pred h)) trivial trivial
  have ca := shown_cond pa (built_iff_good.1 ha.cond) na ta
  have cb := shown_cond pb (built_iff_good.1 hb.cond) nb tb
  simp only [Derived.repr, List.append_assoc] at h
  have h := List.append_cancel_left h
  obtain ⟨h1, h2⟩ := repr_inj (A := A) (B := B) (i := []) (j := []) (a := .pred a.pred) (b := .pred b.pred) sa.shows_ sb.shows_
    nofun nofun (by simpa [Expr.repr] using h)
  simp only [List.cons.injEq, true_and] at h2
  obtain ⟨h3, _⟩ := repr_inj ca.shows_ cb.shows_ (fun c hc c' hc' hs => by
    obtain ⟨p, g⟩ := ca.conds c hc
    obtain ⟨p', g'⟩ := cb.conds c' hc'
    exact (Expr.pyEq_iff _ _).1 (C78_partial (built_iff_good.2 g) (built_iff_good.2 g') p p' hs)) (fun c hc c' hc' hs => by
    obtain ⟨p, g⟩ := ca.effs c hc
    obtain ⟨p', g'⟩ := cb.effs c' hc'
    exact (Expr.pyEq_iff _ _).1 (C78_effects_partial (built_iff_good.2 g) (built_iff_good.2 g') p p' hs)) h2
  have h4 := (Expr.pyEq_iff _ _).2 h1
  simp only [Expr.pyEq] at h4
  simp [Derived.pyEq, h4, (Expr.pyEq_iff _ _).2 h3]

/-- C91 for metrics that the grammar can write, numbers included: `Metric.__repr__` shows the expression with `str`. -/
theorem C91_metrics_partial {a b : Metric} (ha : Built a.expr) (hb : Built b.expr) (pa : MetricText a.expr) (pb : MetricText b.expr)
    (h : a.repr = b.repr) : a.pyEq b = true := by
  obtain ⟨⟨x, hx, ex⟩, wa⟩ := metric_tree pa (built_iff_good.1 ha)
  obtain ⟨⟨y, hy, ey⟩, wb⟩ := metric_tree pb (built_iff_good.1 hb)
  have key : a.expr.str = b.expr.str ∧ a.max = b.max := by
    simp only [Metric.repr, List.append_assoc] at h
    have h := List.append_cancel_left h
    have hl : ∀ m : Metric, (s%", " ++ (m.optimization ++ s%")")).length = 11 := by
      rintro ⟨e, m⟩; cases m <;> rfl
    obtain ⟨h1, h2⟩ := List.append_inj' h (by rw [hl, hl])
    refine ⟨h1, ?_⟩
    obtain ⟨e, m⟩ := a
    obtain ⟨e', m'⟩ := b
    cases m <;> cases m' <;> first | rfl | (simp [Metric.optimization] at h2)
  have ra := (Prints.expr wa).readText
  have rb := (Prints.expr wb).readText
  rw [key.1, rb, Except.ok.injEq, List.cons.injEq] at ra
  rw [ra.1, hx, Except.ok.injEq] at hy
  subst hy
  have : a.expr.norm = b.expr.norm := ex.1.symm.trans ey.1
  simp [Metric.pyEq, (Expr.pyEq_iff _ _).2 this, key.2]

/-- A scope in which everything is allowed. -/
def reprScope : GEnv :=
  ⟨fun _ => none, [.adl, .typing, .universalPrecondition], fun _ => .error .undefined, [], typedListVariable⟩

/-- `(forall (?x - t) (q))` and `(forall (?x) (q))`. -/
def typedForall : Expr := .quant .all [⟨s%"x", [s%"t"]⟩] (.pred ⟨s%"q", []⟩)
def untypedForall : Expr := .quant .all [⟨s%"x", []⟩] (.pred ⟨s%"q", []⟩)

/-- `(> 1 2)` and `(> 2 1)`. -/
def oneTwo : Expr := .bfun .gt [.num (.int 1), .num (.int 2)]
def twoOne : Expr := .bfun .gt [.num (.int 2), .num (.int 1)]

/-- Different addresses at different places. -/
def reprPlaces (l : List Nat) : Str := s%"0x7f" ++ l.flatMap (fun n => List.replicate n '0' ++ s%"1")

/-- `repr` shows the variables of a quantifier without their types. Both formulas can be written in the same scope. -/
theorem C91_fails_types : ∃ (E : GEnv) (A : List Nat → Str) (a b : Expr), Built a ∧ Built b ∧ PrintCond E a ∧ PrintCond E b ∧
    NoNumberShown a ∧ NoNumberShown b ∧ a.repr A [] = b.repr A [] ∧ a.pyEq b = false := by
  refine ⟨reprScope, reprPlaces, typedForall, untypedForall, ?_, ?_, ?_, ?_, trivial, trivial, by decide +kernel, by decide +kernel⟩
  · exact built_iff_good.2 ⟨by simp [DistinctVars], by decide +kernel, by decide +kernel⟩
  · exact built_iff_good.2 ⟨by simp [DistinctVars], by decide +kernel, by decide +kernel⟩
  · refine .quant rfl ⟨?_, by simp, ?_, by simp⟩ (.pred (by simp)) ⟨.universalPrecondition, by simp [quantReq], by simp [reprScope]⟩
    · simp only [List.mem_singleton, forall_eq]; exact (parseName_ok.1 (by decide +kernel : parseName s%"x" = .ok s%"x")).2
    · simp only [List.mem_singleton, forall_eq]
      exact .inr ⟨_, rfl, .inl (parseName_ok.1 (by decide +kernel : parseName s%"t" = .ok s%"t")).2⟩
  · refine .quant rfl ⟨?_, by simp, by simp, by simp⟩ (.pred (by simp)) ⟨.universalPrecondition, by simp [quantReq], by simp [reprScope]⟩
    simp only [List.mem_singleton, forall_eq]; exact (parseName_ok.1 (by decide +kernel : parseName s%"x" = .ok s%"x")).2

/-- `repr` shows the address of a number, not the number. -/
theorem C91_fails_numbers : ∃ (E : GEnv) (A : List Nat → Str) (a b : Expr), A [0] ≠ A [1] ∧ Built a ∧ Built b ∧ PrintCond E a ∧
    PrintCond E b ∧ NoTypeHidden a ∧ NoTypeHidden b ∧ a.repr A [] = b.repr A [] ∧ a.pyEq b = false := by
  refine ⟨reprScope, reprPlaces, oneTwo, twoOne, by decide +kernel, ?_, ?_, .comp trivial (.num (.int 1)) (.num (.int 2)),
    .comp trivial (.num (.int 2)) (.num (.int 1)), by simp [oneTwo, NoTypeHidden, NoTypesHidden],
    by simp [twoOne, NoTypeHidden, NoTypesHidden], by decide +kernel, by decide +kernel⟩
  · exact built_iff_good.2 ⟨(by decide +kernel : construct (.fop .gt) _ = Expr.ofCls (.fop .gt) _), trivial, trivial, trivial⟩
  · exact built_iff_good.2 ⟨(by decide +kernel : construct (.fop .gt) _ = Expr.ofCls (.fop .gt) _), trivial, trivial, trivial⟩

/-- `repr` of an action shows its parameters without their types. Both actions can be written in the same domain. -/
theorem C91_fails_actions : ∃ (F : FloatOf) (d : Domain) (a b : Action), BuiltAction a ∧ BuiltAction b ∧ PrintAction F d a ∧
    PrintAction F d b ∧ a.repr = b.repr ∧ a.pyEq b = false := by
  have hx : ValidName s%"x" := (parseName_ok.1 (by decide +kernel : parseName s%"x" = .ok s%"x")).2
  have ht : ValidName s%"t" := (parseName_ok.1 (by decide +kernel : parseName s%"t" = .ok s%"t")).2
  refine ⟨fun _ => none, ⟨s%"d", [.typing], [(s%"t", none)], [], [], [], [], []⟩, ⟨s%"m", [.var ⟨s%"x", [s%"t"]⟩], none, none⟩,
    ⟨s%"m", [.var ⟨s%"x", []⟩], none, none⟩, ⟨trivial, trivial, s%"m", by decide +kernel⟩, ⟨trivial, trivial, s%"m", by decide +kernel⟩,
    ⟨⟨[⟨s%"x", [s%"t"]⟩], rfl, ⟨?_, by simp, ?_, by simp⟩⟩, nofun, nofun⟩,
    ⟨⟨[⟨s%"x", []⟩], rfl, ⟨?_, by simp, by simp, by simp⟩⟩, nofun, nofun⟩, by decide +kernel, by decide +kernel⟩
  · simp only [List.mem_singleton, forall_eq]; exact hx
  · simp only [List.mem_singleton, forall_eq]; exact .inr ⟨_, rfl, .inl ht⟩
  · simp only [List.mem_singleton, forall_eq]; exact hx

/-- `repr` of a derived predicate shows the variables of its head without their types: `(p ?x - s)` and `(p ?x)`. -/
theorem C91_fails_derived : ∃ (A : List Nat → Str) (a b : Derived), BuiltDerived a ∧ BuiltDerived b ∧ NoNumberShown a.cond ∧
    NoNumberShown b.cond ∧ NoTypeHidden a.cond ∧ NoTypeHidden b.cond ∧ a.repr A = b.repr A ∧ a.pyEq b = false := by
  have hq : Built (.pred ⟨s%"q", []⟩) := .pred (n := s%"q") (ts := []) (by decide +kernel)
  exact ⟨reprPlaces, ⟨⟨s%"p", [.var ⟨s%"x", [s%"s"]⟩]⟩, .pred ⟨s%"q", []⟩⟩, ⟨⟨s%"p", [.var ⟨s%"x", []⟩]⟩, .pred ⟨s%"q", []⟩⟩,
    ⟨⟨s%"p", [.var ⟨s%"x", [s%"s"]⟩], by decide +kernel⟩, hq⟩, ⟨⟨s%"p", [.var ⟨s%"x", []⟩], by decide +kernel⟩, hq⟩, trivial, trivial, trivial, trivial,
    by decide +kernel, by decide +kernel⟩

/-- C91 is false of the code. -/
theorem C91_fails : ¬ C91_full := by
  intro h
  obtain ⟨E, A, a, b, ha, hb, _, _, _, _, h1, h2⟩ := C91_fails_types
  rw [h.1 A A a b ha hb h1] at h2
  cases h2

/-- Two conditions to which the theorem applies: `(and (q) (forall (?x) (p ?x)) (not (q)))` written twice. -/
example : ∃ (E : GEnv) (a : Expr), Built a ∧ PrintCond E a ∧ NoNumberShown a ∧ NoTypeHidden a ∧
    ∀ A, a.repr A [] = s%"And([Predicate(q, ), ForallCondition(frozenset({Variable(x)}), (p ?x)), Not(Predicate(q, ))])" := by
  have hx : ValidName s%"x" := (parseName_ok.1 (by decide +kernel : parseName s%"x" = .ok s%"x")).2
  refine ⟨reprScope, .bin .and [.pred ⟨s%"q", []⟩, .quant .all [⟨s%"x", []⟩] (.pred ⟨s%"p", [.var ⟨s%"x", []⟩]⟩), .not (.pred ⟨s%"q", []⟩)],
    ?_, ?_, ?_, ?_, fun A => rfl⟩
  · refine built_iff_good.2 ⟨?_, ⟨by decide +kernel, by decide +kernel⟩, ⟨by simp [DistinctVars], by decide +kernel, by decide +kernel⟩,
      ⟨by decide +kernel, by decide +kernel⟩, trivial⟩
    unfold Stable
    decide +kernel
  · refine .and ?_
    simp only [List.mem_cons, List.not_mem_nil, or_false, forall_eq_or_imp, forall_eq]
    refine ⟨.pred (by simp), ?_, .not (.pred (by simp))⟩
    refine .quant rfl ⟨?_, by simp, by simp, by simp⟩ (.pred ?_) ⟨.universalPrecondition, by simp [quantReq], by simp [reprScope]⟩
    · simp only [List.mem_singleton, forall_eq]; exact hx
    · simp only [List.mem_singleton, forall_eq]; exact ⟨hx, .inr ⟨rfl, rfl⟩⟩
  · simp [NoNumberShown, NoNumbersShown]
  · simp [NoTypeHidden, NoTypesHidden]

/-- The theorem about derived predicates applies to `(:derived (p ?x) (and (q) (not (p ?x))))`. -/
example : ∃ (E : GEnv) (d : Derived), BuiltDerived d ∧ PrintCond E (.pred d.pred) ∧ PrintCond E d.cond ∧ NoNumberShown d.cond ∧
    NoTypeHidden d.cond ∧ ∀ A, d.repr A = s%"DerivedPredicate(Predicate(p, ?x), And([Predicate(q, ), Not(Predicate(p, ?x))]))" := by
  have hx : ValidName s%"x" := (parseName_ok.1 (by decide +kernel : parseName s%"x" = .ok s%"x")).2
  have hs : PrintCond ⟨fun _ => none, [.adl], fun _ => .error .undefined, [(s%"x", .var ⟨s%"x", []⟩)], typedListVariable⟩
      (.pred ⟨s%"p", [.var ⟨s%"x", []⟩]⟩) := by
    refine .pred ?_
    simp only [List.mem_singleton, forall_eq]; exact ⟨hx, .inl ⟨⟨s%"x", []⟩, rfl, rfl, fun _ => Iff.rfl⟩⟩
  refine ⟨_, ⟨⟨s%"p", [.var ⟨s%"x", []⟩]⟩, .bin .and [.pred ⟨s%"q", []⟩, .not (.pred ⟨s%"p", [.var ⟨s%"x", []⟩]⟩)]⟩,
    ⟨⟨s%"p", [.var ⟨s%"x", []⟩], by decide +kernel⟩, ?_⟩, hs, ?_, ?_, ?_, fun A => rfl⟩
  · refine built_iff_good.2 ⟨?_, ⟨by decide +kernel, by decide +kernel⟩, ⟨by decide +kernel, by decide +kernel⟩, trivial⟩
    unfold Stable
    decide +kernel
  · refine .and ?_
    simp only [List.mem_cons, List.not_mem_nil, or_false, forall_eq_or_imp, forall_eq]
    exact ⟨.pred (by simp), .not hs⟩
  · simp [NoNumberShown, NoNumbersShown]
  · simp [NoTypeHidden, NoTypesHidden]

/-- The theorem about metrics applies to `(:metric minimize (+ (f) 2))`. -/
example : ∃ m : Metric, Built m.expr ∧ MetricText m.expr ∧ m.repr = s%"Metric((+ (f) 2), minimize)" := by
  refine ⟨⟨.bfun .plus [.nfun ⟨s%"f", []⟩, .num (.str s%"2")], false⟩, ?_, ?_, by decide +kernel⟩
  · refine built_iff_good.2 ⟨(by decide +kernel : construct (.fop .plus) _ = Expr.ofCls (.fop .plus) _), (by decide +kernel : parseName s%"f" = .ok s%"f"), trivial, trivial⟩
  · refine .plus (by simp) ?_
    simp only [List.mem_cons, List.not_mem_nil, or_false, forall_eq_or_imp, forall_eq]
    exact ⟨.fn (by simp), .num (.digits ⟨by simp, by simp [Digit]⟩)⟩

end Pddl.Props
