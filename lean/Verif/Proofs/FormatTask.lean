/-
Reading tasks, and writing what was read, keeps the solutions.
-/
import Verif.Spec.SaidDerived
import Verif.Spec.FormatTask
import Verif.Proofs.SaidTask
import Verif.Props.Written
import Verif.Proofs.DomainReread
import Verif.Proofs.ProblemRead
import Verif.Props.WrittenProblem
import Verif.Props.DomainRoundTrip

namespace Pddl
open Spec Spec.Grammar

variable {F : FloatOf}

/-! ### What can be read back can be said -/

theorem Spec.Known.valid {E : GEnv} {t : Term} (h : Known E t) : ValidName t.name := by
  cases t with
  | const n x => exact h.1
  | var v => exact h.1

theorem parseFunction_valid {n : Str} (h : parseFunction n = .ok n) : ValidFunction n := (parseFunction_ok.1 h).2

theorem Spec.PrintNum.said {E : GEnv} {e : Expr} (h : PrintNum E e) (g : e.Good) : SaidNum E.float e := by
  induction h with
  | num h => exact .num h
  | fn h => exact .fn (parseFunction_valid g) (fun t ht => (h t ht).valid)
  | plus _ _ ih => exact .op trivial (fun a ha => ih a ha (goods_iff.1 g.2 a ha))
  | times _ _ ih => exact .op trivial (fun a ha => ih a ha (goods_iff.1 g.2 a ha))
  | divide _ _ ih1 ih2 =>
    refine .op trivial ?_
    simp only [List.forall_mem_cons, List.not_mem_nil, false_imp_iff, implies_true, and_true]
    exact ⟨ih1 g.2.1, ih2 g.2.2.1⟩
  | minus _ ih =>
    refine .op trivial ?_
    simp only [List.forall_mem_cons, List.not_mem_nil, false_imp_iff, implies_true, and_true]
    exact ih g.2.1

theorem Spec.PrintVars.said {vs : List Var} (h : PrintVars vs) : SaidVars vs := ⟨h.names, h.types, h.order⟩

theorem Spec.PrintCond.said {E : GEnv} {e : Expr} (h : PrintCond E e) (g : e.Good) : SaidCond E.float e := by
  induction h with
  | pred h => exact .pred (parseName_ok.1 g.1).2 (fun t ht => (h t ht).valid)
  | eq h1 h2 _ => exact .eq h1.valid h2.valid
  | and _ ih => exact .and (fun a ha => ih a ha (goods_iff.1 g.2 a ha))
  | or _ _ ih => exact .or (fun a ha => ih a ha (goods_iff.1 g.2 a ha))
  | imply _ _ _ ih1 ih2 =>
    refine .imply ?_
    simp only [List.forall_mem_cons, List.not_mem_nil, false_imp_iff, implies_true, and_true]
    exact ⟨ih1 g.2.1, ih2 g.2.2.1⟩
  | not _ ih => exact .not (ih g)
  | quant _ hv _ _ ih => exact .quant hv.said (ih g.2)
  | comp ho h1 h2 =>
    refine .comp ho ?_
    simp only [List.forall_mem_cons, List.not_mem_nil, false_imp_iff, implies_true, and_true]
    exact ⟨h1.said g.2.1, h2.said g.2.2.1⟩

theorem Spec.PrintLit.said {E : GEnv} {e : Expr} (h : PrintLit E e) (g : e.Good) : SaidEff E.float e := by
  cases h with
  | atom h =>
    cases h with
    | pred h => exact .pred (parseName_ok.1 g.1).2 (fun t ht => (h t ht).valid)
    | eq h1 h2 _ => exact .eq h1.valid h2.valid
  | not h =>
    cases h with
    | pred h => exact .not (parseName_ok.1 (show Expr.Good (.pred _) from g).1).2 (fun t ht => (h t ht).valid)
    | eq h1 h2 _ => exact .notEq h1.valid h2.valid
  | assign ho h1 h2 => exact .update ho (parseFunction_valid g.2.1) (fun t ht => (h1 t ht).valid) (h2.said g.2.2.1)

theorem Spec.PrintWhen.said {E : GEnv} {e : Expr} (h : PrintWhen E e) (g : e.Good) : SaidEff E.float e := by
  cases h with
  | lit h => exact h.said g
  | and h => exact .and (fun a ha => (h a ha).said (goods_iff.1 g.2 a ha))

theorem Spec.PrintEff.said {E : GEnv} {b : Bool} {e : Expr} (h : PrintEff E b e) (g : e.Good) : SaidEff E.float e := by
  induction h with
  | lit h => exact h.said g
  | and _ ih => exact .and (fun a ha => ih a ha (goods_iff.1 g.2 a ha))
  | when h1 h2 => exact .when (h1.said g.1) (h2.said g.2)
  | fall _ hv _ ih => exact .fall hv.said (ih g.2)
  | oneof hne _ _ ih => exact .oneof hne (fun a ha => ih a ha (goods_iff.1 g.2 a ha))

theorem retagTerm_name (S : List (List Var)) (env : VarTypes) (t : Term) : (retagTerm S env t).name = t.name := by
  cases t <;> rfl

theorem retagTerms_valid {S : List (List Var)} {env : VarTypes} {ts : List Term} (h : ∀ t ∈ ts, ValidName t.name) :
    ∀ t ∈ ts.map (retagTerm S env), ValidName t.name := by
  intro t ht
  obtain ⟨u, hu, rfl⟩ := List.mem_map.1 ht
  rw [retagTerm_name]
  exact h u hu

theorem Spec.SaidNum.retagged {e : Expr} (h : SaidNum F e) (S : List (List Var)) (env : VarTypes) : SaidNum F (retagged S env e) := by
  induction h with
  | num h => exact .num h
  | fn h1 h2 => exact .fn h1 (retagTerms_valid h2)
  | op ho _ ih =>
    rw [Spec.retagged, retaggeds_map]
    refine .op ho ?_
    intro a ha
    obtain ⟨x, hx, rfl⟩ := List.mem_map.1 ha
    exact ih x hx

theorem Spec.SaidCond.retagged {e : Expr} (h : SaidCond F e) (S : List (List Var)) (env : VarTypes) : SaidCond F (retagged S env e) := by
  induction h generalizing S with
  | pred h1 h2 => exact .pred h1 (retagTerms_valid h2)
  | eq h1 h2 => exact .eq (by rw [retagTerm_name]; exact h1) (by rw [retagTerm_name]; exact h2)
  | and _ ih =>
    rw [Spec.retagged, retaggeds_map]
    exact .and (fun a ha => by obtain ⟨x, hx, rfl⟩ := List.mem_map.1 ha; exact ih x hx S)
  | or _ ih =>
    rw [Spec.retagged, retaggeds_map]
    exact .or (fun a ha => by obtain ⟨x, hx, rfl⟩ := List.mem_map.1 ha; exact ih x hx S)
  | imply _ ih =>
    rw [Spec.retagged, retaggeds_map]
    exact .imply (fun a ha => by obtain ⟨x, hx, rfl⟩ := List.mem_map.1 ha; exact ih x hx S)
  | not _ ih => exact .not (ih S)
  | quant hv _ ih => exact .quant hv (ih _)
  | comp ho h =>
    rw [Spec.retagged, retaggeds_map]
    exact .comp ho (fun a ha => by obtain ⟨x, hx, rfl⟩ := List.mem_map.1 ha; exact (h x hx).retagged S env)

/-- Domains that the grammar can write. -/
theorem Spec.PrintDomain.said {d : Domain} (hb : BuiltDomain d) (h : PrintDomain F d) : SaidDomain F d := by
  have hba : ∀ a ∈ d.actions, BuiltAction a := by
    obtain ⟨x, hx, hmk⟩ := hb
    obtain ⟨_, _, _, _, _, _, _, _, rfl⟩ := (mkDomain_ok hx.types).1 hmk
    exact fun a ha => hx.actions a (dedupBy_subset ha)
  refine ⟨h.reqs, h.types, h.constants, h.predicates, h.functions, ?_, ?_⟩
  · intro x hx
    obtain ⟨⟨vs, h1, h2, _⟩, _, c, hc, hp, e⟩ := h.derived x hx
    refine ⟨⟨vs, h1, h2⟩, ?_⟩
    rw [e]
    exact (hp.said hc.good).retagged _ _
  · intro x hx
    have ha := h.actions x hx
    have hbx := hba x hx
    refine ⟨ha.params, ?_, ?_⟩
    · intro e he
      have := hbx.pre
      rw [he] at this
      exact (ha.pre e he).said this.good
    · intro e he
      have := hbx.eff
      rw [he] at this
      exact (ha.eff e he).said this.good

theorem Spec.IsConstant.valid {t : Term} (h : IsConstant t) : ValidName t.name := by
  cases t with
  | const n x => exact h
  | var v => exact h.elim

theorem Spec.GoalNum.said {e : Expr} (h : GoalNum F e) (g : e.Good) : SaidNum F e := by
  induction h with
  | num h => exact .num h
  | fn h => exact .fn (parseFunction_valid g) (fun t ht => (h t ht).valid)
  | plus _ _ ih => exact .op trivial (fun a ha => ih a ha (goods_iff.1 g.2 a ha))
  | times _ _ ih => exact .op trivial (fun a ha => ih a ha (goods_iff.1 g.2 a ha))
  | divide _ _ ih1 ih2 =>
    refine .op trivial ?_
    simp only [List.forall_mem_cons, List.not_mem_nil, false_imp_iff, implies_true, and_true]
    exact ⟨ih1 g.2.1, ih2 g.2.2.1⟩
  | minus _ ih =>
    refine .op trivial ?_
    simp only [List.forall_mem_cons, List.not_mem_nil, false_imp_iff, implies_true, and_true]
    exact ih g.2.1

theorem Spec.GoalText.said {e : Expr} (h : GoalText F e) (g : e.Good) : SaidCond F e := by
  induction h with
  | pred h => exact .pred (parseName_ok.1 g.1).2 (fun t ht => (h t ht).valid)
  | and _ ih => exact .and (fun a ha => ih a ha (goods_iff.1 g.2 a ha))
  | not _ ih => exact .not (ih g)
  | comp ho h1 h2 =>
    refine .comp ho ?_
    simp only [List.forall_mem_cons, List.not_mem_nil, false_imp_iff, implies_true, and_true]
    exact ⟨h1.said g.2.1, h2.said g.2.2.1⟩

theorem Spec.MetricText.said {e : Expr} (h : MetricText e) (g : e.Good) : SaidMetric e := by
  induction h with
  | num h => exact .num h
  | fn h => exact .fn (parseFunction_valid g) (fun t ht => (h t ht).valid)
  | plus _ _ ih => exact .op trivial (fun a ha => ih a ha (goods_iff.1 g.2 a ha))
  | times _ _ ih => exact .op trivial (fun a ha => ih a ha (goods_iff.1 g.2 a ha))
  | divide _ _ ih1 ih2 =>
    refine .op trivial ?_
    simp only [List.forall_mem_cons, List.not_mem_nil, false_imp_iff, implies_true, and_true]
    exact ⟨ih1 g.2.1, ih2 g.2.2.1⟩
  | minus _ ih =>
    refine .op trivial ?_
    simp only [List.forall_mem_cons, List.not_mem_nil, false_imp_iff, implies_true, and_true]
    exact ih g.2.1

/-- Problems that the grammar can write. -/
theorem Spec.PrintProblem.said {p : Problem} (hb : BuiltProblem p) (h : PrintProblem F p) : SaidProblem F p := by
  obtain ⟨a, ha, hmk⟩ := hb
  obtain ⟨_, _, _, _, h5, h6, _⟩ := mkProblem_fields hmk
  refine ⟨h.noDomain, h.reqs, h.objects, h.init, ?_, ?_⟩
  · refine h.goal.said ?_
    rw [h5]
    cases hg : a.goal with
    | none => exact (Props.built_and (as := []) (by decide +kernel) (by simp)).good
    | some g => exact (ha.goal g hg).good
  · intro m hm
    refine (h.metric m hm).said ?_
    rw [h6] at hm
    exact (ha.metric m hm).good

/-! ### Reading -/

/-- The actions of a text are in its last section. -/
theorem action_structures {ts : List Tree} {s : DomainSections} (h : s.Of (.node ts)) {n : Str} {ps : List Tree} {pre eff : Tree} :
    actionText n ps pre eff ∈ ts ↔ actionText n ps pre eff ∈ s.structures := by
  obtain ⟨h, ⟨l, rfl, hk⟩, e⟩ := h
  injection e with e
  have hne : ∀ k b, k ≠ s%"action" → ¬ actionText n ps pre eff ∈ optText k b := by
    intro k b hk hm
    cases b with
    | none => simp [optText] at hm
    | some b =>
      simp only [optText, List.mem_singleton, actionText, section_, Tree.node.injEq, List.cons.injEq, Tree.atom.injEq, Tok.kw.injEq] at hm
      exact hk hm.1.symm
  have hl : actionText n ps pre eff ≠ .node l := by
    intro e
    unfold actionText at e
    injection e with e
    subst e
    cases hk
  rw [e]
  simp only [List.mem_cons, List.mem_append, hne _ _ (show s%"requirements" ≠ s%"action" by decide),
    hne _ _ (show s%"types" ≠ s%"action" by decide), hne _ _ (show s%"constants" ≠ s%"action" by decide),
    hne _ _ (show s%"predicates" ≠ s%"action" by decide), hne _ _ (show s%"functions" ≠ s%"action" by decide), hl, false_or]
  constructor
  · rintro (h | h)
    · simp [actionText, word] at h
    · exact h
  · exact .inr

theorem actionText_inj {n n' : Str} {ps ps' : List Tree} {pre pre' eff eff' : Tree} (h : actionText n ps pre eff = actionText n' ps' pre' eff') :
    n = n' ∧ ps = ps' ∧ pre = pre' ∧ eff = eff' := by
  simpa [actionText] using h

/-- A step of a domain that was read is a step of the text. -/
theorem read_performsAt {d : Domain} {ts : List Tree} {s : DomainSections} (hs : s.Of (.node ts)) {W : Tree → NFun → Prop}
    (hw : DomainWritten F W s d) (hp : PlainSchemas F ts) {st : Str × List Term} {u : Tree} (hst : StepWritten u st)
    (hv : ∀ c ∈ st.2, ValidName c.name) {D : Type} {I I' J : Interp D} {lit : Str → Option Rat} (hlit : LitOk lit F) {ρ : Str → D} :
    PerformsAt d ρ st I' I J ↔ TextActsAt lit ts ρ u I' I J := by
  obtain ⟨ns, rfl, hns⟩ := hst
  have hc : ∀ t ∈ st.2, IsConstant t := by
    intro t ht
    have := hv t ht
    rw [hns] at ht
    obtain ⟨m, _, rfl⟩ := List.mem_map.1 ht
    exact this
  have hnames : st.2.map Term.name = ns := by
    rw [hns, List.map_map]
    exact List.map_id ns
  have hone : ∀ a : Action, ∀ ps pre eff l vs p e, actionText a.name ps pre eff ∈ s.structures → ParamsWritten ps a.params l vs →
      a.pre = some p → a.eff = some e → (pre ≠ .node [] → KeepsOperands (textEnv F) pre → SaysTheSame F pre p) →
      (NoOneof eff → KeepsOperands (textEnv F) eff → MakesTheSame F eff e) →
      (l.vars.map Prod.fst = vs.map Var.name ∧ ∀ ρ' : Str → D, ((∀ e, a.pre = some e → holds I' e ρ') ↔ preHolds I' lit pre ρ') ∧
        ∀ c, (∃ e, a.eff = some e ∧ makes I' c e ρ') ↔ treeMakes I' lit c eff ρ') := by
    intro a ps pre eff l vs p e hin hpw hp' he h1 h2
    have hin := (action_structures hs).2 hin
    obtain ⟨k1, k2⟩ := hp.pre _ _ _ _ hin
    obtain ⟨k3, k4⟩ := hp.eff _ _ _ _ hin
    refine ⟨(sublist_members hpw.order (hp.params _ _ _ _ l hin hpw.text) ?_).symm, fun ρ' => ⟨?_, ?_⟩⟩
    · intro x
      refine ⟨fun hx => hpw.order.subset hx, fun hx => ?_⟩
      obtain ⟨q, hq, rfl⟩ := List.mem_map.1 hx
      exact hpw.all q hq
    · rw [hp']
      simp only [Option.some.injEq, forall_eq']
      rw [h1 k1 k2 D I' lit ρ' hlit]
      unfold preHolds
      exact ⟨.inr, fun h => h.resolve_left k1⟩
    · intro c
      rw [he]
      simp only [Option.some.injEq, exists_eq_left']
      exact h2 k3 k4 D I' lit c ρ' hlit
  constructor
  · rintro ⟨a, ha, ρ', h1, h2, h3, h4, h5⟩
    obtain ⟨t, ht, ps, pre, eff, l, vs, p, e, rfl, hpw, hp', he, k1, k2⟩ := hw.actions a ha
    obtain ⟨hl, hk⟩ := hone a ps pre eff l vs p e ht hpw hp' he k1 k2
    rw [hpw.terms, binds_consts hc, ← hl, hnames] at h3
    refine ⟨a.name, ns, ps, pre, eff, l, ρ', by rw [h1]; rfl, (action_structures hs).2 ht, hpw.text, ?_, h3.1, h3.2, (hk ρ').1.1 h4,
      h5.congr (hk ρ').2⟩
    rw [hpw.terms, hns] at h2
    have := congrArg List.length hl
    simp only [List.length_map] at this h2
    omega
  · rintro ⟨n, ns', ps, pre, eff, l, ρ', e, hin, hvt, hlen, z1, z2, h1, h2⟩
    obtain ⟨rfl, rfl⟩ := applied_inj e
    rcases hw.allStructures _ ((action_structures hs).1 hin) with ⟨a, ha, ps', pre', eff', l', vs, p, e', he, hpw, hp', he', k1, k2⟩ | ⟨x, hx, b, c, l, he, _⟩
    · obtain ⟨e1, rfl, rfl, rfl⟩ := actionText_inj he
      obtain ⟨hl, hk⟩ := hone a ps pre eff l' vs p e' (by rw [← e1]; exact (action_structures hs).1 hin) hpw hp' he' k1 k2
      have hll : l.vars.map Prod.fst = l'.vars.map Prod.fst := by rw [hvt.names, hpw.text.names]
      refine ⟨a, ha, ρ', e1.symm, ?_, ?_, (hk ρ').1.2 h1, h2.congr (fun c => ((hk ρ').2 c).symm)⟩
      · have x1 := congrArg List.length hll
        have x2 := congrArg List.length hl
        simp only [List.length_map] at x1 x2
        rw [hpw.terms, hns]
        simp only [List.length_map]
        omega
      · rw [hpw.terms, binds_consts hc, ← hl, hnames, ← hll]
        exact ⟨z1, z2⟩
    · simp [actionText, section_] at he

theorem read_performs {d : Domain} {ts : List Tree} {s : DomainSections} (hs : s.Of (.node ts)) {W : Tree → NFun → Prop}
    (hw : DomainWritten F W s d) (hp : PlainSchemas F ts) {st : Str × List Term} {u : Tree} (hst : StepWritten u st)
    (hv : ∀ c ∈ st.2, ValidName c.name) {D : Type} {I J : Interp D} {lit : Str → Option Rat} (hlit : LitOk lit F) {ρ : Str → D} :
    Performs d ρ st I J ↔ TextActs lit ts ρ u I J :=
  read_performsAt hs hw hp hst hv (I := I) (I' := I) (J := J) hlit

/-- Steps one after the other. -/
theorem read_steps {d : Domain} {ts : List Tree} {s : DomainSections} (hs : s.Of (.node ts)) {W : Tree → NFun → Prop}
    (hw : DomainWritten F W s d) (hp : PlainSchemas F ts) {steps : List (Str × List Term)} {us : List Tree} (hst : List.Forall₂ StepWritten us steps)
    (hv : ∀ st ∈ steps, ∀ c ∈ st.2, ValidName c.name) {D : Type} {I J : Interp D} {lit : Str → Option Rat} (hlit : LitOk lit F) {ρ : Str → D} :
    StepByStep (Performs d ρ) steps I J ↔ TextRuns lit ts ρ us I J := by
  induction hst generalizing I with
  | nil => constructor <;> (intro h; cases h; exact .nil)
  | cons h _ ih =>
    have key := fun I J => read_performs hs hw hp h (hv _ List.mem_cons_self) (I := I) (J := J) hlit (ρ := ρ)
    have ih := fun {I} => @ih (fun st hst => hv st (List.mem_cons_of_mem _ hst)) I
    constructor
    · intro h
      cases h with
      | cons k1 k2 => exact .cons ((key _ _).1 k1) (ih.1 k2)
    · intro h
      cases h with
      | cons k1 k2 => exact .cons ((key _ _).2 k1) (ih.2 k2)

end Pddl
