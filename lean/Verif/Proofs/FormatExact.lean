/-
Reading tasks and writing what was read: what becomes of the solutions, whatever operands are lost.
-/
import Verif.Spec.SaidDerived
import Verif.Proofs.FormatTask
import Verif.Props.AsRead
import Verif.Proofs.AsReadOutcome

namespace Pddl
open Spec Spec.Grammar Props

variable {F : FloatOf}

theorem actionDef_exact {σ σ' : PState} {body : List Tree} {a : Action} (hc : ConstsOk σ)
    (hw : ∀ w, Inside (.atom (.name w)) (section_ s%"action" body) → nameRegex w = true)
    (h : actionDef F σ body = .ok (a, σ')) : ActionExact F (section_ s%"action" body) a := by
  obtain ⟨n, ps, t, t', params, p, e, rfl, hpar, rfl, hpre, heff, hact⟩ := actionDef_ok h
  unfold mkAction at hact
  obtain ⟨n', hn, hact'⟩ := bind_ok_iff.1 hact
  clear hact
  obtain ⟨rfl, _⟩ := parseName_ok.1 hn
  simp only [pure_ok, Except.ok.injEq] at hact'
  subst hact'
  have hE : ParserEnv (({ σ with params := params } : PState).env F) :=
    params_env (σ := { σ with params := params }) hc (actionParameters_vars hpar) F
  refine ⟨ps, t, t', p, e, rfl, rfl, rfl, ?_, ?_⟩
  · intro D I lit ρ hlit
    unfold GEnv.preGd at hpre
    split at hpre
    · simp only [pure_ok, Except.ok.injEq] at hpre
      subst hpre
      rw [holds_mkOr, readPre, treeHolds_name, if_neg (by decide), if_pos rfl]
      simp [treeHoldsSome]
    · have hg := gd_iff.1 hpre
      rw [readPre_cond _ hg.not_empty]
      exact hg.exact I lit hE hlit (fun w hi => hw w (hi.trans (.node (by simp) .refl))) ρ
  · intro ho D I lit c ρ hlit
    unfold GEnv.effOpt at heff
    split at heff
    · simp only [pure_ok, Except.ok.injEq] at heff
      subst heff
      have : mkOr [] = .bin .or [] := by decide +kernel
      rw [this]
      simp [makes, readEff, treeMakes]
    · exact (effect_iff.1 heff).exact I lit c hE hlit (fun w hi => hw w (hi.trans (.node (by simp) .refl))) ho (fun _ toks r hr => hr) ρ

theorem Spec.ActionExact.congr {t : Tree} {a b : Action} (h : ActionExact F t a) (e : b.pyEq a = true) : ActionExact F t b := by
  rw [Action.pyEq_iff] at e
  simp only [Action.norm, Prod.mk.injEq] at e
  obtain ⟨e1, _, e3, e4⟩ := e
  obtain ⟨ps, pre, eff, p, f, rfl, hp, hf, h1, h2⟩ := h
  rw [hp] at e3
  rw [hf] at e4
  simp only [Option.map_some, Option.map_eq_some_iff] at e3 e4
  obtain ⟨p', hp', e3⟩ := e3
  obtain ⟨f', hf', e4⟩ := e4
  refine ⟨ps, pre, eff, p', f', by rw [e1], hp', hf', ?_, ?_⟩
  · intro D I lit ρ hlit
    rw [← h1 D I lit ρ hlit]
    exact holds_congr_norm I e3 ρ
  · intro ho D I lit c ρ hlit
    rw [← h2 ho D I lit c ρ hlit]
    exact makes_congr I c e4 ρ

theorem actionDef_may {σ σ' : PState} {body : List Tree} {a : Action} (hc : ConstsOk σ)
    (hw : ∀ w, Inside (.atom (.name w)) (section_ s%"action" body) → nameRegex w = true)
    (h : actionDef F σ body = .ok (a, σ')) : ActionMay F (section_ s%"action" body) a := by
  obtain ⟨n, ps, t, t', params, p, e, rfl, hpar, rfl, hpre, heff, hact⟩ := actionDef_ok h
  unfold mkAction at hact
  obtain ⟨n', hn, hact'⟩ := bind_ok_iff.1 hact
  clear hact
  obtain ⟨rfl, _⟩ := parseName_ok.1 hn
  simp only [pure_ok, Except.ok.injEq] at hact'
  subst hact'
  have hE : ParserEnv (({ σ with params := params } : PState).env F) :=
    params_env (σ := { σ with params := params }) hc (actionParameters_vars hpar) F
  have hP : (({ σ with params := params } : PState).env F).Plain :=
    env_plain (σ := { σ with params := params }) hc (actionParameters_vars hpar) F
  refine ⟨ps, t, t', e, rfl, rfl, ?_⟩
  intro D I lit ρ C hlit
  have hw' : ∀ w, Inside (.atom (.name w)) t' → nameRegex w = true := fun w hi => hw w (hi.trans (.node (by simp) .refl))
  unfold GEnv.effOpt at heff
  split at heff
  · simp only [pure_ok, Except.ok.injEq] at heff
    subst heff
    have : mkOr [] = .bin .or [] := by decide +kernel
    rw [this]
    simp [outcome, readEff, treeOutcome, makes, treeMakes]
  · have he := effect_iff.1 heff
    exact ⟨⟨he.outcome_read I lit hE hlit hw' (fun _ toks r hr => hr), fun ho => he.read_outcome I lit hE hlit hw' ho (fun _ toks r hr => hr)⟩,
      fun hk => ⟨ERel.outcome_written I lit hE hlit he hw' (hk.inEnv hP) (fun _ toks r hr => hr),
        fun ho => ERel.written_outcome I lit hE hlit he hw' (hk.inEnv hP) ho (fun _ toks r hr => hr)⟩⟩

theorem Spec.ActionMay.congr {t : Tree} {a b : Action} (h : ActionMay F t a) (e : b.pyEq a = true) : ActionMay F t b := by
  rw [Action.pyEq_iff] at e
  simp only [Action.norm, Prod.mk.injEq] at e
  obtain ⟨e1, _, _, e4⟩ := e
  obtain ⟨ps, pre, eff, f, rfl, hf, h1⟩ := h
  rw [hf] at e4
  simp only [Option.map_some, Option.map_eq_some_iff] at e4
  obtain ⟨f', hf', e4⟩ := e4
  refine ⟨ps, pre, eff, f', by rw [e1], hf', fun D I lit ρ C hlit => ?_⟩
  have := h1 D I lit ρ C hlit
  rwa [show outcome I f ρ C ↔ outcome I f' ρ C from ⟨outcome_congr I e4.symm, outcome_congr I e4⟩] at this

/-- The actions of a domain that was read are those of its text, exactly as they are read. -/
theorem actions_exact {σ σ' : PState} {text : Str} {d : Domain} (hσ : ParserState F σ) (h : parseDomain F σ text = .ok (d, σ')) :
    ∃ ts, Brackets (lex text) [.node ts] ∧
      (∀ a ∈ d.actions, ∃ t ∈ ts, ActionWritten F t a ∧ ActionExact F t a ∧ ActionMay F t a) ∧
      ∀ n ps pre eff, actionText n ps pre eff ∈ ts → ∃ a ∈ d.actions, ActionWritten F (actionText n ps pre eff) a ∧
        ActionExact F (actionText n ps pre eff) a ∧ ActionMay F (actionText n ps pre eff) a := by
  obtain ⟨ts, hr, h⟩ := parseDomain_ok h
  obtain ⟨P⟩ := domainDef_ok h
  have hw : ∀ w, Inside (.atom (.name w)) (.node ts) → nameRegex w = true := fun w hw => readText_words hr (t := .node ts) (by simp) hw
  have hsec : P.sections.Of (.node ts) := P.sections_of
  have hsub : ∀ t ∈ P.ts5, t ∈ ts := by
    intro t ht
    obtain ⟨_, _, e⟩ := hsec
    injection e with e
    rw [e]
    exact .tail _ (.tail _ (List.mem_append_right _ ht))
  have hcs : ∀ σ1 : PState, σ1.Same P.σ4 → ConstsOk σ1 := by
    have h4 := constsOk_domain P hσ.constsOk
    intro σ1 hs
    unfold ConstsOk at *
    rw [hs.2.1]
    exact h4
  have hp4 : ParamsOk P.σ4 := by unfold ParamsOk; rw [P.params4]; exact hσ.paramsOk
  have hw5 : ∀ t ∈ P.ts5, ∀ w, Inside (.atom (.name w)) t → nameRegex w = true := fun t ht w hi =>
    hw w (hi.trans (.node (hsub t ht) .refl))
  obtain ⟨-, hall, -⟩ := structures_all P.hstruct hp4
  have hact := (mkDomain_actions P.hdomain).1
  refine ⟨ts, readText_brackets.1 hr, ?_, ?_⟩
  · intro a ha
    rw [hact] at ha
    obtain ⟨body, σ1, σ2, hb, hs, hd⟩ := (structures_from P.hstruct).2.1 a (dedupBy_subset ha)
    exact ⟨_, hsub _ hb, actionDef_written (hcs σ1 hs) (hw5 _ hb) hd, actionDef_exact (hcs σ1 hs) (hw5 _ hb) hd,
      actionDef_may (hcs σ1 hs) (hw5 _ hb) hd⟩
  · intro n ps pre eff ht
    have ht := (action_structures hsec).1 ht
    rcases hall _ ht with ⟨body, σ1, σ2, a, e, hs, hd, ha⟩ | ⟨body, σ1, x, e, _⟩
    · obtain ⟨b, hb, e'⟩ := memBy_iff.1 (dedupBy_cover (fun a => Action.pyEq_iff.2 rfl) ha)
      have ht' : section_ s%"action" body ∈ P.ts5 := by rw [← e]; exact ht
      refine ⟨b, by rw [hact]; exact hb, ?_⟩
      rw [e]
      exact ⟨(actionDef_written (hcs σ1 hs) (hw5 _ ht') hd).congr (eqv_action.symm e'),
        (actionDef_exact (hcs σ1 hs) (hw5 _ ht') hd).congr (eqv_action.symm e'),
        (actionDef_may (hcs σ1 hs) (hw5 _ ht') hd).congr (eqv_action.symm e')⟩
    · simp [actionText, section_] at e

/-- A step of a domain that was read is a step of the text as it is read, with conditions evaluated in `I'`. -/
theorem read_schemaAt {d : Domain} {ts : List Tree} (ha : ∀ a ∈ d.actions, ∃ t ∈ ts, ActionWritten F t a ∧ ActionExact F t a ∧ ActionMay F t a)
    (hb : ∀ n ps pre eff, actionText n ps pre eff ∈ ts → ∃ a ∈ d.actions, ActionWritten F (actionText n ps pre eff) a ∧
        ActionExact F (actionText n ps pre eff) a ∧ ActionMay F (actionText n ps pre eff) a) (hp : ClearSchemas ts) {st : Str × List Term} {u : Tree} (hst : StepWritten u st)
    (hv : ∀ c ∈ st.2, ValidName c.name) {D : Type} {I' I J : Interp D} {lit : Str → Option Rat} (hlit : LitOk lit F) {ρ : Str → D} :
    PerformsAt d ρ st I' I J ↔ ReadSchemaAt F lit ts ρ u I' I J := by
  obtain ⟨ns, rfl, hns⟩ := hst
  have hc : ∀ t ∈ st.2, IsConstant t := by
    intro t ht
    have := hv t ht
    rw [hns] at ht
    obtain ⟨m, _, rfl⟩ := List.mem_map.1 ht
    exact this
  have hnames : st.2.map Term.name = ns := by
    rw [hns, List.map_map]
    exact List.map_id ns
  have hone : ∀ (a : Action) n ps pre eff, actionText n ps pre eff ∈ ts → ActionWritten F (actionText n ps pre eff) a →
      ActionExact F (actionText n ps pre eff) a → a.name = n ∧ ∃ l vs, ParamsWritten ps a.params l vs ∧
        l.vars.map Prod.fst = vs.map Var.name ∧ ∀ ρ' : Str → D, ((∀ e, a.pre = some e → holds I' e ρ') ↔ treeHolds I' lit (readPre F pre) ρ') ∧
        ∀ c, (∃ e, a.eff = some e ∧ makes I' c e ρ') ↔ treeMakes I' lit c (readEff F eff) ρ' := by
    intro a n ps pre eff hin h1 h2
    obtain ⟨ps1, pre1, eff1, l, vs, _, _, e1, hpw, _, _, _, _⟩ := h1
    obtain ⟨ps2, pre2, eff2, p, e, e2, hp', he, k1, k2⟩ := h2
    obtain ⟨rfl, rfl, rfl, rfl⟩ := actionText_inj e1
    obtain ⟨_, rfl, rfl, rfl⟩ := actionText_inj e2
    refine ⟨rfl, l, vs, hpw, (sublist_members hpw.order (hp.params _ _ _ _ l hin hpw.text) ?_).symm, fun ρ' => ⟨?_, ?_⟩⟩
    · intro x
      refine ⟨fun hx => hpw.order.subset hx, fun hx => ?_⟩
      obtain ⟨q, hq, rfl⟩ := List.mem_map.1 hx
      exact hpw.all q hq
    · rw [hp']
      simp only [Option.some.injEq, forall_eq']
      exact k1 D I' lit ρ' hlit
    · intro c
      rw [he]
      simp only [Option.some.injEq, exists_eq_left']
      exact k2 (hp.eff _ _ _ _ hin) D I' lit c ρ' hlit
  constructor
  · rintro ⟨a, ha', ρ', h1, h2, h3, h4, h5⟩
    obtain ⟨t, ht, hw, hx, _⟩ := ha a ha'
    obtain ⟨ps, pre, eff, _, _, rfl, _⟩ := id hx
    obtain ⟨-, l, vs, hpw, hl, hk⟩ := hone a _ ps pre eff ht hw hx
    rw [hpw.terms, binds_consts hc, ← hl, hnames] at h3
    refine ⟨a.name, ns, ps, pre, eff, l, ρ', by rw [h1]; rfl, ht, hpw.text, ?_, h3.1, h3.2, (hk ρ').1.1 h4, h5.congr (hk ρ').2⟩
    rw [hpw.terms, hns] at h2
    have := congrArg List.length hl
    simp only [List.length_map] at this h2
    omega
  · rintro ⟨n, ns', ps, pre, eff, l, ρ', e, hin, hvt, hlen, z1, z2, h1, h2⟩
    obtain ⟨rfl, rfl⟩ := applied_inj e
    obtain ⟨a, ha', hw, hx, _⟩ := hb _ _ _ _ hin
    obtain ⟨e1, l', vs, hpw, hl, hk⟩ := hone a _ ps pre eff hin hw hx
    have hll : l.vars.map Prod.fst = l'.vars.map Prod.fst := by rw [hvt.names, hpw.text.names]
    refine ⟨a, ha', ρ', e1, ?_, ?_, (hk ρ').1.2 h1, h2.congr (fun c => ((hk ρ').2 c).symm)⟩
    · have x1 := congrArg List.length hll
      have x2 := congrArg List.length hl
      simp only [List.length_map] at x1 x2
      rw [hpw.terms, hns]
      simp only [List.length_map]
      omega
    · rw [hpw.terms, binds_consts hc, ← hl, hnames, ← hll]
      exact ⟨z1, z2⟩

/-- A step of a domain that was read is a step of the text as it is read. -/
theorem read_schema {d : Domain} {ts : List Tree} (ha : ∀ a ∈ d.actions, ∃ t ∈ ts, ActionWritten F t a ∧ ActionExact F t a ∧ ActionMay F t a)
    (hb : ∀ n ps pre eff, actionText n ps pre eff ∈ ts → ∃ a ∈ d.actions, ActionWritten F (actionText n ps pre eff) a ∧
        ActionExact F (actionText n ps pre eff) a ∧ ActionMay F (actionText n ps pre eff) a) (hp : ClearSchemas ts) {st : Str × List Term} {u : Tree} (hst : StepWritten u st)
    (hv : ∀ c ∈ st.2, ValidName c.name) {D : Type} {I J : Interp D} {lit : Str → Option Rat} (hlit : LitOk lit F) {ρ : Str → D} :
    Performs d ρ st I J ↔ ReadSchema F lit ts ρ u I J :=
  read_schemaAt ha hb hp hst hv (I' := I) hlit

/-! ### Choices -/

/-- A step of a domain that was read, in terms of its text. -/
theorem schema_steps {d : Domain} {ts : List Tree} (ha : ∀ a ∈ d.actions, ∃ t ∈ ts, ActionWritten F t a ∧ ActionExact F t a ∧ ActionMay F t a)
    (hb : ∀ n ps pre eff, actionText n ps pre eff ∈ ts → ∃ a ∈ d.actions, ActionWritten F (actionText n ps pre eff) a ∧
        ActionExact F (actionText n ps pre eff) a ∧ ActionMay F (actionText n ps pre eff) a) (hp : NamedParams ts)
    {st : Str × List Term} {u : Tree} (hst : StepWritten u st) (hv : ∀ c ∈ st.2, ValidName c.name) {D : Type} {I : Interp D} {ρ : Str → D}
    (Q : Expr → (Str → D) → Prop) (A B : Tree → (Str → D) → Prop) :
    ((∀ a ∈ d.actions, ∀ ps pre eff p e, actionText a.name ps pre eff ∈ ts → ActionWritten F (actionText a.name ps pre eff) a →
        ActionExact F (actionText a.name ps pre eff) a → ActionMay F (actionText a.name ps pre eff) a → a.pre = some p → a.eff = some e →
        ∀ ρ', (holds I p ρ' → A pre ρ') ∧ (Q e ρ' → B eff ρ')) →
      (∃ a ∈ d.actions, ∃ ρ', a.name = st.1 ∧ st.2.length = a.params.length ∧ Binds I a.params st.2 ρ ρ' ∧
        (∀ e, a.pre = some e → holds I e ρ') ∧ ∃ e, a.eff = some e ∧ Q e ρ') →
      ∃ n ns ps pre eff l ρ', u = applied n ns ∧ actionText n ps pre eff ∈ ts ∧ VarsText ps l ∧ ns.length = l.vars.length ∧
        (∀ q ∈ (l.vars.map Prod.fst).zip ns, ρ' q.1 = I.const q.2) ∧ (∀ m, m ∉ l.vars.map Prod.fst → ρ' m = ρ m) ∧ A pre ρ' ∧ B eff ρ') ∧
    ((∀ a ∈ d.actions, ∀ ps pre eff p e, actionText a.name ps pre eff ∈ ts → ActionWritten F (actionText a.name ps pre eff) a →
        ActionExact F (actionText a.name ps pre eff) a → ActionMay F (actionText a.name ps pre eff) a → a.pre = some p → a.eff = some e →
        ∀ ρ', (A pre ρ' → holds I p ρ') ∧ (B eff ρ' → Q e ρ')) →
      (∃ n ns ps pre eff l ρ', u = applied n ns ∧ actionText n ps pre eff ∈ ts ∧ VarsText ps l ∧ ns.length = l.vars.length ∧
        (∀ q ∈ (l.vars.map Prod.fst).zip ns, ρ' q.1 = I.const q.2) ∧ (∀ m, m ∉ l.vars.map Prod.fst → ρ' m = ρ m) ∧ A pre ρ' ∧ B eff ρ') →
      ∃ a ∈ d.actions, ∃ ρ', a.name = st.1 ∧ st.2.length = a.params.length ∧ Binds I a.params st.2 ρ ρ' ∧
        (∀ e, a.pre = some e → holds I e ρ') ∧ ∃ e, a.eff = some e ∧ Q e ρ') := by
  obtain ⟨ns, rfl, hns⟩ := hst
  have hc : ∀ t ∈ st.2, IsConstant t := by
    intro t ht
    have := hv t ht
    rw [hns] at ht
    obtain ⟨m, _, rfl⟩ := List.mem_map.1 ht
    exact this
  have hnames : st.2.map Term.name = ns := by
    rw [hns, List.map_map]
    exact List.map_id ns
  have hone : ∀ (a : Action) n ps pre eff, actionText n ps pre eff ∈ ts → ActionWritten F (actionText n ps pre eff) a →
      a.name = n ∧ ∃ l vs p e, ParamsWritten ps a.params l vs ∧ l.vars.map Prod.fst = vs.map Var.name ∧ a.pre = some p ∧ a.eff = some e := by
    intro a n ps pre eff hin h1
    obtain ⟨ps1, pre1, eff1, l, vs, p, e, e1, hpw, hp', he, _, _⟩ := h1
    obtain ⟨rfl, rfl, rfl, rfl⟩ := actionText_inj e1
    refine ⟨rfl, l, vs, p, e, hpw, (sublist_members hpw.order (hp _ _ _ _ l hin hpw.text) ?_).symm, hp', he⟩
    intro x
    refine ⟨fun hx => hpw.order.subset hx, fun hx => ?_⟩
    obtain ⟨q, hq, rfl⟩ := List.mem_map.1 hx
    exact hpw.all q hq
  constructor
  · rintro hk ⟨a, ha', ρ', h1, h2, h3, h4, e0, h5, h6⟩
    obtain ⟨t, ht, hw, hx, hm⟩ := ha a ha'
    obtain ⟨ps, pre, eff, _, _, rfl, _⟩ := id hx
    obtain ⟨-, l, vs, p, e, hpw, hl, hp', he⟩ := hone a _ ps pre eff ht hw
    rw [he] at h5
    cases h5
    rw [hpw.terms, binds_consts hc, ← hl, hnames] at h3
    obtain ⟨j1, j2⟩ := hk a ha' ps pre eff p _ ht hw hx hm hp' he ρ'
    refine ⟨a.name, ns, ps, pre, eff, l, ρ', by rw [h1]; rfl, ht, hpw.text, ?_, h3.1, h3.2, j1 (h4 p hp'), j2 h6⟩
    rw [hpw.terms, hns] at h2
    have := congrArg List.length hl
    simp only [List.length_map] at this h2
    omega
  · rintro hk ⟨n, ns', ps, pre, eff, l, ρ', e, hin, hvt, hlen, z1, z2, h1, h2⟩
    obtain ⟨rfl, rfl⟩ := applied_inj e
    obtain ⟨a, ha', hw, hx, hm⟩ := hb _ _ _ _ hin
    obtain ⟨e1, l', vs, p, e, hpw, hl, hp', he⟩ := hone a _ ps pre eff hin hw
    rw [← e1] at hin hw hx hm
    obtain ⟨j1, j2⟩ := hk a ha' ps pre eff p e hin hw hx hm hp' he ρ'
    have hll : l.vars.map Prod.fst = l'.vars.map Prod.fst := by rw [hvt.names, hpw.text.names]
    refine ⟨a, ha', ρ', e1, ?_, ?_, ?_, e, he, j2 h2⟩
    · have x1 := congrArg List.length hll
      have x2 := congrArg List.length hl
      simp only [List.length_map] at x1 x2
      rw [hpw.terms, hns]
      simp only [List.length_map]
      omega
    · rw [hpw.terms, binds_consts hc, ← hl, hnames, ← hll]
      exact ⟨z1, z2⟩
    · intro p' hp''
      rw [hp'] at hp''
      cases hp''
      exact j1 h1

theorem mayPerform_parts {D : Type} {d : Domain} {ρ : Str → D} {st : Str × List Term} {I J : Interp D} : MayPerform d ρ st I J ↔
    ∃ a ∈ d.actions, ∃ ρ', a.name = st.1 ∧ st.2.length = a.params.length ∧ Binds I a.params st.2 ρ ρ' ∧
      (∀ e, a.pre = some e → holds I e ρ') ∧ ∃ e, a.eff = some e ∧ ∃ C, outcome I e ρ' C ∧ Next C I J := by
  constructor
  · rintro ⟨a, ha, ρ', h1, h2, h3, h4, e, C, he, h5, h6⟩
    exact ⟨a, ha, ρ', h1, h2, h3, h4, e, he, C, h5, h6⟩
  · rintro ⟨a, ha, ρ', h1, h2, h3, h4, e, he, C, h5, h6⟩
    exact ⟨a, ha, ρ', h1, h2, h3, h4, e, C, he, h5, h6⟩

/-- What a step of a domain that was read can do, as the text is read. -/
theorem read_maySchema {d : Domain} {ts : List Tree} (ha : ∀ a ∈ d.actions, ∃ t ∈ ts, ActionWritten F t a ∧ ActionExact F t a ∧ ActionMay F t a)
    (hb : ∀ n ps pre eff, actionText n ps pre eff ∈ ts → ∃ a ∈ d.actions, ActionWritten F (actionText n ps pre eff) a ∧
        ActionExact F (actionText n ps pre eff) a ∧ ActionMay F (actionText n ps pre eff) a) (hp : NamedParams ts)
    {st : Str × List Term} {u : Tree} (hst : StepWritten u st) (hv : ∀ c ∈ st.2, ValidName c.name) {D : Type} {I J : Interp D}
    {lit : Str → Option Rat} (hlit : LitOk lit F) {ρ : Str → D} :
    (MayPerform d ρ st I J → ReadMaySchema F lit ts ρ u I J) ∧
    (EachChoiceOnce F ts → ReadMaySchema F lit ts ρ u I J → MayPerform d ρ st I J) := by
  obtain ⟨h1, h2⟩ := schema_steps ha hb hp hst hv (I := I) (ρ := ρ) (fun e ρ' => ∃ C, outcome I e ρ' C ∧ Next C I J)
    (fun pre ρ' => treeHolds I lit (readPre F pre) ρ') (fun eff ρ' => ∃ C, treeOutcome I lit (readEff F eff) ρ' C ∧ Next C I J)
  rw [mayPerform_parts]
  have key : ∀ (a : Action) ps pre eff p e, ActionExact F (actionText a.name ps pre eff) a → ActionMay F (actionText a.name ps pre eff) a →
      a.pre = some p → a.eff = some e → ∀ ρ' : Str → D, (holds I p ρ' ↔ treeHolds I lit (readPre F pre) ρ') ∧
        ∀ C, (outcome I e ρ' C → treeOutcome I lit (readEff F eff) ρ' C) ∧
          (ChoicesOnce F eff → treeOutcome I lit (readEff F eff) ρ' C → outcome I e ρ' C) := by
    intro a ps pre eff p e hx hm hp' he ρ'
    obtain ⟨_, _, _, p1, e1, e2, hp1, _, k1, _⟩ := hx
    obtain ⟨_, rfl, rfl, rfl⟩ := actionText_inj e2
    obtain ⟨_, _, _, e1', e3, he1, k2⟩ := hm
    obtain ⟨_, rfl, rfl, rfl⟩ := actionText_inj e3
    rw [hp1] at hp'; cases hp'
    rw [he1] at he; cases he
    exact ⟨k1 D I lit ρ' hlit, fun C => (k2 D I lit ρ' C hlit).1⟩
  refine ⟨h1 ?_, fun hc => h2 ?_⟩
  · intro a _ ps pre eff p e _ _ hx hm hp' he ρ'
    obtain ⟨k1, k2⟩ := key a ps pre eff p e hx hm hp' he ρ'
    exact ⟨k1.1, fun ⟨C, h, hn⟩ => ⟨C, (k2 C).1 h, hn⟩⟩
  · intro a _ ps pre eff p e hin _ hx hm hp' he ρ'
    obtain ⟨k1, k2⟩ := key a ps pre eff p e hx hm hp' he ρ'
    exact ⟨k1.2, fun ⟨C, h, hn⟩ => ⟨C, (k2 C).2 (hc _ _ _ _ hin) h, hn⟩⟩

/-- What a step of a domain that was read can do, as it is written. -/
theorem written_mayPerform {d : Domain} {ts : List Tree} (ha : ∀ a ∈ d.actions, ∃ t ∈ ts, ActionWritten F t a ∧ ActionExact F t a ∧ ActionMay F t a)
    (hb : ∀ n ps pre eff, actionText n ps pre eff ∈ ts → ∃ a ∈ d.actions, ActionWritten F (actionText n ps pre eff) a ∧
        ActionExact F (actionText n ps pre eff) a ∧ ActionMay F (actionText n ps pre eff) a) (hp : NamedParams ts) (hk : KeptSchemas F ts)
    {st : Str × List Term} {u : Tree} (hst : StepWritten u st) (hv : ∀ c ∈ st.2, ValidName c.name) {D : Type} {I J : Interp D}
    {lit : Str → Option Rat} (hlit : LitOk lit F) {ρ : Str → D} :
    (MayPerform d ρ st I J → TextMayAct lit ts ρ u I J) ∧
    (EachChoiceOnce F ts → TextMayAct lit ts ρ u I J → MayPerform d ρ st I J) := by
  obtain ⟨h1, h2⟩ := schema_steps ha hb hp hst hv (I := I) (ρ := ρ) (fun e ρ' => ∃ C, outcome I e ρ' C ∧ Next C I J)
    (fun pre ρ' => preHolds I lit pre ρ') (fun eff ρ' => ∃ C, treeOutcome I lit eff ρ' C ∧ Next C I J)
  rw [mayPerform_parts]
  have key : ∀ (a : Action) ps pre eff p e, actionText a.name ps pre eff ∈ ts → ActionWritten F (actionText a.name ps pre eff) a →
      ActionMay F (actionText a.name ps pre eff) a →
      a.pre = some p → a.eff = some e → ∀ ρ' : Str → D, (holds I p ρ' ↔ preHolds I lit pre ρ') ∧
        ∀ C, (outcome I e ρ' C → treeOutcome I lit eff ρ' C) ∧ (ChoicesOnce F eff → treeOutcome I lit eff ρ' C → outcome I e ρ' C) := by
    intro a ps pre eff p e hin hx hm hp' he ρ'
    obtain ⟨_, _, _, _, _, p1, e1, e2, _, hp1, _, k1, _⟩ := hx
    obtain ⟨_, rfl, rfl, rfl⟩ := actionText_inj e2
    obtain ⟨_, _, _, e1', e3, he1, k2⟩ := hm
    obtain ⟨_, rfl, rfl, rfl⟩ := actionText_inj e3
    rw [hp1] at hp'; cases hp'
    rw [he1] at he; cases he
    obtain ⟨j1, j2, j3⟩ := hk _ _ _ _ hin
    refine ⟨?_, fun C => (k2 D I lit ρ' C hlit).2 j3⟩
    rw [k1 j1 j2 D I lit ρ' hlit]
    unfold preHolds
    exact ⟨.inr, fun h => h.resolve_left j1⟩
  refine ⟨h1 ?_, fun hc => h2 ?_⟩
  · intro a _ ps pre eff p e hin hx _ hm hp' he ρ'
    obtain ⟨k1, k2⟩ := key a ps pre eff p e hin hx hm hp' he ρ'
    exact ⟨k1.1, fun ⟨C, h, hn⟩ => ⟨C, (k2 C).1 h, hn⟩⟩
  · intro a _ ps pre eff p e hin hx _ hm hp' he ρ'
    obtain ⟨k1, k2⟩ := key a ps pre eff p e hin hx hm hp' he ρ'
    exact ⟨k1.2, fun ⟨C, h, hn⟩ => ⟨C, (k2 C).2 (hc _ _ _ _ hin) h, hn⟩⟩

/-- Steps one after the other, in one direction. -/
theorem stepByStep_imp {D α β : Type} {R : α → Interp D → Interp D → Prop} {S : β → Interp D → Interp D → Prop} {as : List α} {bs : List β}
    (h : List.Forall₂ (fun b a => ∀ I J, R a I J → S b I J) bs as) {I J : Interp D} (k : StepByStep R as I J) : StepByStep S bs I J := by
  induction h generalizing I with
  | nil => cases k; exact .nil
  | cons h _ ih =>
    cases k with
    | cons k1 k2 => exact .cons (h _ _ k1) (ih k2)

/-- Steps one after the other. -/
theorem stepByStep_rel {D α β : Type} {R : α → Interp D → Interp D → Prop} {S : β → Interp D → Interp D → Prop} {as : List α} {bs : List β}
    (h : List.Forall₂ (fun b a => ∀ I J, R a I J ↔ S b I J) bs as) {I J : Interp D} : StepByStep R as I J ↔ StepByStep S bs I J := by
  induction h generalizing I with
  | nil => constructor <;> (intro h; cases h; exact .nil)
  | cons h _ ih =>
    constructor
    · intro k
      cases k with
      | cons k1 k2 => exact .cons ((h _ _).1 k1) (ih.1 k2)
    · intro k
      cases k with
      | cons k1 k2 => exact .cons ((h _ _).2 k1) (ih.2 k2)

end Pddl
