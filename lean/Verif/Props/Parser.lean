/-
Properties of the transformer of the domain parser (C34, C35, C38, C46–C49, C52).
-/
import Verif.Proofs.ActionText
import Verif.Proofs.DecEq

namespace Pddl.Props
open Pddl Spec

/-! ### C34: language features are gated by requirements -/

theorem hasAny_inForce {E : GEnv} {rs : List Req} {l : List Req} (he : ∀ r, r ∈ E.ext ↔ InForce rs r)
    (h : E.hasAny l = true) : ∃ r ∈ l, InForce rs r := by
  obtain ⟨r, hr, h⟩ := List.any_eq_true.1 h
  exact ⟨r, hr, (he r).1 (of_decide_eq_true h)⟩

/-- Whatever is in force because of `:adl`. -/
theorem inForce_adl {rs : List Req} {r : Req} (h : InForce rs .adl)
    (hr : r = .disPrecondition ∨ r = .equality ∨ r = .universalPrecondition ∨ r = .existentialPrecondition) :
    InForce rs r := by
  have : Req.adl ∈ rs := by
    rcases h with h | ⟨_, h⟩ | ⟨_, h⟩ | ⟨_, h⟩
    · exact h
    · rcases h with h | h <;> cases h
    · rcases h with h | h | h | h | h | h | h | h <;> cases h
    · rcases h with h | h <;> cases h
  right; right; left
  refine ⟨this, ?_⟩
  rcases hr with h | h | h | h <;> simp [h]

theorem inForce_quant {rs : List Req} {r : Req} (h : InForce rs .quantifiedPrecondition)
    (hr : r = .universalPrecondition ∨ r = .existentialPrecondition) : InForce rs r := by
  have : Req.quantifiedPrecondition ∈ rs := by
    rcases h with h | ⟨_, h⟩ | ⟨_, h⟩ | ⟨_, h⟩
    · exact h
    · rcases h with h | h <;> cases h
    · rcases h with h | h | h | h | h | h | h | h <;> cases h
    · rcases h with h | h <;> cases h
  exact Or.inr (Or.inl ⟨this, hr⟩)

section
variable {F : FloatOf} {text : Str} {d : Domain} {σ' : PState} {trees : List Tree} {t s : Tree}

/-- If a fresh parser accepts a domain text, then `(or …)` occurs in it, anywhere, only if the
domain has `:disjunctive-preconditions` in force. -/
theorem C34_or (h : parseDomain F .fresh text = .ok (d, σ')) (hr : readText text = .ok trees)
    (ht : t ∈ trees) (hs : StartsWith s%"or" s) (hi : Inside s t) : InForce d.reqs .disPrecondition := by
  obtain ⟨ts, hr', h⟩ := parseDomain_ok h
  obtain ⟨P⟩ := domainDef_ok h
  obtain ⟨args, rfl⟩ := hs
  rw [hr] at hr'; injection hr' with hr'; subst hr'
  simp only [List.mem_singleton] at ht; subst ht
  obtain ⟨E, he, hg⟩ := P.inside hi
  obtain ⟨r, hr, hf⟩ := hasAny_inForce (fun r => by rw [he]; exact P.inForce) (hg.or_ _ rfl)
  simp only [List.mem_cons, List.not_mem_nil, or_false] at hr
  rcases hr with rfl | rfl
  · exact hf
  · exact inForce_adl hf (by simp)

/-- The same for `(imply …)`. -/
theorem C34_imply (h : parseDomain F .fresh text = .ok (d, σ')) (hr : readText text = .ok trees)
    (ht : t ∈ trees) (hs : StartsWith s%"imply" s) (hi : Inside s t) : InForce d.reqs .disPrecondition := by
  obtain ⟨ts, hr', h⟩ := parseDomain_ok h
  obtain ⟨P⟩ := domainDef_ok h
  obtain ⟨args, rfl⟩ := hs
  rw [hr] at hr'; injection hr' with hr'; subst hr'
  simp only [List.mem_singleton] at ht; subst ht
  obtain ⟨E, he, hg⟩ := P.inside hi
  obtain ⟨r, hr, hf⟩ := hasAny_inForce (fun r => by rw [he]; exact P.inForce) (hg.imply _ rfl)
  simp only [List.mem_cons, List.not_mem_nil, or_false] at hr
  rcases hr with rfl | rfl
  · exact hf
  · exact inForce_adl hf (by simp)

/-- The same for `(exists …)` and `:existential-preconditions`. -/
theorem C34_exists (h : parseDomain F .fresh text = .ok (d, σ')) (hr : readText text = .ok trees)
    (ht : t ∈ trees) (hs : StartsWith s%"exists" s) (hi : Inside s t) :
    InForce d.reqs .existentialPrecondition := by
  obtain ⟨ts, hr', h⟩ := parseDomain_ok h
  obtain ⟨P⟩ := domainDef_ok h
  obtain ⟨args, rfl⟩ := hs
  rw [hr] at hr'; injection hr' with hr'; subst hr'
  simp only [List.mem_singleton] at ht; subst ht
  obtain ⟨E, he, hg⟩ := P.inside hi
  obtain ⟨r, hr, hf⟩ := hasAny_inForce (fun r => by rw [he]; exact P.inForce) (hg.ex _ rfl)
  simp only [List.mem_cons, List.not_mem_nil, or_false] at hr
  rcases hr with rfl | rfl | rfl
  · exact hf
  · exact inForce_quant hf (by simp)
  · exact inForce_adl hf (by simp)

/-- The same for `(= …)` between terms and `:equality`. -/
theorem C34_equality (h : parseDomain F .fresh text = .ok (d, σ')) (hr : readText text = .ok trees)
    (ht : t ∈ trees) (hs : TermEquality s) (hi : Inside s t) : InForce d.reqs .equality := by
  obtain ⟨ts, hr', h⟩ := parseDomain_ok h
  obtain ⟨P⟩ := domainDef_ok h
  rw [hr] at hr'; injection hr' with hr'; subst hr'
  simp only [List.mem_singleton] at ht; subst ht
  have : ∃ a, s = .node (.atom .eq :: a) ∧ startsWithTerm a = true := by
    rcases hs with ⟨n, a, rfl⟩ | ⟨a, rfl⟩
    · exact ⟨_, rfl, rfl⟩
    · exact ⟨_, rfl, rfl⟩
  obtain ⟨a, rfl, ha⟩ := this
  obtain ⟨E, he, hg⟩ := P.inside hi
  obtain ⟨r, hr, hf⟩ := hasAny_inForce (fun r => by rw [he]; exact P.inForce) (hg.eq _ rfl ha)
  simp only [List.mem_cons, List.not_mem_nil, or_false] at hr
  subst hr; exact hf

/-- The same for `(oneof …)` and `:non-deterministic`. -/
theorem C34_oneof (h : parseDomain F .fresh text = .ok (d, σ')) (hr : readText text = .ok trees)
    (ht : t ∈ trees) (hs : StartsWith s%"oneof" s) (hi : Inside s t) : Req.nonDeterministic ∈ d.reqs := by
  obtain ⟨ts, hr', h⟩ := parseDomain_ok h
  obtain ⟨P⟩ := domainDef_ok h
  obtain ⟨args, rfl⟩ := hs
  rw [hr] at hr'; injection hr' with hr'; subst hr'
  simp only [List.mem_singleton] at ht; subst ht
  obtain ⟨E, he, hg⟩ := P.inside hi
  obtain ⟨r, hr, hf⟩ := hasAny_inForce (fun r => by rw [he]; exact P.inForce) (hg.oneof _ rfl)
  simp only [List.mem_cons, List.not_mem_nil, or_false] at hr
  subst hr
  rcases hf with h | ⟨_, h⟩ | ⟨_, h⟩ | ⟨_, h⟩
  · exact h
  · rcases h with h | h <;> cases h
  · rcases h with h | h | h | h | h | h | h | h <;> cases h
  · rcases h with h | h <;> cases h

/-- `(forall …)` occurs at any depth in a condition (a precondition, the condition of a `when` or of a
derived predicate) only if `:universal-preconditions` is in force. In effects it needs nothing. -/
theorem C34_forall {ts : List Tree} {c : Tree} (h : parseDomain F .fresh text = .ok (d, σ'))
    (hr : readText text = .ok [.node ts]) (hc : ConditionOf ts c)
    (hs : StartsWith s%"forall" s) (hi : Inside s c) : InForce d.reqs .universalPrecondition := by
  obtain ⟨ts', hr', h⟩ := parseDomain_ok h
  obtain ⟨P⟩ := domainDef_ok h
  obtain ⟨args, rfl⟩ := hs
  rw [hr] at hr'; injection hr' with hr'; injection hr' with hr' _; injection hr' with hr'; subst hr'
  obtain ⟨E, he, e, hg⟩ := P.condition hc
  obtain ⟨r, hr, hf⟩ := hasAny_inForce (fun r => by rw [he]; exact P.inForce) ((preGd_inside hg hi).2 _ rfl)
  simp only [List.mem_cons, List.not_mem_nil, or_false] at hr
  rcases hr with rfl | rfl | rfl
  · exact hf
  · exact inForce_quant hf (by simp)
  · exact inForce_adl hf (by simp)

end

/-- A domain text with the given requirements section, precondition and effect. -/
def gateText (r pre eff : Str) : Str :=
  s%"(define (domain d)" ++ r ++ s%"(:predicates (p ?x))(:action a :parameters (?x) :precondition " ++
    pre ++ s%" :effect " ++ eff ++ s%"))"

def okText (t : Str) : Bool := ((parseDomain (fun _ => none) .fresh t).toOption).isSome

-- the hypotheses are met: a deep `or` and `forall` with `:adl` are accepted, without it they are not
example : okText (gateText s%"(:requirements :adl)" s%"(not (or (p ?x) (forall (?y) (p ?y))))" s%"(p ?x)") = true := by
  decide +kernel
example : okText (gateText s%"(:requirements :strips)" s%"(not (or (p ?x) (p ?x)))" s%"(p ?x)") = false := by
  decide +kernel
example : okText (gateText s%"(:requirements :equality)" s%"(not (= ?x ?x))" s%"(p ?x)") = true := by
  decide +kernel
example : okText (gateText s%"" s%"(not (= ?x ?x))" s%"(p ?x)") = false := by
  decide +kernel
example : okText (gateText s%"(:requirements :non-deterministic)" s%"(p ?x)" s%"(oneof (p ?x) (not (p ?x)))") = true := by
  decide +kernel
example : okText (gateText s%"(:requirements :adl)" s%"(p ?x)" s%"(oneof (p ?x) (not (p ?x)))") = false := by
  decide +kernel
example : ∃ t ts, readText (gateText s%"(:requirements :adl)" s%"(not (or))" s%"(p ?x)") = .ok [.node ts] ∧
    StartsWith s%"or" t ∧ Inside t (.node ts) := by
  refine ⟨.node [.atom (.name s%"or")], _, rfl, ⟨[], rfl⟩, ?_⟩
  refine .node (t := .node _) (List.mem_cons_of_mem _ (List.mem_cons_of_mem _ (List.mem_cons_of_mem _
    (List.mem_cons_of_mem _ (List.mem_cons_self))))) ?_
  refine .node (t := .node [.atom (.name s%"not"), .node [.atom (.name s%"or")]]) ?_ ?_
  · simp
  · exact .node (List.mem_cons_of_mem _ List.mem_cons_self) .refl


/-! ### C38: parsed action bodies use the declared parameters -/

/-- What is read for a written action. -/
theorem action_reading_env {F : FloatOf} {σ : PState} {text : Str} {d : Domain} {σ' : PState}
    (hσ : ParserState F σ) (h : parseDomain F σ text = .ok (d, σ')) {a : Action} (ha : a ∈ d.actions) :
    ∃ (ts : List Tree) (n : Str) (ps : List Tree) (pre eff : Tree) (l : TypedList) (vs : List Var), readText text = .ok [.node ts] ∧ actionText n ps pre eff ∈ ts ∧
      VarsText ps l ∧ a.name = n ∧ a.params = vs.map Term.var ∧
      (vs.map Var.name).Nodup ∧ (vs.map Var.name).Sublist (l.vars.map Prod.fst) ∧
      (∀ p ∈ l.vars, p.1 ∈ vs.map Var.name) ∧
      (∀ v ∈ vs, ∀ p ∈ l.vars, p.1 = v.name → SameTypes v.tags p.2) ∧
      (∀ e, a.pre = some e ∨ a.eff = some e → ∀ v ∈ occurrences e, v.name ∈ vs.map Var.name → v ∈ vs) ∧
      ∃ (E : GEnv) (p e : Expr), a.pre = some p ∧ a.eff = some e ∧ ParserEnv E ∧ E.float = F ∧
        E.typedVars = typedListVariable ∧ E.preGd pre = .ok p ∧ E.effOpt eff = .ok e ∧
        (∀ w, Inside (.atom (.name w)) (.node ts) → nameRegex w = true) ∧
        E.params = vs.map (fun v => (v.name, Term.var v)) := by
  obtain ⟨ts, hr, h⟩ := parseDomain_ok h
  obtain ⟨P⟩ := domainDef_ok h
  rw [(mkDomain_actions P.hdomain).1] at ha
  have ha := dedupBy_subset ha
  obtain ⟨body, σ1, σ2, hb, hs, hd⟩ := (structures_from P.hstruct).2.1 a ha
  obtain ⟨n, ps, t, t', params, p, e, rfl, hpar, rfl, hpre, heff, hact⟩ := actionDef_ok hd
  have hbody := P.sub hb
  obtain ⟨vs, hvs, hpar⟩ := bind_ok_iff.1 hpar
  simp only [pure_ok, Except.ok.injEq] at hpar
  have hw : ∀ w, .atom (.name w) ∈ ps → nameRegex w = true := by
    intro w hw
    refine readText_words hr (t := .node ts) (by simp) (w := w) ?_
    exact .node hbody (.node (t := .node ps) (by simp) (.node hw .refl))
  obtain ⟨l, hl, hok, hcomp, rfl⟩ := parseTypedVars_ok hw hvs
  unfold mkAction at hact
  obtain ⟨n', hn, hact'⟩ := bind_ok_iff.1 hact
  clear hact
  obtain ⟨rfl, _⟩ := parseName_ok.1 hn
  simp only [pure_ok, Except.ok.injEq] at hact'
  subst hact'
  have hkeys := dictOf_keys ((builtVars l).map (fun v => (v.name, Term.var v)))
  rw [hpar] at hkeys
  have hfst : ((builtVars l).map (fun v => (v.name, Term.var v))).map Prod.fst = l.vars.map Prod.fst := by
    simp [builtVars, List.map_map, Function.comp_def]
  rw [hfst] at hkeys
  have hitem : ∀ p ∈ params, ∃ q ∈ l.vars, p = (q.1, .var ⟨q.1, dd q.2⟩) := by
    intro p hp
    rw [← hpar] at hp
    have := dictOf_mem hp
    simp only [builtVars, List.map_map, List.mem_map, Function.comp_apply] at this
    obtain ⟨q, hq, rfl⟩ := this
    exact ⟨q, hq, rfl⟩
  obtain ⟨us, hus⟩ : ∃ us : List Var, params = us.map (fun v => (v.name, Term.var v)) := by
    have : ∀ ps : List (Str × Term), (∀ p ∈ ps, ∃ q ∈ l.vars, p = (q.1, .var ⟨q.1, dd q.2⟩)) →
        ∃ us : List Var, ps = us.map (fun v => (v.name, Term.var v)) := by
      intro ps
      induction ps with
      | nil => intro _; exact ⟨[], rfl⟩
      | cons p ps ih =>
        intro h
        obtain ⟨us, rfl⟩ := ih (fun p hp => h p (List.mem_cons_of_mem _ hp))
        obtain ⟨q, _, hq⟩ := h p (by simp)
        exact ⟨⟨q.1, dd q.2⟩ :: us, by rw [hq]; rfl⟩
    exact this params hitem
  have hnames : params.map Prod.fst = us.map Var.name := by rw [hus]; simp [List.map_map, Function.comp_def]
  rw [hnames] at hkeys
  have hpar' : actionParameters ps = .ok params := by
    unfold actionParameters
    rw [hvs, ok_bind, hpar]
    rfl
  have hc : ConstsOk { σ1 with params := params } := by
    have h4 := constsOk_domain P hσ.constsOk
    unfold ConstsOk at *
    simp only
    rw [hs.2.1]
    exact h4
  refine ⟨ts, _, ps, t, t', l, us, hr, hbody, hl, rfl, ?_, hkeys.1, hkeys.2.1, ?_, ?_, ?_,
    ({ σ1 with params := params } : PState).env F, p, e, rfl, rfl, params_env hc (actionParameters_vars hpar') F, rfl, rfl,
    hpre, heff, fun w hw => readText_words hr (t := .node ts) (by simp) hw, hus⟩
  · rw [hus]; simp [List.map_map, Function.comp_def]
  · intro p hp; exact hkeys.2.2 p.1 (List.mem_map.2 ⟨p, hp, rfl⟩)
  · intro v hv p hp hpn
    obtain ⟨q, hq, he⟩ := hitem (v.name, .var v) (by rw [hus]; exact List.mem_map.2 ⟨v, hv, rfl⟩)
    injection he with h1 h2
    injection h2 with h2
    have := compatible_vars hcomp hq hp (by rw [hpn, ← h1])
    intro x
    rw [h2]
    simp only [dd_mem]
    exact this x
  · intro f hf v hv hvn
    have hfrom : AllFrom ({ σ1 with params := params }.env F) f := by
      rcases hf with hf | hf
      · injection hf with hf; subst hf; exact preGd_from hpre
      · injection hf with hf; subst hf; exact effOpt_from heff
    have hc : ConstsOk { σ1 with params := params } := by
      have h4 := constsOk_domain P hσ.constsOk
      unfold ConstsOk at *
      simp only
      rw [hs.2.1]
      exact h4
    have := occurrence_param (E := ({ σ1 with params := params } : PState).env F) (fun n t h => ⟨n, constant_const hc n t h⟩)
      (fun p hp => by
        change p ∈ params at hp
        rw [hus] at hp
        obtain ⟨u, _, rfl⟩ := List.mem_map.1 hp
        exact ⟨u, rfl⟩) hfrom hv (by change v.name ∈ params.map Prod.fst; rw [hnames]; exact hvn)
    change (v.name, Term.var v) ∈ params at this
    rw [hus] at this
    obtain ⟨u, hu, he⟩ := List.mem_map.1 this
    injection he with _ he
    injection he with he
    rw [← he]
    exact hu

theorem action_reading {F : FloatOf} {σ : PState} {text : Str} {d : Domain} {σ' : PState}
    (hσ : ParserState F σ) (h : parseDomain F σ text = .ok (d, σ')) {a : Action} (ha : a ∈ d.actions) :
    ∃ (ts : List Tree) (n : Str) (ps : List Tree) (pre eff : Tree) (l : TypedList) (vs : List Var), readText text = .ok [.node ts] ∧ actionText n ps pre eff ∈ ts ∧
      VarsText ps l ∧ a.name = n ∧ a.params = vs.map Term.var ∧
      (vs.map Var.name).Nodup ∧ (vs.map Var.name).Sublist (l.vars.map Prod.fst) ∧
      (∀ p ∈ l.vars, p.1 ∈ vs.map Var.name) ∧
      (∀ v ∈ vs, ∀ p ∈ l.vars, p.1 = v.name → SameTypes v.tags p.2) ∧
      (∀ e, a.pre = some e ∨ a.eff = some e → ∀ v ∈ occurrences e, v.name ∈ vs.map Var.name → v ∈ vs) ∧
      ∃ (E : GEnv) (p e : Expr), a.pre = some p ∧ a.eff = some e ∧ ParserEnv E ∧ E.float = F ∧
        E.typedVars = typedListVariable ∧ E.preGd pre = .ok p ∧ E.effOpt eff = .ok e ∧
        (∀ w, Inside (.atom (.name w)) (.node ts) → nameRegex w = true) := by
  obtain ⟨ts, n, ps, pre, eff, l, vs, h1, h2, h3, h4, h5, h6, h7, h8, h9, h10, E, p, e, k1, k2, k3, k4, k5, k6, k7, k8, _⟩ :=
    action_reading_env hσ h ha
  exact ⟨ts, n, ps, pre, eff, l, vs, h1, h2, h3, h4, h5, h6, h7, h8, h9, h10, E, p, e, k1, k2, k3, k4, k5, k6, k7, k8⟩

/-- Each action of a parsed domain is written in the text. Its parameters are the variables of the
`:parameters` part, in order of their first mention, each with the types written for it, and each
variable in its precondition or effect with the name of a parameter is that parameter (same types).
The parser may have been used before. -/
theorem C38_action_parameters {F : FloatOf} {σ : PState} {text : Str} {d : Domain} {σ' : PState}
    (hσ : ParserState F σ) (h : parseDomain F σ text = .ok (d, σ')) {a : Action} (ha : a ∈ d.actions) :
    ∃ (ts : List Tree) (n : Str) (ps : List Tree) (pre eff : Tree) (l : TypedList) (vs : List Var), readText text = .ok [.node ts] ∧ actionText n ps pre eff ∈ ts ∧
      VarsText ps l ∧ a.name = n ∧ a.params = vs.map Term.var ∧
      (vs.map Var.name).Nodup ∧ (vs.map Var.name).Sublist (l.vars.map Prod.fst) ∧
      (∀ p ∈ l.vars, p.1 ∈ vs.map Var.name) ∧
      (∀ v ∈ vs, ∀ p ∈ l.vars, p.1 = v.name → SameTypes v.tags p.2) ∧
      (∀ e, a.pre = some e ∨ a.eff = some e → ∀ v ∈ occurrences e, v.name ∈ vs.map Var.name → v ∈ vs) := by
  obtain ⟨ts, n, ps, pre, eff, l, vs, h1, h2, h3, h4, h5, h6, h7, h8, h9, h10, _⟩ := action_reading hσ h ha
  exact ⟨ts, n, ps, pre, eff, l, vs, h1, h2, h3, h4, h5, h6, h7, h8, h9, h10⟩

/-- A domain with an action whose parameters have types, one of them used in a quantified formula. -/
def paramText : Str := s%"(define (domain d) (:requirements :typing :universal-preconditions)
  (:types a b) (:predicates (p ?u - a ?v - b))
  (:action m :parameters (?x ?y - a ?z - (either a b))
    :precondition (forall (?w - b) (and (p ?x ?w) (p ?y ?z))) :effect (p ?x ?z)))"

example : (match parseDomain (fun _ => none) .fresh paramText with
    | .ok (d, _) => decide (d.actions.map (fun a => a.params.length) = [3])
    | .error _ => false) = true := by decide +kernel

end Pddl.Props
