/-
C75: an accepted domain uses only what it declares.
-/
import Verif.Proofs.Declared
import Verif.Props.Parser
import Verif.Props.Problem
import Verif.Props.Ground
import Verif.Props.History
import Verif.Proofs.Written

namespace Pddl.Props
open Pddl Pddl.Spec

/-- C75. In a domain read by a new parser, the actions and the conditions of the derived predicates use only declared
constants, predicates and functions (with the declared number of arguments), and no variables but the parameters
(the variables of the head) and those bound by a quantifier. -/
def C75_full : Prop :=
  ∀ (F : FloatOf) (text : Str) (d : Domain) (σ' : PState), parseDomain F .fresh text = .ok (d, σ') →
    (∀ a ∈ d.actions, ∀ e, PartOf a e → UsesDeclared d a.params e) ∧
    (∀ x ∈ d.derived, UsesDeclared d x.pred.terms x.cond)

/-- The constants the parser knows while reading actions and derived predicates are the declared ones, if the text has
a section `:constants` or the parser knew none before. -/
theorem consts_known {F : FloatOf} {σ σ' : PState} {ts : List Tree} {d : Domain} (P : DomainParse F σ ts d σ')
    (h : σ.consts = [] ∨ P.r3 ≠ none) : ∀ p ∈ P.σ4.consts, p.2 ∈ d.constants := by
  have h1 : P.σ1.consts = σ.consts := by
    rcases P.hreqs with ⟨_, _, h⟩ | ⟨b, _, _, h⟩ <;> rw [h]
  have h2 : P.σ2.consts = P.σ1.consts := by
    rcases P.htypes with ⟨_, _, h⟩ | ⟨b, _, h⟩
    · rw [h]
    · unfold sectionTypes at h
      obtain ⟨_, _, h⟩ := bind_ok_iff.1 h
      obtain ⟨_, _, h⟩ := bind_ok_iff.1 h
      obtain ⟨_, _, h⟩ := bind_ok_iff.1 h
      simp only [pure_ok, Except.ok.injEq, Prod.mk.injEq] at h
      rw [← h.2]
  have h4 : P.σ4.consts = P.σ3.consts := by
    rcases P.hpreds with ⟨_, _, h⟩ | ⟨b, _, h⟩
    · rw [h]
    · unfold sectionPredicates at h
      obtain ⟨_, _, h⟩ := bind_ok_iff.1 h
      obtain ⟨_, _, h⟩ := bind_ok_iff.1 h
      simp only [pure_ok, Except.ok.injEq, Prod.mk.injEq] at h
      rw [← h.2]
  have hd : d.constants = dedupBy Term.pyEq P.consts := by
    have h := P.hdomain
    unfold mkDomain at h
    obtain ⟨_, _, h⟩ := bind_ok_iff.1 h
    obtain ⟨_, _, h⟩ := bind_ok_iff.1 h
    obtain ⟨_, _, h⟩ := bind_ok_iff.1 h
    obtain ⟨_, _, h⟩ := bind_ok_iff.1 h
    simp only [pure_ok, Except.ok.injEq] at h
    exact (congrArg Domain.constants h).symm
  rw [h4, hd]
  rcases P.hconsts with ⟨hr, _, h3⟩ | ⟨b, _, h3⟩
  · rcases h with h | h
    · rw [h3, h2, h1, h]; simp
    · exact absurd hr h
  · have hok := constsOk_section h3
    unfold sectionConstants at h3
    obtain ⟨_, _, h3⟩ := bind_ok_iff.1 h3
    obtain ⟨cs, _, h3⟩ := bind_ok_iff.1 h3
    simp only [pure_ok, Except.ok.injEq, Prod.mk.injEq] at h3
    have hk := (dictOf_keys cs).1
    rw [show dictOf cs = P.σ3.consts by rw [← h3.2]] at hk
    have hm : P.consts = P.σ3.consts.map Prod.snd := by rw [← h3.1, ← h3.2]
    have hn : P.consts.Pairwise (fun a b => b.pyEq a = false) := by
      rw [hm, List.pairwise_map]
      rw [List.Nodup, List.pairwise_map] at hk
      refine hk.imp_of_mem ?_
      intro p q hp hq hpq
      obtain ⟨tp, ep⟩ := hok p hp
      obtain ⟨tq, eq⟩ := hok q hq
      rw [ep, eq]
      simp only [Term.pyEq, decide_eq_false_iff_not]
      exact fun e => hpq e.symm
    rw [dedupBy_eq_self hn, hm]
    exact fun p hp => List.mem_map_of_mem hp

/-- The constants in a formula that was read are known to the parser. -/
theorem known_const {σ : PState} {F : FloatOf} (hp : ParamsOk σ) {n : Str} {tag : Option Str} {e : Expr}
    (h : AllFrom (σ.env F) e) (hu : UsesConst n tag e) : ∃ k, (k, Term.const n tag) ∈ σ.consts := by
  obtain ⟨a, ha, ht⟩ := hu
  rcases h a ha _ ht with ⟨k, h⟩ | ⟨k, h⟩
  · change σ.constant k = _ at h
    unfold PState.constant at h
    split at h
    · next t ht =>
      injection h with h
      rw [h] at ht
      exact ⟨k, mem_of_dictGet ht⟩
    · cases h
  · exfalso
    unfold GEnv.variable at h
    split at h
    · next t ht =>
      injection h with h
      rw [h] at ht
      obtain ⟨v, e, _⟩ := hp _ (mem_of_dictGet ht)
      injection e with _ e
      cases e
    · obtain ⟨v, _, h⟩ := bind_ok_iff.1 h
      injection h with h
      cases h

/-- The constants used by an accepted domain are declared, with the same types, if the parser is new or the text has a
section `:constants`. -/
theorem C75_constants {F : FloatOf} {σ σ' : PState} {text : Str} {ts : List Tree} {d : Domain} (hσ : ParserState F σ)
    (h : parseDomain F σ text = .ok (d, σ')) (hr : readText text = .ok [.node ts])
    (hc : σ = .fresh ∨ HasSection s%"constants" ts) :
    (∀ a ∈ d.actions, ∀ e, PartOf a e → ConstsDeclared d e) ∧ (∀ x ∈ d.derived, ConstsDeclared d x.cond) := by
  obtain ⟨ts', hr', h⟩ := parseDomain_ok h
  rw [hr'] at hr
  injection hr with hr
  injection hr with hr
  injection hr with hr
  subst hr
  obtain ⟨P⟩ := domainDef_ok h
  have hknown : ∀ p ∈ P.σ4.consts, p.2 ∈ d.constants := by
    refine consts_known P ?_
    rcases hc with rfl | hc
    · exact .inl rfl
    · right
      intro hr3
      obtain ⟨w, x, he, hk, hx⟩ := header_ok P.hheader
      have h0 : HasSection s%"constants" P.ts0 := by
        obtain ⟨b, hb⟩ := hc
        refine ⟨b, ?_⟩
        have hb' := (congrArg (fun l => Tree.node (.atom (.kw s%"constants") :: b) ∈ l) he).mp hb
        simp only [List.mem_cons, reduceCtorEq, Tree.node.injEq, false_or] at hb'
        rcases hb' with hb' | hb'
        · rcases hx with ⟨rfl, _⟩ | ⟨rfl, _⟩ <;> simp at hb'
        · exact hb'
      have h3 := hasSection_take (by decide) P.h2 (hasSection_take (by decide) P.h1 h0)
      have e3 := P.h3
      rw [hr3] at e3
      rw [takeSection_none e3] at h3
      obtain ⟨b, hb⟩ := hasSection_take (by decide) P.h5 (hasSection_take (by decide) P.h4 h3)
      rcases structures_mem P.hstruct hb with ⟨_, _, _, _, e, _⟩ | ⟨_, _, _, e, _⟩ <;>
        simp only [Tree.node.injEq, List.cons.injEq, Tree.atom.injEq, Tok.kw.injEq] at e <;>
        exact absurd e.1 (by decide)
  have hp4 : ParamsOk P.σ4 := by unfold ParamsOk; rw [P.params4]; exact hσ.paramsOk
  have hd := mkDomain_actions P.hdomain
  constructor
  · intro a ha e he n tag hu
    rw [hd.1] at ha
    obtain ⟨body, σ1, σ2, _, hs, hdef⟩ := (structures_from P.hstruct).2.1 a (dedupBy_subset ha)
    obtain ⟨m, ps, t, t', params, p, e', rfl, hpar, rfl, hpre, heff, hact⟩ := actionDef_ok hdef
    unfold mkAction at hact
    obtain ⟨_, _, hact⟩ := bind_ok_iff.1 hact
    simp only [pure_ok, Except.ok.injEq] at hact
    subst hact
    have hfrom : AllFrom ({ σ1 with params := params }.env F) e := by
      rcases he with he | he
      · injection he with he; subst he; exact preGd_from hpre
      · injection he with he; subst he; exact effOpt_from heff
    obtain ⟨k, hk⟩ := known_const (σ := { σ1 with params := params }) (fun q hq => by
      obtain ⟨v, hv⟩ := actionParameters_vars hpar q hq
      exact ⟨v, hv⟩) hfrom hu
    change _ ∈ σ1.consts at hk
    rw [hs.2.1] at hk
    exact hknown _ hk
  · intro x hx n tag hu
    rw [hd.2] at hx
    obtain ⟨body, σ1, _, hs, hp1, hdef⟩ := (structures_all P.hstruct hp4).2.2 x (dedupBy_subset hx)
    obtain ⟨t, c, head, cond, rfl, _, hgd, hder⟩ := derivedDef_ok hdef
    have hu' : UsesConst n tag cond := by
      unfold derivedPredicate at hder
      split at hder
      · cases hder
      · split at hder
        · cases hder
        · obtain ⟨env, _, hder⟩ := bind_ok_iff.1 hder
          obtain ⟨_, _, hder⟩ := bind_ok_iff.1 hder
          obtain ⟨_, _, hder⟩ := bind_ok_iff.1 hder
          obtain ⟨c', hup, hder⟩ := bind_ok_iff.1 hder
          injection hder with hder
          subst hder
          exact update_consts hup hu
    obtain ⟨k, hk⟩ := known_const hp1 (gd_rel hgd).from hu'
    rw [hs.2.1] at hk
    exact hknown _ hk

/-- What holds of C75: the constants are declared. -/
theorem C75_partial {F : FloatOf} {text : Str} {d : Domain} {σ' : PState} (h : parseDomain F .fresh text = .ok (d, σ')) :
    (∀ a ∈ d.actions, ∀ e, PartOf a e → ConstsDeclared d e) ∧ (∀ x ∈ d.derived, ConstsDeclared d x.cond) := by
  obtain ⟨ts, hr, _⟩ := parseDomain_ok h
  exact C75_constants .fresh h hr (.inl rfl)

/-- A text with one action with the given precondition. -/
def useText (pre : Str) : Str := s%"(define (domain d) (:requirements :strips :numeric-fluents) (:constants k)
  (:predicates (p ?u)) (:functions (f ?u)) (:action m :parameters (?x) :precondition " ++ pre ++ s%" :effect (p ?x)))"

/-- The text is accepted by a new parser, and the precondition of its action is the given formula. -/
theorem use_accepted {pre : Str} {e : Expr}
    (h0 : (match parseDomain (fun _ => none) .fresh (useText pre) with
      | .ok (d, _) => decide (d.actions = [⟨s%"m", [.var ⟨s%"x", []⟩], some e, some (.pred ⟨s%"p", [.var ⟨s%"x", []⟩]⟩)⟩] ∧
        d.predicates.map (fun p => (p.name, p.terms.length)) = [(s%"p", 1)] ∧
        d.functions.map (fun p => (p.1.name, p.1.terms.length)) = [(s%"f", 1)])
      | .error _ => false) = true) :
    ∃ d σ' a, parseDomain (fun _ => none) .fresh (useText pre) = .ok (d, σ') ∧ a ∈ d.actions ∧ PartOf a e ∧
      a.params = [.var ⟨s%"x", []⟩] ∧
      (∀ p ∈ d.predicates, p.name = s%"p" ∧ p.terms.length = 1) ∧
      (∀ p ∈ d.functions, p.1.name = s%"f" ∧ p.1.terms.length = 1) := by
  cases h : parseDomain (fun _ => none) .fresh (useText pre) with
  | error e => rw [h] at h0; cases h0
  | ok r =>
    obtain ⟨d, σ'⟩ := r
    rw [h] at h0
    simp only [decide_eq_true_eq] at h0
    obtain ⟨h1, h2, h3⟩ := h0
    refine ⟨d, σ', _, rfl, by rw [h1]; exact List.mem_singleton.2 rfl, .inl rfl, rfl, ?_, ?_⟩
    · intro p hp
      have := List.mem_map_of_mem (f := fun p : Pred => (p.name, p.terms.length)) hp
      rw [h2] at this
      simpa using this
    · intro p hp
      have := List.mem_map_of_mem (f := fun p : NFun × Option Str => (p.1.name, p.1.terms.length)) hp
      rw [h3] at this
      simpa using this

/-- `(q ?x)` is accepted though no predicate `q` is declared: C75 is false. -/
theorem C75_fails : ¬ C75_full := by
  intro hf
  obtain ⟨d, σ', a, h, ha, he, _, hp, _⟩ := use_accepted (pre := s%"(q ?x)") (e := .pred ⟨s%"q", [.var ⟨s%"x", []⟩]⟩)
    (by decide +kernel)
  obtain ⟨q, hq, e, _⟩ := ((hf _ _ _ _ h).1 a ha _ he).preds _ (List.mem_singleton.2 rfl)
  rw [(hp q hq).1] at e
  exact absurd e (by decide)

/-- `(p ?x ?x)` is accepted though `p` has one argument. -/
theorem C75_arity_fails : ∃ d σ' a e, parseDomain (fun _ => none) .fresh (useText s%"(p ?x ?x)") = .ok (d, σ') ∧
    a ∈ d.actions ∧ PartOf a e ∧ ¬ PredsDeclared d e := by
  obtain ⟨d, σ', a, h, ha, he, _, hp, _⟩ := use_accepted (pre := s%"(p ?x ?x)")
    (e := .pred ⟨s%"p", [.var ⟨s%"x", []⟩, .var ⟨s%"x", []⟩]⟩) (by decide +kernel)
  refine ⟨d, σ', a, _, h, ha, he, fun hd => ?_⟩
  obtain ⟨q, hq, _, e⟩ := hd _ (List.mem_singleton.2 rfl)
  rw [(hp q hq).2] at e
  exact absurd e (by decide)

/-- `(> (g ?x) 1)` is accepted though no function `g` is declared. -/
theorem C75_function_fails : ∃ d σ' a e, parseDomain (fun _ => none) .fresh (useText s%"(> (g ?x) 1)") = .ok (d, σ') ∧
    a ∈ d.actions ∧ PartOf a e ∧ ¬ FunsDeclared d e := by
  obtain ⟨d, σ', a, h, ha, he, _, _, hp⟩ := use_accepted (pre := s%"(> (g ?x) 1)")
    (e := .bfun .gt [.nfun ⟨s%"g", [.var ⟨s%"x", []⟩]⟩, .num (.int 1)]) (by decide +kernel)
  refine ⟨d, σ', a, _, h, ha, he, fun hd => ?_⟩
  obtain ⟨q, hq, e, _⟩ := hd ⟨s%"g", [.var ⟨s%"x", []⟩]⟩ (by simp [funsIn, funsInAll])
  rw [(hp q hq).1] at e
  exact absurd e (by decide)

/-- `(p ?z)` is accepted though `?z` is not a parameter and not bound. -/
theorem C75_variable_fails : ∃ d σ' a e, parseDomain (fun _ => none) .fresh (useText s%"(p ?z)") = .ok (d, σ') ∧
    a ∈ d.actions ∧ PartOf a e ∧ ¬ ClosedBy (a.params.map Term.name) e := by
  obtain ⟨d, σ', a, h, ha, he, hp, _⟩ := use_accepted (pre := s%"(p ?z)") (e := .pred ⟨s%"p", [.var ⟨s%"z", []⟩]⟩)
    (by decide +kernel)
  refine ⟨d, σ', a, _, h, ha, he, fun hd => ?_⟩
  have := hd ⟨s%"z", []⟩ (by simp [freeVars, varOf])
  rw [hp] at this
  exact absurd this (by decide)

/-- A text without constants that uses one. -/
def borrowText : Str := s%"(define (domain d) (:requirements :strips) (:predicates (p ?u))
  (:action m :parameters () :precondition (p k) :effect (p k)))"

/-- A parser that was used before still knows the constants of the other text: then the text above is accepted,
though it declares no constant `k`. -/
theorem C75_used_fails : ∃ σ d σ' a e, ParserState (fun _ => none) σ ∧
    parseDomain (fun _ => none) σ borrowText = .ok (d, σ') ∧ a ∈ d.actions ∧ PartOf a e ∧ ¬ ConstsDeclared d e := by
  have h0 : (match parseDomain (fun _ => none) .fresh (useText s%"(p ?x)") with
    | .ok (_, σ) => match parseDomain (fun _ => none) σ borrowText with
      | .ok (d, _) => decide (d.actions = [⟨s%"m", [], some (.pred ⟨s%"p", [.const s%"k" none]⟩),
          some (.pred ⟨s%"p", [.const s%"k" none]⟩)⟩] ∧ d.constants = [])
      | .error _ => false
    | .error _ => false) = true := by decide +kernel
  cases h : parseDomain (fun _ => none) .fresh (useText s%"(p ?x)") with
  | error e => rw [h] at h0; cases h0
  | ok r =>
    obtain ⟨d1, σ⟩ := r
    rw [h] at h0
    simp only at h0
    cases h2 : parseDomain (fun _ => none) σ borrowText with
    | error e => rw [h2] at h0; cases h0
    | ok r =>
      obtain ⟨d, σ'⟩ := r
      rw [h2] at h0
      simp only [decide_eq_true_eq] at h0
      refine ⟨σ, d, σ', _, .pred ⟨s%"p", [.const s%"k" none]⟩, .parsed .fresh h, h2,
        by rw [h0.1]; exact List.mem_singleton.2 rfl, .inl rfl, fun hd => ?_⟩
      have := hd s%"k" none ⟨_, List.mem_singleton.2 rfl, by simp⟩
      rw [h0.2] at this
      cases this

/-- Ground actions of a plan that was checked: every constant is an object of the problem or a constant of the domain,
and if the action has no free variables but its parameters, the ground action has none. -/
theorem C75_ground {F : FloatOf} {text : Str} {d : Domain} {σ' : PState} {pr : Problem} {plan : Plan} {gs : List Action}
    (h : parseDomain F .fresh text = .ok (d, σ')) (hc : plan.check d pr = .ok ()) (hi : plan.inst d = .ok gs)
    (hargs : ∀ s ∈ plan.steps, ∀ t ∈ s.2, ∃ n tag, t = .const n tag) : ∀ g ∈ gs, ∀ e, PartOf g e →
    (∀ n tag, UsesConst n tag e → ∃ o ∈ pr.objects ++ d.constants, o.name = n) ∧
    ((∀ a ∈ d.actions, ∀ f, PartOf a f → ClosedBy (a.params.map Term.name) f) → freeVars e = []) := by
  intro g hg e he
  obtain ⟨s, hs, a, hl, hinst⟩ := forall2_mem (instSteps_ok.mp hi) g hg
  obtain ⟨ha, _⟩ := lastNamed_mem hl
  obtain ⟨a', hl', hlen, hobj⟩ := planCheck_ok.mp hc s hs
  rw [hl] at hl'
  injection hl' with hl'
  subst hl'
  obtain ⟨ts, n, ps, pre, eff, l, vs, hr, hin, hvt, hn, hps, hnd, hsub, hall, -, hocc, -⟩ := action_reading .fresh h ha
  have hlen' : s.2.length = vs.length := by rw [hlen, hps, List.length_map]
  have hm : ToConstants (Mapping.ofZip a.params s.2) := fun q hq => hargs s hs _ (ofZip_values _ _ q hq)
  obtain ⟨f, hf, hfe⟩ : ∃ f, PartOf a f ∧ f.inst (Mapping.ofZip a.params s.2) = .ok e := by
    unfold Action.inst at hinst
    split at hinst
    · cases hinst
    · simp only [] at hinst
      obtain ⟨gpre, h1, hinst⟩ := bind_ok_iff.1 hinst
      obtain ⟨geff, h2, hinst⟩ := bind_ok_iff.1 hinst
      unfold mkAction at hinst
      obtain ⟨_, _, hinst⟩ := bind_ok_iff.1 hinst
      simp only [pure_ok, Except.ok.injEq] at hinst
      subst hinst
      have key : ∀ o : Option Expr, instOpt (Mapping.ofZip a.params s.2) o = .ok (some e) →
          ∃ f, o = some f ∧ f.inst (Mapping.ofZip a.params s.2) = .ok e := by
        intro o ho
        cases o with
        | none => simp [instOpt] at ho
        | some f =>
          obtain ⟨e', h1, h2⟩ := bind_ok_iff.1 ho
          injection h2 with h2
          injection h2 with h2
          subst h2
          exact ⟨f, rfl, h1⟩
      rcases he with he | he
      · simp only at he
        subst he
        obtain ⟨f, h3, h4⟩ := key _ h1
        exact ⟨f, .inl h3, h4⟩
      · simp only at he
        subst he
        obtain ⟨f, h3, h4⟩ := key _ h2
        exact ⟨f, .inr h3, h4⟩
  constructor
  · rintro n tag ⟨x, hx, ht⟩
    obtain ⟨y, hy, rfl⟩ := (inst_atoms hfe).1 x hx
    obtain ⟨t, ht', e⟩ := List.mem_map.1 ht
    cases t with
    | const k tg =>
      simp only [substTerm] at e
      injection e with e1 e2
      subst e1 e2
      exact ⟨_, List.mem_append_right _ ((C75_partial h).1 a ha f hf _ _ ⟨y, hy, ht'⟩), rfl⟩
    | var v =>
      have e' : substTerm (Mapping.ofZip a.params s.2) (.var v) =
        ((Mapping.ofZip a.params s.2).get (.var v)).getD (.var v) := rfl
      rw [e'] at e
      cases hg : (Mapping.ofZip a.params s.2).get (.var v) with
      | none => rw [hg] at e; cases e
      | some t =>
        rw [hg] at e
        simp only [Option.getD_some] at e
        subst e
        have : Term.const n tag ∈ s.2 := by
          unfold Mapping.get at hg
          split at hg
          · next p hp =>
            injection hg with hg
            rw [← hg]
            exact ofZip_values _ _ p (List.mem_of_find?_eq_some hp)
          · cases hg
        obtain ⟨o, ho, hq⟩ := hobj _ this
        refine ⟨o, ho, ?_⟩
        cases o with
        | const k tg => simp [Term.pyEq] at hq; exact hq.symm
        | var v => simp [Term.pyEq] at hq
  · intro hcl
    rw [List.eq_nil_iff_forall_not_mem]
    intro v hv
    obtain ⟨h1, h2⟩ := inst_free hm hfe v hv
    have h3 := hcl a ha f hf v h1
    rw [hps] at h3 h2
    have h4 : v ∈ vs := hocc f hf v (free_occurs v h1) (by simpa [List.map_map, Function.comp_def, Term.name] using h3)
    obtain ⟨ρ', hb⟩ := C74_binds (D := Unit) ⟨fun _ => (), fun _ _ => True, fun _ _ => True, fun _ _ => none⟩
      (vs.map Term.var) s.2 (by simpa [List.map_map, Function.comp_def, Term.name] using hnd) (fun _ => ())
    exact (ground_mapping hlen' hb).2.2.2 v h4 h2

example : (match parseDomain (fun _ => none) .fresh (useText s%"(and (p ?x) (p k))") with
    | .ok (d, _) => match (⟨[(s%"m", [.const s%"k" none])]⟩ : Plan).inst d with
      | .ok gs => decide (gs.length = 1)
      | .error _ => false
    | .error _ => false) = true := by decide +kernel

end Pddl.Props
