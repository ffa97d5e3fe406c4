/-
C74: ground actions of parsed domains say what is written.
-/
import Verif.Proofs.GroundSem
import Verif.Props.Parser
import Verif.Props.Problem
import Verif.Props.Meaning
import Verif.Props.DerivedOrder

namespace Pddl.Props
open Pddl Pddl.Spec

/-- What replacing the parameters by the arguments does to the variables. -/
theorem ground_mapping {D : Type} {I : Interp D} {vs : List Var} {args : List Term} (hl : args.length = vs.length) {ρ ρ' : Str → D}
    (hb : Binds I (vs.map Term.var) args ρ ρ') :
    AgreeB I (Mapping.ofZip (vs.map Term.var) args) [] ρ ρ' ∧
    (∀ n, MapsName (Mapping.ofZip (vs.map Term.var) args) n → n ∈ vs.map Var.name) ∧
    (∀ v : Var, v.name ∉ vs.map Var.name → (Mapping.ofZip (vs.map Term.var) args).get (.var v) = none) ∧
    (∀ v ∈ vs, (Mapping.ofZip (vs.map Term.var) args).get (.var v) ≠ none) := by
  have hname : ∀ {v u : Var}, (Term.var v).pyEq (.var u) = true → v.name = u.name := by
    intro v u h
    simp only [Term.pyEq, Var.pyEq, Bool.and_eq_true, decide_eq_true_eq] at h
    exact h.1
  have hget : ∀ (v : Var) t, (Mapping.ofZip (vs.map Term.var) args).get (.var v) = some t →
      ∃ u ∈ vs, u.name = v.name ∧ (Term.var u, t) ∈ (vs.map Term.var).zip args := by
    intro v t h
    rw [get_ofZip] at h
    obtain ⟨p, hp, rfl⟩ := Option.map_eq_some_iff.1 h
    have h1 := List.find?_some hp
    have h2 := List.mem_reverse.1 (List.mem_of_find?_eq_some hp)
    obtain ⟨u, hu, e⟩ := List.mem_map.1 (List.of_mem_zip h2).1
    refine ⟨u, hu, ?_, ?_⟩
    · rw [← e] at h1
      exact (hname h1).symm
    · rw [e]; exact h2
  refine ⟨⟨by simp, ?_, ?_⟩, ?_, ?_, ?_⟩
  · intro v t _ h
    obtain ⟨u, _, e, hz⟩ := hget v t h
    rw [← e]
    exact hb.param _ hz
  · intro n _ hn
    refine hb.other n (fun t ht e => hn ?_)
    obtain ⟨u, hu, rfl⟩ := List.mem_map.1 ht
    have : (Mapping.ofZip (vs.map Term.var) args).get (.var u) ≠ none := by
      rw [get_ofZip]
      intro h
      rw [Option.map_eq_none_iff, List.find?_eq_none] at h
      obtain ⟨i, hi, he⟩ := List.getElem_of_mem hu
      have hi' : i < args.length := by omega
      refine h (Term.var u, args[i]) (List.mem_reverse.2 ?_) (Term.pyEq_iff.2 rfl)
      rw [List.mem_iff_getElem]
      exact ⟨i, by simp [hl, hi], by simp [he]⟩
    obtain ⟨t, ht⟩ := Option.ne_none_iff_exists'.1 this
    unfold Mapping.get at ht
    split at ht
    · next p hp =>
      have hm := List.mem_of_find?_eq_some hp
      have h1 := List.find?_some hp
      obtain ⟨w, hw, e'⟩ := List.mem_map.1 (ofZip_keys _ _ p hm)
      refine ⟨w, p.2, ?_, ?_⟩
      · rw [e']; exact hm
      · rw [← e'] at h1
        rw [← e]
        first | exact hname h1 | exact (hname h1).symm
    · cases ht
  · rintro n ⟨v, c, hm, rfl⟩
    obtain ⟨u, hu, e⟩ := List.mem_map.1 (ofZip_keys _ _ _ hm)
    injection e with e
    rw [← e]
    exact List.mem_map.2 ⟨u, hu, rfl⟩
  · intro v hv
    by_contra h
    obtain ⟨t, ht⟩ := Option.ne_none_iff_exists'.1 h
    obtain ⟨u, hu, e, _⟩ := hget v t ht
    exact hv (List.mem_map.2 ⟨u, hu, e⟩)
  · intro u hu
    rw [get_ofZip]
    intro h
    rw [Option.map_eq_none_iff, List.find?_eq_none] at h
    obtain ⟨i, hi, he⟩ := List.getElem_of_mem hu
    have hi' : i < args.length := by omega
    refine h (Term.var u, args[i]) (List.mem_reverse.2 ?_) (Term.pyEq_iff.2 rfl)
    rw [List.mem_iff_getElem]
    exact ⟨i, by simp [hl, hi], by simp [he]⟩

/-- C74. A ground action of a parsed domain has the name of a written action and the arguments as parameters. Its
precondition holds in a state exactly when the written precondition holds there with the parameters denoting the
arguments, and its effect (without `oneof`) makes exactly the changes the written effect makes. -/
def C74_full : Prop :=
  ∀ (F : FloatOf) (σ : PState) (text : Str) (d : Domain) (σ' : PState) (a : Action) (args : List Term) (g : Action),
    ParserState F σ → parseDomain F σ text = .ok (d, σ') → a ∈ d.actions → (∀ t ∈ args, ∃ n tag, t = .const n tag) →
    a.inst args = .ok g →
    ∃ ts n ps pre eff, readText text = .ok [.node ts] ∧ actionText n ps pre eff ∈ ts ∧ a.name = n ∧
      g.name = n ∧ g.params = args ∧ SaysWritten F a.params args g pre eff True (NoOneof eff)

/-- What holds: the precondition is not `()`, no quantifier of the precondition binds a parameter, and there is no
arithmetic. (Without them C74 fails: `C74_fails`, `C74_empty_fails`, C47.) The parameters are the ones written. -/
theorem C74_partial {F : FloatOf} {σ : PState} {text : Str} {d : Domain} {σ' : PState} {a : Action} {args : List Term}
    {g : Action} (hσ : ParserState F σ) (h : parseDomain F σ text = .ok (d, σ')) (ha : a ∈ d.actions)
    (hargs : ∀ t ∈ args, ∃ n tag, t = .const n tag) (hg : a.inst args = .ok g) :
    ∃ ts n ps pre eff l, readText text = .ok [.node ts] ∧ actionText n ps pre eff ∈ ts ∧ VarsText ps l ∧
      (a.params.map Term.name).Nodup ∧ (a.params.map Term.name).Sublist (l.vars.map Prod.fst) ∧
      (∀ x, x ∈ a.params.map Term.name ↔ x ∈ l.vars.map Prod.fst) ∧
      args.length = a.params.length ∧ a.name = n ∧ g.name = n ∧ g.params = args ∧
      SaysWritten F a.params args g pre eff
        (pre ≠ .node [] ∧ NoArithmetic pre ∧ NotRebound (a.params.map Term.name) pre)
        (NoOneof eff ∧ NoArithmetic eff) := by
  obtain ⟨ts, n, ps, pre, eff, l, vs, hr, hin, hl, hn, hps, hnd, hsub, hall, -, hocc, E, p, e, hp, he, hE, hF, hv, hpre,
    heff, hw⟩ := action_reading hσ h ha
  unfold Action.inst at hg
  split at hg
  · cases hg
  · next hlen =>
    have hlen : args.length = vs.length := by
      rw [hps, List.length_map] at hlen
      omega
    simp only [] at hg
    obtain ⟨gpre, h1, hg⟩ := bind_ok_iff.1 hg
    obtain ⟨geff, h2, hg⟩ := bind_ok_iff.1 hg
    rw [hp] at h1
    rw [he] at h2
    obtain ⟨gp, g1, e1⟩ := bind_ok_iff.1 h1
    obtain ⟨ge, g2, e2⟩ := bind_ok_iff.1 h2
    simp only [pure_ok, Except.ok.injEq] at e1 e2
    subst e1 e2
    unfold mkAction at hg
    obtain ⟨n', hn', hg⟩ := bind_ok_iff.1 hg
    obtain ⟨rfl, _⟩ := parseName_ok.1 hn'
    simp only [pure_ok, Except.ok.injEq] at hg
    subst hg
    have hnames : a.params.map Term.name = vs.map Var.name := by
      rw [hps, List.map_map]; rfl
    refine ⟨ts, n, ps, pre, eff, l, hr, hin, hl, hnames ▸ hnd, hnames ▸ hsub, ?_, ?_, hn, hn, rfl, gp, ge, rfl, rfl, ?_⟩
    · intro x
      rw [hnames]
      constructor
      · exact fun hx => hsub.subset hx
      · intro hx
        obtain ⟨q, hq, rfl⟩ := List.mem_map.1 hx
        exact hall q hq
    · rw [hps, List.length_map]; exact hlen
    intro D I lit ρ ρ' hlit hb
    rw [hps] at hb g1 g2
    obtain ⟨hag, hk, hnone, hsome⟩ := ground_mapping hlen hb
    have hm : ToConstants (Mapping.ofZip (vs.map Term.var) args) := fun q hq => hargs _ (ofZip_values _ _ q hq)
    constructor
    · rintro ⟨hne, hna, hnr⟩
      have hgd : E.gd pre = .ok p := by
        unfold GEnv.preGd at hpre
        split at hpre
        · exact absurd rfl hne
        · exact hpre
      have hrel := gd_iff.1 hgd
      have hw' : ∀ w, Inside (.atom (.name w)) pre → nameRegex w = true :=
        fun w hi => hw w (hi.trans (.node hin (.node (by simp) .refl)))
      have hpl := hrel.noMerge hna
      have hbd : ∀ v ∈ binders p, v.name ∉ vs.map Var.name := by
        intro v hv
        obtain ⟨w, us, c, l', hq, hi, hvt, q, hq', e⟩ := hrel.binders_written hE hw' v hv
        have := hnr w us c l' hq hi hvt q hq'
        rw [hnames, e] at this
        exact this
      have hs : Safe (Mapping.ofZip (vs.map Term.var) args) p [] :=
        safe_of hk hnone p (fun v hv hm => hsome v (hocc p (.inl hp) v hv hm)) hbd [] (by simp)
      rw [inst_holds hm hpl.sorted hrel.good (hpl.noCollision _) g1 hs hag]
      rw [C53_condition I lit hE (by rw [hF]; exact hlit) hgd hw' (hna.keeps E) ρ']
      exact ⟨.inr, fun h => h.resolve_left hne⟩
    · rintro ⟨ho, hna⟩ c
      have hw' : ∀ w, Inside (.atom (.name w)) eff → nameRegex w = true :=
        fun w hi => hw w (hi.trans (.node hin (.node (by simp) .refl)))
      unfold GEnv.effOpt at heff
      split at heff
      · simp only [pure_ok, Except.ok.injEq] at heff
        subst heff
        have e1 : mkOr [] = .bin .or [] := by decide +kernel
        rw [e1] at g2
        obtain ⟨bs, h3, rfl⟩ := inst_bin_ok.mp g2
        cases h3
        have e2 : construct (.bop .or) [] = .bin .or [] := by decide +kernel
        rw [e2]
        simp [makes, treeMakes]
      · have hrel := effect_iff.1 heff
        obtain ⟨hsh, hpl⟩ := hrel.effShape ho hna
        have hs : Safe (Mapping.ofZip (vs.map Term.var) args) e [] :=
          safe_of hk hnone e (fun v hv hm => hsome v (hocc e (.inr he) v hv hm))
            (by rw [effect_noBinders hsh hpl g2]; simp) [] (by simp)
        rw [inst_makes hsh hpl hrel.good g2 hs hag]
        exact ERel.sem I lit c hE (by rw [hF]; exact hlit) hrel hw' (hna.keeps E) ho
          (fun _ toks r hr => by rw [hv] at hr; exact hr) ρ'

/-- The ground actions of a plan say what is written, step by step. -/
theorem C74_plan {F : FloatOf} {σ : PState} {text : Str} {d : Domain} {σ' : PState} {plan : Plan} {gs : List Action}
    (hσ : ParserState F σ) (h : parseDomain F σ text = .ok (d, σ'))
    (hargs : ∀ s ∈ plan.steps, ∀ t ∈ s.2, ∃ n tag, t = .const n tag) (hg : plan.inst d = .ok gs) :
    List.Forall₂ (fun s g => ∃ a ∈ d.actions, ∃ ts ps pre eff, readText text = .ok [.node ts] ∧
      actionText s.1 ps pre eff ∈ ts ∧ a.name = s.1 ∧ g.name = s.1 ∧ g.params = s.2 ∧
      SaysWritten F a.params s.2 g pre eff
        (pre ≠ .node [] ∧ NoArithmetic pre ∧ NotRebound (a.params.map Term.name) pre)
        (NoOneof eff ∧ NoArithmetic eff)) plan.steps gs := by
  have h1 := instSteps_ok.mp hg
  clear hg
  revert hargs h1
  generalize plan.steps = l
  intro hargs h1
  induction h1 with
  | nil => exact .nil
  | @cons s g l gs h1 _ ih =>
    refine .cons ?_ (ih (fun s hs => hargs s (List.mem_cons_of_mem _ hs)))
    obtain ⟨a, ha, hi⟩ := h1
    obtain ⟨hm, hn⟩ := lastNamed_mem ha
    obtain ⟨ts, n, ps, pre, eff, l, h1, h2, _, _, _, _, _, rfl, h7, h8, h9⟩ :=
      C74_partial hσ h hm (hargs s List.mem_cons_self) hi
    rw [hn] at h2 h7
    exact ⟨a, hm, ts, ps, pre, eff, h1, h2, hn, h7, h8, h9⟩

/-- Arguments can be bound to parameters with different names. -/
theorem C74_binds {D : Type} (I : Interp D) (params args : List Term) (hn : (params.map Term.name).Nodup) (ρ : Str → D) :
    ∃ ρ', Binds I params args ρ ρ' := by
  induction params generalizing args with
  | nil => exact ⟨ρ, by simp, fun _ _ => rfl⟩
  | cons p ps ih =>
    rw [List.map_cons, List.nodup_cons] at hn
    cases args with
    | nil => exact ⟨ρ, by simp, fun _ _ => rfl⟩
    | cons x args =>
      obtain ⟨ρ1, h1, h2⟩ := ih args hn.2
      refine ⟨fun n => if n = p.name then denote I ρ x else ρ1 n, ?_, ?_⟩
      · intro q hq
        rw [List.zip_cons_cons, List.mem_cons] at hq
        rcases hq with rfl | hq
        · simp
        · have : q.1.name ≠ p.name := fun e => hn.1 (List.mem_map.2 ⟨q.1, (List.of_mem_zip hq).1, e⟩)
          simp only [this, if_false]
          exact h1 q hq
      · intro n hn'
        have : n ≠ p.name := fun e => hn' p List.mem_cons_self e.symm
        simp only [this, if_false]
        exact h2 n (fun t ht => hn' t (List.mem_cons_of_mem _ ht))

/-- An action whose precondition binds the parameter again. -/
def reboundText : Str := s%"(define (domain d) (:requirements :strips :existential-preconditions) (:predicates (p ?u))
  (:action m :parameters (?x) :precondition (exists (?x) (p ?x)) :effect (p ?x)))"

/-- C74 is false: instantiation also replaces the variables bound by a quantifier, so the ground action requires
`(p a)` where the text requires some object with `p`. -/
theorem C74_fails : ¬ C74_full := by
  intro hfull
  have h0 : (match parseDomain (fun _ => none) .fresh reboundText with
    | .ok (d, _) => decide (d.actions = [⟨s%"m", [.var ⟨s%"x", []⟩],
        some (.quant .ex [⟨s%"x", []⟩] (.pred ⟨s%"p", [.var ⟨s%"x", []⟩]⟩)), some (.pred ⟨s%"p", [.var ⟨s%"x", []⟩]⟩)⟩])
    | .error _ => false) = true := by decide +kernel
  cases h : parseDomain (fun _ => none) .fresh reboundText with
  | error e => rw [h] at h0; cases h0
  | ok r =>
    obtain ⟨d, σ'⟩ := r
    rw [h] at h0
    simp only [decide_eq_true_eq] at h0
    obtain ⟨ts, n, ps, pre, eff, hr, hin, hn, _, _, gp, ge, hp, _, hall⟩ :=
      hfull (fun _ => none) .fresh reboundText d σ' _ [.const s%"a" none]
        ⟨s%"m", [.const s%"a" none], some (.quant .ex [⟨s%"x", []⟩] (.pred ⟨s%"p", [.const s%"a" none]⟩)),
          some (.pred ⟨s%"p", [.const s%"a" none]⟩)⟩ .fresh h (by rw [h0]; exact List.mem_singleton.2 rfl) (by simp)
        (by decide +kernel)
    injection hp with hp
    have ht : readText reboundText = .ok [.node (treesOf reboundText)] := by decide +kernel
    rw [ht] at hr
    injection hr with hr
    injection hr with hr
    injection hr with hr
    have ht' : treesOf reboundText = [.atom (.name s%"define"), .node [.atom (.name s%"domain"), .atom (.name s%"d")],
      .node [.atom (.kw s%"requirements"), .atom (.kw s%"strips"), .atom (.kw s%"existential-preconditions")],
      .node [.atom (.kw s%"predicates"), .node [.atom (.name s%"p"), .atom .qmark, .atom (.name s%"u")]],
      actionText s%"m" [.atom .qmark, .atom (.name s%"x")]
        (.node [.atom (.name s%"exists"), .node [.atom .qmark, .atom (.name s%"x")],
          .node [.atom (.name s%"p"), .atom .qmark, .atom (.name s%"x")]])
        (.node [.atom (.name s%"p"), .atom .qmark, .atom (.name s%"x")])] := by decide +kernel
    rw [← hr, ht'] at hin
    simp [actionText] at hin
    obtain ⟨_, _, hpre, _⟩ := hin
    have := (hall Bool ⟨fun _ => false, fun _ _ => True, fun _ ds => ds = [true], fun _ _ => none⟩
      (fun s => (numLiteral (fun _ => none) s).toOption.bind numVal) (fun _ => false) (fun _ => false) ?_ ?_).1 trivial
    · rw [hpre, ← hp] at this
      have h2 := this.2 (.inr ?_)
      · simp [holds, denote] at h2
      · simp only [treeHolds]
        have hvl : TypedList.varList ⟨[], [.str s%"x"]⟩ = [⟨s%"x", []⟩] := rfl
        refine ⟨⟨[], [.str s%"x"]⟩, .rest [s%"x"], fun n => decide (n = s%"x"), ?_, ?_⟩
        · rw [hvl]
          refine ⟨?_, ?_⟩
          · intro n hn
            have := hn ⟨s%"x", []⟩ List.mem_cons_self
            exact decide_eq_false (fun e => this e.symm)
          · intro v hv
            rw [List.mem_singleton.1 hv]
            exact .inl rfl
        · exact ⟨[true], rfl, rfl⟩
    · intro s n h
      simp [h, Except.toOption]
    · exact ⟨by simp [denote], fun _ _ => rfl⟩

/-- An action with the empty precondition `()`. -/
def emptyPreText : Str := s%"(define (domain d) (:requirements :strips) (:predicates (p ?u))
  (:action m :parameters (?x) :precondition () :effect (p ?x)))"

/-- The ground actions of an action with the precondition `()` never apply, so C74 fails for them, too. -/
theorem C74_empty_fails : ∃ d σ' a g gp, parseDomain (fun _ => none) .fresh emptyPreText = .ok (d, σ') ∧ a ∈ d.actions ∧
    a.inst [.const s%"a" none] = .ok g ∧ g.pre = some gp ∧
    actionText s%"m" [.atom .qmark, .atom (.name s%"x")] (.node []) (.node [.atom (.name s%"p"), .atom .qmark, .atom (.name s%"x")])
      ∈ treesOf emptyPreText ∧
    ∀ (D : Type) (I : Interp D) ρ, ¬ holds I gp ρ := by
  have h0 : (match parseDomain (fun _ => none) .fresh emptyPreText with
    | .ok (d, _) => decide (d.actions = [⟨s%"m", [.var ⟨s%"x", []⟩], some (.bin .or []),
        some (.pred ⟨s%"p", [.var ⟨s%"x", []⟩]⟩)⟩])
    | .error _ => false) = true := by decide +kernel
  cases h : parseDomain (fun _ => none) .fresh emptyPreText with
  | error e => rw [h] at h0; cases h0
  | ok r =>
    obtain ⟨d, σ'⟩ := r
    rw [h] at h0
    simp only [decide_eq_true_eq] at h0
    refine ⟨d, σ', _, ⟨s%"m", [.const s%"a" none], some (.bin .or []), some (.pred ⟨s%"p", [.const s%"a" none]⟩)⟩,
      .bin .or [], rfl, by rw [h0]; exact List.mem_singleton.2 rfl, by decide +kernel, rfl, by decide +kernel, ?_⟩
    intro D I ρ
    simp [holds, holdsSome]

/-- A domain with a quantified precondition and an effect with a numeric update, which meets the conditions. -/
def groundText : Str := s%"(define (domain d) (:requirements :typing :adl :numeric-fluents) (:types a b)
  (:predicates (p ?u - a ?v - b) (q)) (:functions (cost ?u - a))
  (:action m :parameters (?x - a)
    :precondition (and (forall (?w - b) (or (p ?x ?w) (not (q)))) (> (cost ?x) 1))
    :effect (and (not (q)) (increase (cost ?x) 2))))"

example : somePart groundText (fun pre eff => pre.parts.all noArithAt && eff.parts.all noArithAt &&
    eff.parts.all noOneofAt && !decide (pre = .node [])) = true := by decide +kernel

example : (match parseDomain (fun _ => none) .fresh groundText with
    | .ok (d, _) => match d.actions with
      | [a] => (a.inst [.const s%"k" none]).toOption.isSome
      | _ => false
    | .error _ => false) = true := by decide +kernel

end Pddl.Props
