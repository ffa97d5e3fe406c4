/-
C108: plans keep the declared types.
-/
import Verif.Spec.TypeSafe
import Verif.Proofs.Frame
import Verif.Props.Undeclared
import Verif.Props.UndeclaredProblem
import Verif.Props.ArgTypes
import Verif.Props.WrittenProblem
import Verif.Props.Share
import Verif.Proofs.DecEq
import Verif.Proofs.Keeps

namespace Pddl.Props
open Pddl Pddl.Spec

variable {D : Type}

mutual
/-- The atom may be added by the effect. -/
def addsAtom (I : Interp D) (n : Str) (ds : List D) (ρ : Str → D) : Expr → Prop
  | .pred p => p.name = n ∧ ds = p.terms.map (denote I ρ)
  | .bin _ as => addsAtoms I n ds ρ as
  | .when _ _ => True
  | .fall _ _ => True
  | _ => False
def addsAtoms (I : Interp D) (n : Str) (ds : List D) (ρ : Str → D) : List Expr → Prop
  | [] => False
  | a :: as => addsAtom I n ds ρ a ∨ addsAtoms I n ds ρ as
end

variable {I : Interp D} {n : Str} {ds : List D} {ρ : Str → D}

theorem addsAtoms_iff {as : List Expr} : addsAtoms I n ds ρ as ↔ ∃ a ∈ as, addsAtom I n ds ρ a := by
  induction as with
  | nil => simp [addsAtoms]
  | cons a as ih => simp [addsAtoms, ih]

theorem adds_bop {o : BOp} {es : List Expr} (h : addsAtom I n ds ρ (construct (.bop o) es)) : ∃ e ∈ es, addsAtom I n ds ρ e := by
  by_contra hc
  have hes : ∀ e ∈ es, ¬ addsAtom I n ds ρ e := fun e he ht => hc ⟨e, he, ht⟩
  rcases construct_read (P := fun e => ¬ addsAtom I n ds ρ e) (.bop o) (fun as hp a ha ht => hp (by
    simp only [Expr.ofCls, addsAtom]
    exact addsAtoms_iff.2 ⟨a, ha, ht⟩)) hes with ⟨hp, _⟩ | ⟨as, he, has⟩
  · exact hp h
  · rw [he] at h
    simp only [Expr.ofCls, addsAtom] at h
    obtain ⟨a, ha, ht⟩ := addsAtoms_iff.1 h
    exact has a ha ht

theorem makes_adds {e : Expr} (h : makes I (.add n ds) e ρ) : addsAtom I n ds ρ e := by
  have hsome : ∀ (as : List Expr), (∀ a ∈ as, makes I (.add n ds) a ρ → addsAtom I n ds ρ a) →
      makesSome I (.add n ds) as ρ → addsAtoms I n ds ρ as := by
    intro as ih h
    induction as with
    | nil => exact h.elim
    | cons a as ih' =>
      simp only [makesSome] at h
      rcases h with h | h
      · exact .inl (ih a (by simp) h)
      · exact .inr (ih' (fun a ha => ih a (List.mem_cons_of_mem _ ha)) h)
  induction e using Expr.ind with
  | hpred p => simp only [makes, Change.add.injEq] at h; exact ⟨h.1.symm, h.2⟩
  | heq l r => simp [makes] at h
  | hnfun f => simp [makes] at h
  | hnum _ => simp [makes] at h
  | hbfun o as ih =>
    simp only [makes] at h
    unfold updated at h
    split at h
    · obtain ⟨_, v, _, h⟩ := h; cases h
    · exact h.elim
  | hbin o as ih =>
    cases o <;> simp only [makes] at h
    all_goals first | exact h.elim | exact hsome as (fun a ha h => ih a ha h) h
  | hnot a ih =>
    simp only [makes] at h
    unfold deletes at h
    split at h
    · cases h
    · exact h.elim
  | hquant q vs c ih => simp [makes] at h
  | hwhen c e _ ih => exact trivial
  | hfall vs e ih => exact trivial

theorem mem_freeVarsAll {as : List Expr} {v : Var} : v ∈ freeVarsAll as ↔ ∃ a ∈ as, v ∈ freeVars a := by
  induction as with
  | nil => simp [freeVarsAll]
  | cons a as ih => simp [freeVarsAll, ih]

/-- The atoms that a ground effect may add are those of the effect, with the arguments in place of the parameters. -/
theorem inst_adds {m : Mapping} {e g : Expr} (h : e.inst m = .ok g) (ha : addsAtom I n ds ρ g) :
    ∃ p ∈ predsIn e, p.name = n ∧ ds = p.terms.map (fun t => denote I ρ (substTerm m t)) ∧
      (∀ v, .var v ∈ p.terms → v ∈ freeVars e) ∧ ∃ x ∈ atoms e, x.2 = p.terms := by
  induction e using Expr.ind generalizing g with
  | hpred p =>
    obtain ⟨_, _, rfl⟩ := inst_pred_ok.mp h
    obtain ⟨h1, h2⟩ := ha
    refine ⟨p, by simp [predsIn], h1, by simpa [Function.comp_def] using h2, fun v hv => ?_, by simp [atoms]⟩
    exact List.mem_flatMap.2 ⟨_, hv, by simp [varOf]⟩
  | heq l r => obtain ⟨_, rfl⟩ := inst_eq_ok.mp h; exact ha.elim
  | hnfun f => obtain ⟨_, rfl⟩ := inst_nfun_ok.mp h; exact ha.elim
  | hnum _ => have := inst_num_ok.mp h; subst this; exact ha.elim
  | hbfun o as ih =>
    obtain ⟨bs, _, rfl⟩ := inst_bfun_ok.mp h
    obtain ⟨xs, he⟩ := construct_fop_node o bs
    rw [he] at ha
    exact ha.elim
  | hbin o as ih =>
    obtain ⟨bs, h2, rfl⟩ := inst_bin_ok.mp h
    obtain ⟨b, hb, ha⟩ := adds_bop ha
    obtain ⟨a, hin, e⟩ := forall2_mem h2 b hb
    obtain ⟨p, h3, h4, h5, h6, x, hx, h7⟩ := ih a hin e ha
    exact ⟨p, mem_predsInAll.2 ⟨a, hin, h3⟩, h4, h5, fun v hv => mem_freeVarsAll.2 ⟨a, hin, h6 v hv⟩,
      x, mem_atomsAll.2 ⟨a, hin, hx⟩, h7⟩
  | hnot a ih => obtain ⟨b, h1, rfl⟩ := inst_not_ok.mp h; exact ha.elim
  | hquant q vs c ih => obtain ⟨b, h1, rfl⟩ := inst_quant_ok.mp h; exact ha.elim
  | hwhen c e _ _ => rw [inst_when] at h; simp at h
  | hfall vs e _ => rw [inst_fall] at h; simp at h

theorem below_ty {d : Domain} {pr : Pddl.Problem} (ht : TypedBy d pr I) {a b : Str} (h : Below d.types a b) {x : D}
    (hx : I.ty a x) : I.ty b x := by
  induction h with
  | refl => exact hx
  | tail _ h ih => exact ht.above _ _ h x ih

/-- The argument that replaces a parameter. -/
theorem get_param {vs : List Var} (hn : (vs.map Var.name).Nodup) {args : List Term} (hl : args.length = vs.length) {v : Var}
    (hv : v ∈ vs) : ∃ t, (Mapping.ofZip (vs.map Term.var) args).get (.var v) = some t ∧ (Term.var v, t) ∈ (vs.map Term.var).zip args := by
  obtain ⟨i, hi, he⟩ := List.getElem_of_mem hv
  have hmem : (Term.var v, args[i]) ∈ (vs.map Term.var).zip args := by
    rw [List.mem_iff_getElem]
    exact ⟨i, by simp [hl, hi], by simp [he]⟩
  rw [get_ofZip]
  cases hf : ((vs.map Term.var).zip args).reverse.find? (fun p => (Term.var v).pyEq p.1) with
  | none =>
    rw [List.find?_eq_none] at hf
    exact absurd (Term.pyEq_iff.2 rfl) (hf _ (List.mem_reverse.2 hmem))
  | some p =>
    have h1 := List.find?_some hf
    have h2 := List.mem_reverse.1 (List.mem_of_find?_eq_some hf)
    obtain ⟨u, hu, e⟩ := List.mem_map.1 (List.of_mem_zip h2).1
    rw [← e] at h1
    simp only [Term.pyEq, Var.pyEq, Bool.and_eq_true, decide_eq_true_eq] at h1
    have := List.inj_on_of_nodup_map hn hv hu h1.1
    subst this
    exact ⟨p.2, rfl, by rw [e]; exact h2⟩

theorem forall2_imp_mem {α β : Type} {R S : α → β → Prop} {l : List α} {l' : List β} (h : ∀ a b, a ∈ l → R a b → S a b)
    (hr : List.Forall₂ R l l') : List.Forall₂ S l l' := by
  induction hr with
  | nil => exact .nil
  | cons h1 _ ih => exact .cons (h _ _ (by simp) h1) (ih fun a b ha => h a b (List.mem_cons_of_mem _ ha))

/-- One step keeps the types. -/
theorem acts_fits {F : FloatOf} {text : Str} {d : Domain} {σ' : PState} {pr : Pddl.Problem}
    (h : parseDomain F .fresh text = .ok (d, σ')) {a g : Action} (ha : a ∈ d.actions) (hfit : EffectFits d a)
    {args : List Term} (hinst : a.inst args = .ok g) (hconst : ∀ t ∈ args, ∃ n x, t = .const n x)
    (hsuit : List.Forall₂ (ArgSuits d pr) args a.params) (ht : TypedBy d pr I) {J : Interp D} (hact : Acts ρ g I J)
    (hI : StateFits d I) : StateFits d J := by
  intro n ds hJ
  have hty : J.ty = I.ty := hact.2.ty
  rw [hty]
  rcases (hact.2.pred n ds).1 hJ with ⟨e', he', hm⟩ | ⟨hi, _⟩
  · obtain ⟨ts, nm, ps, pre, eff, l, vs, hr, _, _, _, hpar, hnd, _, _, _, hocc⟩ := C38_action_parameters .fresh h ha
    have hlen : args.length = vs.length := by simpa [hpar] using hsuit.length_eq
    have hconsts := (C75_partial h).1 a ha
    unfold Action.inst at hinst
    split at hinst
    · simp at hinst
    · obtain ⟨pre', _, hinst⟩ := bind_ok_iff.1 hinst
      obtain ⟨eff', h1, hinst⟩ := bind_ok_iff.1 hinst
      obtain ⟨_, rfl⟩ := Rules.mkAction_ok.1 hinst
      simp only at he'
      subst he'
      cases hea : a.eff with
      | none => rw [hea] at h1; simp [instOpt] at h1
      | some e =>
        rw [hea] at h1
        simp only [instOpt] at h1
        obtain ⟨e2, h2, h1⟩ := bind_ok_iff.1 h1
        simp only [pure_ok, Except.ok.injEq, Option.some.injEq] at h1
        subst h1
        obtain ⟨p, hp, hpn, hds, hfree, x, hx, hxp⟩ := inst_adds h2 (makes_adds hm)
        obtain ⟨hclosed, hpreds⟩ := hfit e hea
        obtain ⟨q, hq, hqn, hterms⟩ := hpreds p hp
        refine ⟨q, hq, hqn.trans hpn, ?_⟩
        rw [hds, List.forall₂_map_left_iff]
        refine forall2_imp_mem ?_ hterms
        intro t par htm hfits
        rcases hfits with hfits | ⟨hne, hfits⟩
        · exact .inl hfits
        · refine .inr ?_
          cases t with
          | const k tag =>
            have hdec : Term.const k tag ∈ d.constants := hconsts e (.inr hea) k tag ⟨x, hx, by rw [hxp]; exact htm⟩
            obtain ⟨a1, ha1⟩ := List.exists_mem_of_ne_nil _ hne
            obtain ⟨b, hb, hbel⟩ := hfits a1 ha1
            exact ⟨b, hb, below_ty ht hbel (ht.objects _ (List.mem_append_right _ hdec) a1 ha1)⟩
          | var v =>
            have hvf := hfree v htm
            have hvs : v ∈ vs := hocc e (.inr hea) v (free_occurs v hvf) (by
              have := hclosed v hvf
              rw [hpar] at this
              simpa [List.map_map, Function.comp_def, Term.name] using this)
            obtain ⟨t, hget, hzip⟩ := get_param hnd hlen hvs
            have hsub : substTerm (Mapping.ofZip a.params args) (.var v) = t := by
              show ((Mapping.ofZip a.params args).get (.var v)).getD (.var v) = t
              rw [hpar, hget]; rfl
            obtain ⟨o, ho, hon, hos⟩ : ArgSuits d pr t (.var v) := by
              have h9 : ∀ q ∈ a.params.zip args, ArgSuits d pr q.2 q.1 := by
                intro q hq
                exact (List.forall₂_zip hsuit) (by
                  rw [← List.zip_swap]; exact List.mem_map.2 ⟨q, hq, rfl⟩)
              exact h9 (Term.var v, t) (by rw [hpar]; exact hzip)
            obtain ⟨k, tag, rfl⟩ := hconst t (List.of_mem_zip hzip).2
            rw [hsub]
            rcases hos with hos | ⟨a1, ha1, b1, hb1, hbel⟩
            · exact absurd hos hne
            · obtain ⟨b, hb, hbel'⟩ := hfits b1 hb1
              refine ⟨b, hb, below_ty ht (hbel.trans hbel') ?_⟩
              have := ht.objects o ho a1 ha1
              rw [hon] at this
              exact this
  · exact hI n ds hi

/-- What holds in `I` about types holds after the step. -/
theorem acts_typed {d : Domain} {pr : Pddl.Problem} {g : Action} {J : Interp D} (h : Acts ρ g I J) (ht : TypedBy d pr I) :
    TypedBy d pr J := by
  refine ⟨?_, ?_⟩
  · rw [h.2.ty, h.2.const]; exact ht.objects
  · rw [h.2.ty]; exact ht.above

/-- The arguments of the steps of a plan that was read are constants. -/
theorem parsed_args {text : Str} {p : Plan} (h : parsePlan text = .ok p) : ∀ s ∈ p.steps, ∀ t ∈ s.2, ∃ n x, t = .const n x := by
  intro s hs t ht
  obtain ⟨ts, _, h, _⟩ := C59_steps.1 h
  obtain ⟨x, _, ns, _, e⟩ := forall2_mem h s hs
  rw [e] at ht
  obtain ⟨n, _, rfl⟩ := List.mem_map.1 ht
  exact ⟨n, none, rfl⟩

/-- C108. If the effects of the actions and the arguments of the plan suit the declared types, then every state on the
way, and the last one, has only facts with the declared types if the first one has. -/
theorem C108_keeps {F : FloatOf} {text : Str} {d : Domain} {σ' : PState} {pr : Pddl.Problem} {plan : Plan} {gs : List Action}
    (h : parseDomain F .fresh text = .ok (d, σ')) (hfit : ∀ a ∈ d.actions, EffectFits d a)
    (hconst : ∀ s ∈ plan.steps, ∀ t ∈ s.2, ∃ n x, t = .const n x) (hsuit : PlanSuits d pr plan) (hg : plan.inst d = .ok gs)
    (ht : TypedBy d pr I) (hI : StateFits d I) {J : Interp D} (hv : Visits ρ gs I J) : StateFits d J := by
  have h2 := instSteps_ok.1 hg
  unfold PlanSuits at hsuit
  clear hg
  generalize plan.steps = ss at *
  induction hv generalizing ss with
  | here => exact hI
  | step ha _ ih =>
    rcases h2 with _ | ⟨⟨a, hl, hi⟩, h2⟩
    exact ih (acts_typed ha ht)
      (acts_fits h (lastNamed_mem hl).1 (hfit _ (lastNamed_mem hl).1) hi (hconst _ (by simp)) (hsuit _ (by simp) a hl) ht ha hI)
      _ (fun s hs => hconst s (List.mem_cons_of_mem _ hs)) (fun s hs => hsuit s (List.mem_cons_of_mem _ hs)) h2

/-- C108. The states in which a problem starts have only facts with the declared types if the listed facts suit them. -/
theorem C108_start {F : FloatOf} {text : Str} {d : Domain} {pr : Pddl.Problem} {τ : List (Str × Term)}
    (h : parseProblem F [] text = .ok (pr, τ)) (hf : ∀ p, .pred p ∈ pr.init → FactSuits d pr p) (ht : TypedBy d pr I)
    (hs : StartsIn ρ pr.init I) : StateFits d I := by
  intro n ds hp
  obtain ⟨ts, hin, rfl⟩ := (hs.pred n ds).1 hp
  obtain ⟨q, hq, hn, h2⟩ := hf _ hin
  refine ⟨q, hq, hn, ?_⟩
  rw [List.forall₂_map_left_iff]
  refine forall2_imp_mem ?_ h2
  rintro t par htm ⟨o, ho, hon, hsu⟩
  rcases hsu with hsu | ⟨a, ha, b, hb, hab⟩
  · exact .inl hsu
  · refine .inr ⟨b, hb, below_ty ht hab ?_⟩
    have := ht.objects o ho a ha
    rw [hon] at this
    cases t with
    | const k x => exact this
    | var v =>
      have hfree := (C106_partial h).1 _ hin
      rw [freeVars, List.flatMap_eq_nil_iff] at hfree
      simpa [varOf] using hfree _ htm

/-- A run visits its last state. -/
theorem runs_visits {gs : List Action} {J : Interp D} (h : Runs ρ gs I J) : Visits ρ gs I J := by
  induction h with
  | nil => exact .here
  | cons ha _ ih => exact .step ha ih

/-- C108. Type safety for what was read: a domain whose effects, a problem whose facts and a plan whose arguments suit the
declared types. Every state on the way from the start has only facts with the declared types. -/
theorem C108_safe {F : FloatOf} {dtext ptext ltext : Str} {d : Domain} {σ' : PState} {pr : Pddl.Problem}
    {τ : List (Str × Term)} {plan : Plan} {gs : List Action} (hd : parseDomain F .fresh dtext = .ok (d, σ'))
    (hp : parseProblem F [] ptext = .ok (pr, τ)) (hl : parsePlan ltext = .ok plan) (hg : plan.inst d = .ok gs)
    (hfit : ∀ a ∈ d.actions, EffectFits d a) (hf : ∀ p, .pred p ∈ pr.init → FactSuits d pr p) (hsuit : PlanSuits d pr plan)
    (ht : TypedBy d pr I) (hs : StartsIn ρ pr.init I) :
    (∀ J, Visits ρ gs I J → StateFits d J) ∧ ∀ J, Runs ρ gs I J → StateFits d J :=
  have key : ∀ J, Visits ρ gs I J → StateFits d J := fun _ hv =>
    C108_keeps hd hfit (parsed_args hl) hsuit hg ht (C108_start hp hf ht hs) hv
  ⟨key, fun _ hr => key _ (runs_visits hr)⟩

/-! ### A case that meets the conditions, and what happens without one of them -/

def putDomain : Str := s%"(define (domain d) (:requirements :typing) (:types t - v v u)
  (:constants k - v) (:predicates (p ?x - v) (q ?x - u))
  (:action m :parameters (?x - t) :precondition (p k) :effect (and (p ?x) (not (p k)))))"
def putProblem : Str := s%"(define (problem q) (:domain d) (:objects a - t b - u) (:init (p k)) (:goal (p a)))"

def putAction : Action := ⟨s%"m", [.var ⟨s%"x", [s%"t"]⟩], some (.pred ⟨s%"p", [.const s%"k" (some s%"v")]⟩),
  some (.bin .and [.pred ⟨s%"p", [.var ⟨s%"x", [s%"t"]⟩]⟩, .not (.pred ⟨s%"p", [.const s%"k" (some s%"v")]⟩)])⟩

def putGround (o : Str) : Action := ⟨s%"m", [.const o none], some (.pred ⟨s%"p", [.const s%"k" (some s%"v")]⟩),
  some (.bin .and [.pred ⟨s%"p", [.const o none]⟩, .not (.pred ⟨s%"p", [.const s%"k" (some s%"v")]⟩)])⟩

/-- The texts are accepted, and so is the plan for either object. -/
theorem put_read {o : Str} (ho : o ∈ [s%"a", s%"b"]) : ∃ d σ pr τ p, parseDomain (fun _ => none) .fresh putDomain = .ok (d, σ) ∧
    parseProblem (fun _ => none) [] putProblem = .ok (pr, τ) ∧ parsePlan (s%"(m " ++ o ++ s%")") = .ok p ∧
    pr.check d = .ok () ∧ p.check d pr = .ok () ∧ p.inst d = .ok [putGround o] ∧ d.actions = [putAction] ∧
    d.types = [(s%"t", some s%"v"), (s%"v", none), (s%"u", none)] ∧ d.constants = [.const s%"k" (some s%"v")] ∧
    d.predicates = [⟨s%"p", [.var ⟨s%"x", [s%"v"]⟩]⟩, ⟨s%"q", [.var ⟨s%"x", [s%"u"]⟩]⟩] ∧
    pr.objects = [.const s%"a" (some s%"t"), .const s%"b" (some s%"u")] ∧ pr.init = [.pred ⟨s%"p", [.const s%"k" none]⟩] ∧
    p.steps = [(s%"m", [.const o none])] := by
  have h0 : (match parseDomain (fun _ => none) .fresh putDomain, parseProblem (fun _ => none) [] putProblem,
        parsePlan (s%"(m " ++ o ++ s%")") with
      | .ok (d, _), .ok (pr, _), .ok p => decide (pr.check d = .ok () ∧ p.check d pr = .ok () ∧
          p.inst d = .ok [putGround o] ∧ d.actions = [putAction] ∧
          d.types = [(s%"t", some s%"v"), (s%"v", none), (s%"u", none)] ∧ d.constants = [.const s%"k" (some s%"v")] ∧
          d.predicates = [⟨s%"p", [.var ⟨s%"x", [s%"v"]⟩]⟩, ⟨s%"q", [.var ⟨s%"x", [s%"u"]⟩]⟩] ∧
          pr.objects = [.const s%"a" (some s%"t"), .const s%"b" (some s%"u")] ∧
          pr.init = [.pred ⟨s%"p", [.const s%"k" none]⟩] ∧ p.steps = [(s%"m", [.const o none])])
      | _, _, _ => false) = true := by
    simp only [List.mem_cons, List.not_mem_nil, or_false] at ho
    rcases ho with rfl | rfl <;> decide +kernel
  cases h1 : parseDomain (fun _ => none) .fresh putDomain with
  | error e => rw [h1] at h0; cases h0
  | ok x =>
    cases h2 : parseProblem (fun _ => none) [] putProblem with
    | error e => rw [h1, h2] at h0; cases h0
    | ok y =>
      cases h3 : parsePlan (s%"(m " ++ o ++ s%")") with
      | error e => rw [h1, h2, h3] at h0; cases h0
      | ok p =>
        rw [h1, h2, h3] at h0
        exact ⟨x.1, x.2, y.1, y.2, p, rfl, rfl, rfl, of_decide_eq_true h0⟩

/-- The states before and after: `p` holds of one object. -/
def putState (o : Str) : Interp Str where
  const := id
  ty := fun t x => x = s%"a" ∧ (t = s%"t" ∨ t = s%"v") ∨ x = s%"b" ∧ t = s%"u" ∨ x = s%"k" ∧ t = s%"v"
  pred := fun n ds => n = s%"p" ∧ ds = [o]
  fn := fun _ _ => none

theorem put_acts (o : Str) (ρ : Str → Str) : Acts ρ (putGround o) (putState s%"k") (putState o) := by
  refine ⟨?_, rfl, rfl, ?_, ?_, ?_⟩
  · rintro e he
    simp only [putGround, Option.some.injEq] at he
    subst he
    simp [holds, putState, denote]
  · intro n ds
    simp [putGround, makes, makesSome, deletes, putState, denote]

  · intros; rfl
  · rintro f ds op v ⟨e, he, hm⟩
    simp only [putGround, Option.some.injEq] at he
    subst he
    simp [makes, makesSome, deletes] at hm

/-- The state and the texts meet all conditions but the one on the plan. -/
theorem put_meets {d : Domain} {pr : Pddl.Problem} (ha : d.actions = [putAction])
    (ht : d.types = [(s%"t", some s%"v"), (s%"v", none), (s%"u", none)]) (hc : d.constants = [.const s%"k" (some s%"v")])
    (hp : d.predicates = [⟨s%"p", [.var ⟨s%"x", [s%"v"]⟩]⟩, ⟨s%"q", [.var ⟨s%"x", [s%"u"]⟩]⟩])
    (ho : pr.objects = [.const s%"a" (some s%"t"), .const s%"b" (some s%"u")])
    (hi : pr.init = [.pred ⟨s%"p", [.const s%"k" none]⟩]) (ρ : Str → Str) :
    (∀ a ∈ d.actions, EffectFits d a) ∧ (∀ p, .pred p ∈ pr.init → FactSuits d pr p) ∧ TypedBy d pr (putState s%"k") ∧
    StartsIn ρ pr.init (putState s%"k") := by
  have hb : Below d.types s%"t" s%"v" := .single (by rw [ht]; exact ⟨by decide, by decide⟩)
  refine ⟨?_, ?_, ⟨?_, ?_⟩, ?_⟩
  · intro a h e he
    rw [ha, List.mem_singleton] at h
    subst h
    simp only [putAction, Option.some.injEq] at he
    subst he
    refine ⟨by simp [ClosedBy, freeVars, freeVarsAll, varOf, Term.name, putAction], ?_⟩
    intro p hin
    simp only [predsIn, predsInAll, List.mem_cons, List.mem_append, List.not_mem_nil, or_false] at hin
    refine ⟨⟨s%"p", [.var ⟨s%"x", [s%"v"]⟩]⟩, by rw [hp]; simp, ?_⟩
    rcases hin with rfl | rfl
    · exact ⟨rfl, .cons (.inr ⟨by simp [Term.tags], by simpa [Term.tags] using hb⟩) .nil⟩
    · refine ⟨rfl, .cons (.inr ⟨by simp [Term.tags], fun a h => ⟨a, h, .refl⟩⟩) .nil⟩
  · intro p hin
    rw [hi] at hin
    simp only [List.mem_singleton, Expr.pred.injEq] at hin
    subst hin
    refine ⟨⟨s%"p", [.var ⟨s%"x", [s%"v"]⟩]⟩, by rw [hp]; simp, rfl, .cons ?_ .nil⟩
    exact ⟨.const s%"k" (some s%"v"), by rw [hc]; simp, rfl, .inr ⟨s%"v", by simp [Term.tags], s%"v", by simp [Term.tags], .refl⟩⟩
  · rw [ho, hc]
    simp [Term.tags, Term.name, putState]
  · rintro a b ⟨h1, _⟩ x hx
    rw [ht] at h1
    have : a = s%"t" ∧ b = s%"v" := by
      simp only [List.lookup] at h1
      repeat' split at h1
      all_goals simp_all
    obtain ⟨rfl, rfl⟩ := this
    simp [putState] at hx ⊢
    exact .inl hx
  · rw [hi]
    refine ⟨?_, ?_, ?_, ?_⟩
    · intro n ds
      constructor
      · rintro ⟨rfl, rfl⟩
        exact ⟨[.const s%"k" none], by simp, rfl⟩
      · rintro ⟨ts, h, rfl⟩
        simp only [List.mem_singleton, Expr.pred.injEq, Pred.mk.injEq] at h
        obtain ⟨rfl, rfl⟩ := h
        exact ⟨rfl, rfl⟩
    · simp
    · simp
    · intro n ds h
      exact absurd rfl h

/-- All conditions are met, and the plan changes the state. -/
example : ∃ d σ pr τ plan gs, parseDomain (fun _ => none) .fresh putDomain = .ok (d, σ) ∧
    parseProblem (fun _ => none) [] putProblem = .ok (pr, τ) ∧ parsePlan s%"(m a)" = .ok plan ∧ plan.inst d = .ok gs ∧
    (∀ a ∈ d.actions, EffectFits d a) ∧ (∀ p, .pred p ∈ pr.init → FactSuits d pr p) ∧ PlanSuits d pr plan ∧
    TypedBy d pr (putState s%"k") ∧ StartsIn id pr.init (putState s%"k") ∧ Runs id gs (putState s%"k") (putState s%"a") := by
  obtain ⟨d, σ, pr, τ, p, h1, h2, h3, _, _, hg, ha, ht, hc, hp, ho, hi, hs⟩ := put_read (o := s%"a") (by simp)
  obtain ⟨m1, m2, m3, m4⟩ := put_meets ha ht hc hp ho hi id
  refine ⟨d, σ, pr, τ, p, _, h1, h2, h3, hg, m1, m2, ?_, m3, m4, .cons (put_acts _ _) .nil⟩
  intro s hin a hl
  rw [hs, List.mem_singleton] at hin
  subst hin
  have := (lastNamed_mem hl).1
  rw [ha, List.mem_singleton] at this
  subst this
  refine .cons ⟨.const s%"a" (some s%"t"), by rw [ho]; simp, rfl, .inr ⟨s%"t", by simp [Term.tags], s%"t", by simp [Term.tags], .refl⟩⟩ .nil

/-- The condition on the plan is needed: the checks of the problem and the plan pass, everything else is met, but the plan
`(m b)` makes `(p b)` true though `b` has neither the type of the declaration nor one below. -/
theorem C108_needed : ∃ d σ pr τ plan gs J, parseDomain (fun _ => none) .fresh putDomain = .ok (d, σ) ∧
    parseProblem (fun _ => none) [] putProblem = .ok (pr, τ) ∧ parsePlan s%"(m b)" = .ok plan ∧
    pr.check d = .ok () ∧ plan.check d pr = .ok () ∧ plan.inst d = .ok gs ∧
    (∀ a ∈ d.actions, EffectFits d a) ∧ (∀ p, .pred p ∈ pr.init → FactSuits d pr p) ∧
    TypedBy d pr (putState s%"k") ∧ StartsIn id pr.init (putState s%"k") ∧ Runs id gs (putState s%"k") J ∧
    ¬ StateFits d J := by
  obtain ⟨d, σ, pr, τ, p, h1, h2, h3, h4, h5, hg, ha, ht, hc, hp, ho, hi, hs⟩ := put_read (o := s%"b") (by simp)
  obtain ⟨m1, m2, m3, m4⟩ := put_meets ha ht hc hp ho hi id
  refine ⟨d, σ, pr, τ, p, _, _, h1, h2, h3, h4, h5, hg, m1, m2, m3, m4, .cons (put_acts _ _) .nil, fun hf => ?_⟩
  obtain ⟨q, hq, hn, h2⟩ := hf s%"p" [s%"b"] ⟨rfl, rfl⟩
  rw [hp] at hq
  simp only [List.mem_cons, List.not_mem_nil, or_false] at hq
  rcases hq with rfl | rfl
  · rcases h2 with _ | ⟨h2, _⟩
    simp [Term.tags, putState] at h2
  · exact absurd hn (by decide)

end Pddl.Props
