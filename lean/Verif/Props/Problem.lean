/- C24-C28: problems and plans. -/
import Verif.Proofs.Problem
import Verif.Proofs.DecEq
import Verif.Props.Validation
import Verif.Props.Instantiate

namespace Pddl.Props
open Pddl Spec

/-! ### C24 -/

theorem literal_congr {a b : Expr} (h : a.pyEq b = true) (hb : Literal b) : Literal a := by
  rw [Expr.pyEq_iff] at h
  rw [← literal_iff] at *
  cases a with
  | not a =>
    cases b with
    | not b =>
      simp only [Expr.norm, NExpr.not.injEq] at h
      cases a <;> cases b <;> simp [Expr.norm] at h <;> simp_all [isLiteral, Expr.isAtomic]
    | _ => simp [Expr.norm] at h
  | _ => cases b <;> simp [Expr.norm] at h <;> simp_all [isLiteral, Expr.isAtomic]

/-- Every problem that exists has only literals in its initial condition, and so had
the collection it was made from. -/
theorem C24_literals (a : ProblemArgs) (p : Problem) (h : mkProblem a = .ok p) :
    (∀ e ∈ p.init, Literal e) ∧ ∀ e ∈ a.init, Literal e := by
  unfold mkProblem at h
  simp only [bind_ok_iff] at h
  obtain ⟨n, _, dn, _, rs, _, _, h1, _, _, h2⟩ := h
  simp only [pure_ok, Except.ok.injEq] at h2
  rw [check_ok, List.all_eq_true] at h1
  subst h2
  have hp : ∀ e ∈ dedupBy Expr.pyEq a.init, Literal e := fun e he => literal_iff.mp (h1 e he)
  refine ⟨hp, ?_⟩
  intro e he
  obtain ⟨e', he', hq⟩ := memBy_iff.mp (dedupBy_cover (eq := Expr.pyEq) Expr.pyEq_refl he)
  exact literal_congr hq (hp e' he')

/-- An initial condition with another formula is rejected. -/
theorem C24_rejected (a : ProblemArgs) (e : Expr) (he : e ∈ a.init) (hl : ¬ Literal e) :
    ∃ x, mkProblem a = .error x := by
  cases h : mkProblem a with
  | error x => exact ⟨x, rfl⟩
  | ok p => exact absurd ((C24_literals a p h).2 e he) hl

example : mkProblem { name := s%"p", domainName := some s%"d"
                      init := [.pred ⟨s%"q", []⟩, .bin .or [.pred ⟨s%"q", []⟩, .pred ⟨s%"r", []⟩]] }
    = .error .validation := by rfl
example : ∃ p, mkProblem { name := s%"p", domainName := some s%"d"
                           init := [.pred ⟨s%"q", []⟩, .not (.pred ⟨s%"r", []⟩)] } = .ok p := ⟨_, rfl⟩

/-! ### C25 -/

/-- `problem.check(domain)` succeeds iff the problem fits the domain. -/
theorem C25_check (p : Problem) (d : Domain) (hd : ExistsDomain d) :
    p.check d = .ok () ↔ Fits p d := problemCheck_ok hd

/-- Otherwise it raises a validation error. -/
theorem C25_error (p : Problem) (d : Domain) (hd : ExistsDomain d) (h : ¬ Fits p d) :
    p.check d = .error .validation := by
  cases hc : p.check d with
  | ok u => exact absurd ((problemCheck_ok hd).mp hc) h
  | error e => rw [problemCheck_error hd hc]

def demoDomain : Domain := domainOf demoDomainArgs
theorem demoDomain_exists : ExistsDomain demoDomain :=
  ⟨demoDomainArgs, by unfold IsDict; decide +kernel, rfl⟩

def demoProblem : Problem :=
  { name := s%"p1", domain := none, domainName_ := s%"LOGISTICS", reqs_ := none
    objects := [.const s%"t2" (some s%"truck")], init := [.pred ⟨s%"at", [.const s%"t2" (some s%"truck")]⟩]
    goal := .bin .and [], metric := none }
example : demoProblem.check demoDomain = .ok () := by rfl
example : ({ demoProblem with objects := [.const s%"t2" (some s%"plane")] }).check demoDomain
    = .error .validation := by rfl

/-! ### C26 -/

/-- The object after a history of assignments to `problem.domain`, failed ones included. -/
def assignAll (p : Problem) (ds : List Domain) : Problem := ds.foldl (fun p d => (p.setDomain d).1) p

/-- The problem fits the domain it has, if any. -/
def Consistent (p : Problem) : Prop := ∀ d, p.domain = some d → Fits p d

/-- The full statement. -/
def C26_full : Prop :=
  ∀ (a : ProblemArgs) (p : Problem) (ds : List Domain), mkProblem a = .ok p →
    (∀ d, a.domain = some d → ExistsDomain d) → (∀ d ∈ ds, ExistsDomain d) →
    Consistent (assignAll p ds) ∧
    ∀ d, ExistsDomain d → ∀ e, ((assignAll p ds).setDomain d).2 = .error e →
      ((assignAll p ds).setDomain d).1 = assignAll p ds

/-- It is false: the setter assigns first and checks afterwards, so a rejected
assignment leaves the problem attached to a domain it does not fit. -/
theorem C26_fails : ¬ C26_full := by
  intro h
  have h1 := (h { name := s%"p", domainName := some s%"d", reqs := some [.adl] }
    ⟨s%"p", none, s%"d", some [.adl], [], [], .bin .and [], none⟩ [demoDomain] rfl
    (by simp) (by simp [demoDomain_exists])).1 demoDomain rfl
  have := h1.reqs [.adl] rfl .adl (by simp)
  revert this
  decide +kernel

/-- A constructed problem is consistent. -/
theorem C26_constructed (a : ProblemArgs) (p : Problem) (h : mkProblem a = .ok p)
    (hd : ∀ d, a.domain = some d → ExistsDomain d) : Consistent p := by
  unfold mkProblem at h
  simp only [bind_ok_iff] at h
  obtain ⟨n, _, dn, _, rs, _, _, _, _, h1, h2⟩ := h
  simp only [pure_ok, Except.ok.injEq] at h2
  intro d he
  have hda : a.domain = some d := by rw [← h2] at he; exact he
  unfold Problem.checkConsistency at h1
  rw [h2, he] at h1
  exact (problemCheck_ok (hd d hda)).mp h1

/-- What holds of the setter: after an assignment that does not raise the problem is
consistent, whatever happened before; and no assignment, failed or not, changes
anything but the attached domain. -/
theorem C26_partial (p : Problem) (ds : List Domain) (d : Domain) (hd : ExistsDomain d) :
    (((assignAll p ds).setDomain d).2 = .ok () → Consistent ((assignAll p ds).setDomain d).1) ∧
    (assignAll p ds).name = p.name ∧ (assignAll p ds).objects = p.objects ∧
    (assignAll p ds).init = p.init ∧ (assignAll p ds).goal = p.goal ∧
    (assignAll p ds).metric = p.metric ∧ (assignAll p ds).reqs_ = p.reqs_ := by
  refine ⟨?_, ?_⟩
  · intro h d' he
    simp only [Problem.setDomain, Option.some.injEq] at he
    subst he
    exact (problemCheck_ok hd).mp h
  · unfold assignAll
    induction ds generalizing p with
    | nil => simp
    | cons x ds ih => rw [List.foldl_cons]; exact ih _

/-- The domain assigned last, accepted or not, gives the attributes of the problem. -/
theorem C26_attributes (p : Problem) (ds : List Domain) (d : Domain) :
    ((assignAll p ds).setDomain d).1.domain = some d ∧ ((assignAll p ds).setDomain d).1.domainName = d.name ∧
    ((assignAll p ds).setDomain d).1.reqs = d.reqs := ⟨rfl, rfl, rfl⟩

/-- An assignment is rejected iff the problem's requirements, objects, initial condition
or goal do not fit; the names cannot be the reason. -/
theorem C26_accepted (p : Problem) (d : Domain) (hd : ExistsDomain d) :
    (p.setDomain d).2 = .ok () ↔
      (∀ rs, p.reqs_ = some rs → ∀ r ∈ rs, r ∈ d.reqs) ∧
      (∀ t ∈ p.objects, WellTypedTerm (Declared d.types) d.reqs t) ∧
      (∀ e ∈ p.init, WellTyped (Declared d.types) d.reqs e) ∧
      WellTyped (Declared d.types) d.reqs p.goal := by
  have : (p.setDomain d).2 = .ok () ↔ Fits (p.setDomain d).1 d := problemCheck_ok hd
  rw [this]
  exact ⟨fun h => ⟨h.reqs, h.objects, h.init, h.goal⟩,
    fun ⟨h1, h2, h3, h4⟩ => ⟨rfl, h1, h2, h3, h4⟩⟩

example : ((assignAll demoProblem [demoDomain]).setDomain demoDomain).2 = .ok () := by rfl

/-! ### C27 -/

/-- `plan.check(domain, problem)` succeeds iff every step names an action of the domain,
has as many arguments as it has parameters, and uses known objects. -/
theorem C27_check (p : Plan) (d : Domain) (pr : Problem) :
    p.check d pr = .ok () ↔ ∀ s ∈ p.steps, StepOk d pr s := planCheck_ok

/-- Otherwise it raises a validation error (never `KeyError`). -/
theorem C27_error (p : Plan) (d : Domain) (pr : Problem) (h : ¬ ∀ s ∈ p.steps, StepOk d pr s) :
    p.check d pr = .error .validation := by
  cases hc : p.check d pr with
  | ok u => exact absurd (planCheck_ok.mp hc) h
  | error e => rw [planCheck_error hc]

def demoPlan : Plan := ⟨[(s%"go", [.const s%"t1" none]), (s%"go", [.const s%"t2" none])]⟩
example : demoPlan.check demoDomain demoProblem = .ok () := by decide +kernel
example : (⟨[(s%"go", [.const s%"t3" none])]⟩ : Plan).check demoDomain demoProblem = .error .validation := by
  decide +kernel

/-! ### C28 -/

/-- One ground action per step, with the step's name and arguments. -/
def Grounds (steps : List (Str × List Term)) (gs : List Action) : Prop :=
  List.Forall₂ (fun s g => g.name = s.1 ∧ g.params = s.2) steps gs

/-- The full statement. -/
def C28_full : Prop :=
  ∀ (d : Domain) (pr : Problem) (p : Plan), ExistsDomain d → (∀ a ∈ d.actions, BuiltAction a) →
    p.check d pr = .ok () → ∃ gs, p.inst d = .ok gs ∧ Grounds p.steps gs

def whenDomainArgs : DomainArgs :=
  { name := s%"d", predicates := [⟨s%"p", []⟩]
    actions := [⟨s%"go", [], some (.pred ⟨s%"p", []⟩),
      some (.when (.pred ⟨s%"p", []⟩) (.not (.pred ⟨s%"p", []⟩)))⟩] }

/-- It is false for actions with conditional effects: `AttributeError`. -/
theorem C28_fails : ¬ C28_full := by
  intro h
  have hp : Built (.pred ⟨s%"p", []⟩) := .pred (n := s%"p") (ts := []) (by decide +kernel)
  obtain ⟨gs, hgs, _⟩ := h (domainOf whenDomainArgs) demoProblem ⟨[(s%"go", [])]⟩
    ⟨whenDomainArgs, by unfold IsDict; decide +kernel, rfl⟩
    (by
      intro a ha
      simp [domainOf, whenDomainArgs, dedupBy, dedupAux, memBy] at ha
      subst ha
      exact ⟨hp, .when hp (.not hp), s%"go", by decide +kernel⟩)
    (by rfl)
  have : (⟨[(s%"go", [])]⟩ : Plan).inst (domainOf whenDomainArgs) = .error .attribute := by rfl
  rw [this] at hgs
  simp at hgs

def clashDomainArgs : DomainArgs :=
  { name := s%"d", reqs := [.typing], types := [(s%"t", none)], constants := [.const s%"c" (some s%"t")]
    predicates := [⟨s%"p", [.var ⟨s%"x", []⟩, .var ⟨s%"y", []⟩]⟩]
    actions := [⟨s%"go", [.var ⟨s%"x", []⟩],
      some (.pred ⟨s%"p", [.var ⟨s%"x", []⟩, .const s%"c" (some s%"t")]⟩), some (.bin .and [])⟩] }

/-- It also fails for the plans that the parser makes, whose constants are untyped:
`(go c)` is accepted by `check`, but `p(?x, c - t)` becomes `p(c, c - t)` and raises
`ValueError`. -/
theorem C28_fails_untyped : ∃ (d : Domain) (pr : Problem) (p : Plan), ExistsDomain d ∧
    p.check d pr = .ok () ∧ p.inst d = .error .value :=
  ⟨domainOf clashDomainArgs, demoProblem, ⟨[(s%"go", [.const s%"c" none])]⟩,
    ⟨clashDomainArgs, by unfold IsDict; decide +kernel, rfl⟩, by rfl, by rfl⟩

/-- When `instantiate` returns, the result is as stated (checked plan or not). -/
theorem C28_partial_result (d : Domain) (p : Plan) (gs : List Action)
    (hb : ∀ a ∈ d.actions, BuiltAction a) (h : p.inst d = .ok gs) : Grounds p.steps gs := by
  have h1 := instSteps_ok.mp h
  unfold Grounds
  refine List.Forall₂.imp ?_ h1
  rintro s g ⟨a, ha, hi⟩
  obtain ⟨hm, hn⟩ := lastNamed_mem ha
  obtain ⟨n, hn'⟩ := (hb a hm).name
  have hv : parseName a.name = .ok a.name := by
    obtain ⟨e, hv⟩ := parseName_ok.mp hn'
    rw [e]; exact parseName_of_valid hv
  obtain ⟨_, h2, h3, _⟩ := (C15_result a g s.2 hv).mp hi
  exact ⟨h2.trans hn, h3⟩

/-- The atoms of an optional part. -/
def atomsOpt : Option Expr → List (Str × List Term)
  | none => []
  | some e => atoms e

/-- No conditional or universal effect in an optional part. -/
def NoEffectOpt : Option Expr → Prop
  | none => True
  | some e => NoEffect e

theorem ofZip_values (ps args : List Term) : ∀ p ∈ Mapping.ofZip ps args, p.2 ∈ args := by
  unfold Mapping.ofZip
  have hset : ∀ (m : Mapping) (k v : Term) (L : List Term), (∀ p ∈ m, p.2 ∈ L) → v ∈ L →
      ∀ p ∈ m.set k v, p.2 ∈ L := by
    intro m k v L hm hv p hp
    unfold Mapping.set at hp
    split at hp
    · obtain ⟨q, hq, rfl⟩ := List.mem_map.mp hp
      split
      · exact hv
      · exact hm q hq
    · rcases List.mem_append.mp hp with hp | hp
      · exact hm p hp
      · simp at hp; subst hp; exact hv
  have : ∀ (l : List (Term × Term)) (m : Mapping) (L : List Term), (∀ p ∈ m, p.2 ∈ L) →
      (∀ p ∈ l, p.2 ∈ L) → ∀ p ∈ l.foldl (fun m p => m.set p.1 p.2) m, p.2 ∈ L := by
    intro l
    induction l with
    | nil => intro m L hm _; exact hm
    | cons q l ih =>
      intro m L hm hl
      rw [List.foldl_cons]
      exact ih _ L (hset m _ _ L hm (hl q (by simp))) (fun p hp => hl p (List.mem_cons_of_mem _ hp))
  exact this _ [] args (by simp) (fun p hp => (List.of_mem_zip hp).2)

/-- A checked plan can be instantiated when the actions have no conditional or
universal effects and every name has one set of types `τ` in the actions and in the
plan. -/
theorem C28_partial (d : Domain) (pr : Problem) (p : Plan) (τ : Str → List Str)
    (hb : ∀ a ∈ d.actions, BuiltAction a) (hc : p.check d pr = .ok ())
    (hn : ∀ a ∈ d.actions, NoEffectOpt a.pre ∧ NoEffectOpt a.eff)
    (ha : ∀ a ∈ d.actions, ∀ x ∈ atomsOpt a.pre ++ atomsOpt a.eff, ∀ t ∈ x.2, Conforms τ t)
    (hp : ∀ s ∈ p.steps, ∀ t ∈ s.2, Conforms τ t) :
    ∃ gs, p.inst d = .ok gs ∧ Grounds p.steps gs := by
  have hopt : ∀ (o : Option Expr) (m : Mapping), BuiltOpt o → NoEffectOpt o →
      (∀ x ∈ atomsOpt o, ∀ t ∈ x.2, Conforms τ t) → (∀ q ∈ m, Conforms τ q.2) →
      ∃ o', InstOpt m o o' := by
    intro o m hb hn ha hm
    cases o with
    | none => exact ⟨none, trivial⟩
    | some e =>
      obtain ⟨g, hg⟩ := inst_ok_of_conforms hm (Spec.Built.good hb) hn ha
      exact ⟨some g, hg⟩
  have hsteps := planCheck_ok.mp hc
  have : ∃ gs, List.Forall₂ (fun s g => ∃ a, lastNamed s.1 d.actions = some a ∧ a.inst s.2 = .ok g) p.steps gs := by
    generalize p.steps = l at hsteps hp
    induction l with
    | nil => exact ⟨[], .nil⟩
    | cons s l ih =>
      obtain ⟨gs, hgs⟩ := ih (fun x hx => hsteps x (List.mem_cons_of_mem _ hx))
        (fun x hx => hp x (List.mem_cons_of_mem _ hx))
      obtain ⟨a, hl, hlen, _⟩ := hsteps s (by simp)
      obtain ⟨hm, _⟩ := lastNamed_mem hl
      have hvals : ∀ q ∈ Mapping.ofZip a.params s.2, Conforms τ q.2 := fun q hq =>
        hp s (by simp) _ (ofZip_values _ _ q hq)
      obtain ⟨pre, h1⟩ := hopt a.pre _ (hb a hm).pre (hn a hm).1
        (fun x hx => ha a hm x (List.mem_append.mpr (Or.inl hx))) hvals
      obtain ⟨eff, h2⟩ := hopt a.eff _ (hb a hm).eff (hn a hm).2
        (fun x hx => ha a hm x (List.mem_append.mpr (Or.inr hx))) hvals
      obtain ⟨n, hn'⟩ := (hb a hm).name
      have hv : parseName a.name = .ok a.name := by
        obtain ⟨e, hv⟩ := parseName_ok.mp hn'
        rw [e]; exact parseName_of_valid hv
      exact ⟨⟨a.name, s.2, pre, eff⟩ :: gs, .cons ⟨a, hl, (C15_result a _ s.2 hv).mpr
        ⟨hlen, rfl, rfl, h1, h2⟩⟩ hgs⟩
  obtain ⟨gs, hgs⟩ := this
  exact ⟨gs, instSteps_ok.mpr hgs, C28_partial_result d p gs hb (instSteps_ok.mpr hgs)⟩

example : ∃ gs, demoPlan.inst demoDomain = .ok gs ∧ gs.length = 2 := ⟨_, rfl, rfl⟩

end Pddl.Props
