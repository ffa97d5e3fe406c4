/-
C95: the names of an action's variables do not matter.
-/
import Verif.Proofs.RenameVarsDomain
import Verif.Proofs.RenameExchange

namespace Pddl.Props
open Spec

/-! ### As one would state it -/

/-- Writing other variables in the actions of a domain, different ones for different ones, gives a domain with the same
derived predicates that accepts the same plans. -/
def C95_full : Prop := ∀ (F : FloatOf) (text text' : Str) (pre S S' : List Tree) (D : Domain) (τ : PState),
  DomainText text pre S → DomainText text' pre S' →
  List.Forall₂ (fun t t' => t' = t ∨ (∃ b, t = .node (.atom (.kw s%"action") :: b)) ∧ RenamedText (fun _ => False) t t') S S' →
  parseDomain F .fresh text = .ok (D, τ) →
  ∃ D' τ', parseDomain F .fresh text' = .ok (D', τ') ∧ D'.derived = D.derived ∧
    ∀ (plan : Plan) (pr : Problem), plan.check D' pr = plan.check D pr

theorem exchange_vars {a b : Str} {K : Str → Prop} (ha : ValidName a) (hb : ValidName b) (hn : ∀ c, K c → c ≠ a ∧ c ≠ b) :
    VarRenaming (exchange a b) K := by
  refine ⟨?_, ?_, ?_⟩
  · intro x y h
    by_cases h1 : x = a <;> by_cases h2 : x = b <;> by_cases h3 : y = a <;> by_cases h4 : y = b <;>
      simp [exchange, h1, h2, h3, h4] at h ⊢ <;> simp_all
  · intro w hw
    unfold exchange
    split
    · exact hb
    split
    · exact ha
    · exact hw
  · intro c hc
    obtain ⟨h1, h2⟩ := hn c hc
    simp [exchange, h1, h2]

/-- A constant `b` of type `s`, and an action with a parameter of type `t`. -/
def besideText (v : Str) : Str := s%"(define (domain d) (:requirements :typing) (:types s t) (:constants b - s) (:predicates (p ?u ?v)) (:action m :parameters (?" ++ v ++
  s%" - t) :precondition (p ?" ++ v ++ s%" b) :effect (p ?" ++ v ++ s%" b)))"

/-- It is false: a variable must not have the name of a constant of another type that it stands next to. -/
theorem C95_fails : ¬ C95_full := by
  intro h
  obtain ⟨D, τ, h1⟩ := parse_some (F := fun _ => none) (text := besideText s%"x") (by decide +kernel)
  obtain ⟨D', τ', h2, _⟩ := h (fun _ => none) (besideText s%"x") (besideText s%"b") ((treesOf (besideText s%"x")).take 6)
    ((treesOf (besideText s%"x")).drop 6) ((treesOf (besideText s%"b")).drop 6) D τ
    ⟨by decide +kernel, notStructure_test (by decide +kernel), isStructure_test (by decide +kernel)⟩
    ⟨by decide +kernel, notStructure_test (by decide +kernel), isStructure_test (by decide +kernel)⟩
    (by
      have e : (treesOf (besideText s%"x")).drop 6 = [.node (.atom (.kw s%"action") :: [.atom (.name s%"m"), .atom (.kw s%"parameters"),
          .node [.atom .qmark, .atom (.name s%"x"), .atom .minus, .atom (.name s%"t")], .atom (.kw s%"precondition"),
          .node [.atom (.name s%"p"), .atom .qmark, .atom (.name s%"x"), .atom (.name s%"b")], .atom (.kw s%"effect"),
          .node [.atom (.name s%"p"), .atom .qmark, .atom (.name s%"x"), .atom (.name s%"b")]])] := by decide +kernel
      have e' : (treesOf (besideText s%"b")).drop 6 = ((treesOf (besideText s%"x")).drop 6).map (Tree.renVar (exchange s%"x" s%"b")) := by
        decide +kernel
      rw [e', e]
      exact .cons (.inr ⟨⟨_, rfl⟩, _, exchange_vars (by decide +kernel) (by decide +kernel) (by simp), rfl⟩) .nil) h1
  have : (parseDomain (fun _ => none) .fresh (besideText s%"b")).toOption.isSome = false := by decide +kernel
  rw [h2] at this
  simp [Except.toOption] at this

/-- The text of C52, with the variable of the action renamed. -/
def stale2Text : Str := s%"(define (domain d) (:requirements :typing) (:types t) (:predicates (p ?x) (q)) (:action a :parameters (?y - t) :precondition (p ?y) :effect (q)) (:derived (q) (p ?x)))"

/-- Also without constants: a derived predicate that comes after the action takes the types of the parameters from it. -/
theorem C95_fails_derived : ∃ D D' τ τ', parseDomain (fun _ => none) .fresh staleText = .ok (D, τ) ∧
    parseDomain (fun _ => none) .fresh stale2Text = .ok (D', τ') ∧ D.constants = [] ∧ D'.derived ≠ D.derived ∧
    treesOf stale2Text = (treesOf staleText).take 5 ++
      (((treesOf staleText).drop 5).take 1).map (Tree.renVar (exchange s%"x" s%"y")) ++ (treesOf staleText).drop 6 := by
  have h : (match parseDomain (fun _ => none) .fresh staleText, parseDomain (fun _ => none) .fresh stale2Text with
    | .ok (D, _), .ok (D', _) => decide (D.constants = []) && !decide (D'.derived = D.derived)
    | _, _ => false) = true := by decide +kernel
  cases h1 : parseDomain (fun _ => none) .fresh staleText with
  | error e => rw [h1] at h; simp at h
  | ok r =>
    cases h2 : parseDomain (fun _ => none) .fresh stale2Text with
    | error e => rw [h1, h2] at h; simp at h
    | ok r' =>
      rw [h1, h2] at h
      simp only [Bool.and_eq_true, decide_eq_true_eq, Bool.not_eq_true', decide_eq_false_iff_not] at h
      exact ⟨r.1, r'.1, r.2, r'.2, rfl, rfl, h.1, h.2, by decide +kernel⟩

/-! ### What holds -/

/-- Renaming the variables of the actions, moving no name of a constant, changes nothing but these variables in the
domain: the text is accepted again, and the actions are those of before with other variables. -/
theorem C95_domain_partial {F : FloatOf} {K : Str → Prop} {text text' : Str} {pre S0 S S' : List Tree} {D : Domain} {τ : PState}
    (hT : VarsRenamed K text text' pre S0 S S') (h : parseDomain F .fresh text = .ok (D, τ))
    (hK : ∀ n tag, .const n tag ∈ D.constants → K n) :
    ∃ as' τ', parseDomain F .fresh text' = .ok ({ D with actions := as' }, τ') ∧ List.Forall₂ (RenamedVars K) D.actions as' := by
  obtain ⟨ts, hr, hdef⟩ := parseDomain_ok h
  obtain ⟨P⟩ := domainDef_ok hdef
  have hr2 := hT.read.read
  rw [hr] at hr2
  simp only [Except.ok.injEq, List.cons.injEq, Tree.node.injEq, and_true] at hr2
  have P' : DomainParse F .fresh (pre ++ (S0 ++ S)) D τ := by rw [← hr2]; exact P
  obtain ⟨as', τ', h1, h2⟩ := domain_renVar hT.read.declarations hT.derived hT.actions hT.names
    (fun w hi => readText_words hT.read.read (by simp) hi) P' hK hT.renamed
  exact ⟨as', τ', by simp only [parseDomain, hT.read', ok_bind, h1], h2⟩

/-- … and the plans that are accepted and the ground actions they stand for are the same, up to the variables that are
still in the ground actions. -/
theorem C95_plan_partial {F : FloatOf} {K : Str → Prop} {text text' : Str} {pre S0 S S' : List Tree} {D D' : Domain} {τ τ' : PState}
    (hT : VarsRenamed K text text' pre S0 S S') (h : parseDomain F .fresh text = .ok (D, τ))
    (h' : parseDomain F .fresh text' = .ok (D', τ')) (hK : ∀ n tag, .const n tag ∈ D.constants → K n) (plan : Plan) :
    (∀ pr, plan.check D' pr = plan.check D pr) ∧
    ((∀ s ∈ plan.steps, ∀ t ∈ s.2, ∃ n tag, t = .const n tag ∧ K n) →
      (∃ e, plan.inst D = .error e ∧ plan.inst D' = .error e) ∨
      ∃ gs gs', plan.inst D = .ok gs ∧ plan.inst D' = .ok gs' ∧ List.Forall₂ (RenamedVars K) gs gs') := by
  obtain ⟨as', τ'', h1, h2⟩ := C95_domain_partial hT h hK
  rw [h'] at h1
  simp only [Except.ok.injEq, Prod.mk.injEq] at h1
  obtain ⟨rfl, rfl⟩ := h1
  refine ⟨fun pr => planCheck_renVar h2 plan pr, fun hargs => ?_⟩
  refine planInst_renVar h2 (fun s hs t ht => ?_) (fun s hs n tag hm => ?_) (fun a ha e he n tag hu => hK n tag ((C75_partial h).1 a ha e he n tag hu))
  · obtain ⟨n, tag, e, _⟩ := hargs s hs t ht; exact ⟨n, tag, e⟩
  · obtain ⟨n', tag', e, hk⟩ := hargs s hs _ hm
    cases e
    exact hk

/-- … and if the actions use no variables but their parameters and those they bind, a plan solves the problem for one
text if and only if it does for the other. -/
theorem C95_solves_partial {F : FloatOf} {K : Str → Prop} {text text' : Str} {pre S0 S S' : List Tree} {D D' : Domain} {τ τ' : PState}
    (hT : VarsRenamed K text text' pre S0 S S') (h : parseDomain F .fresh text = .ok (D, τ))
    (h' : parseDomain F .fresh text' = .ok (D', τ')) (hK : ∀ n tag, .const n tag ∈ D.constants → K n)
    (hcl : ∀ a ∈ D.actions, ∀ f, PartOf a f → ClosedBy (a.params.map Term.name) f)
    {plan : Plan} {pr : Problem} (hc : plan.check D pr = .ok ())
    (hargs : ∀ s ∈ plan.steps, ∀ t ∈ s.2, ∃ n tag, t = .const n tag ∧ K n) {gs gs' : List Action}
    (hg : plan.inst D = .ok gs) (hg' : plan.inst D' = .ok gs') {E : Type} (ν : Str → E) (I : Interp E) :
    Solves ν pr gs' I ↔ Solves ν pr gs I := by
  have hz : List.Forall₂ (RenamedVars K) gs gs' := by
    rcases (C95_plan_partial hT h h' hK plan).2 hargs with ⟨e, h1, _⟩ | ⟨a, b, h1, h2, h3⟩
    · rw [hg] at h1; cases h1
    · rw [hg] at h1; rw [hg'] at h2
      cases h1; cases h2
      exact h3
  have hclosed : ∀ g ∈ gs, ∀ e, PartOf g e → freeVars e = [] := fun g hm e he =>
    (C75_ground h hc hg (fun s hs t ht => by obtain ⟨n, tag, e, _⟩ := hargs s hs t ht; exact ⟨n, tag, e⟩) g hm e he).2 hcl
  unfold Solves
  simp only [runs_renVar hz hclosed]

/-! ### A case -/

/-- A domain with a derived predicate and an action with a quantifier, in the variables `x` and `y`. -/
def pickText (x y : Str) : Str := s%"(define (domain d) (:requirements :adl :derived-predicates) (:types s t) (:constants k - s) (:predicates (p ?u ?v) (q ?u)) (:derived (q ?x) (p ?x k)) (:action m :parameters (?" ++ x ++
  s%" - t) :precondition (forall (?" ++ y ++ s%" - s) (or (p ?" ++ x ++ s%" ?" ++ y ++ s%") (p ?" ++ y ++ s%" k))) :effect (and (p k ?" ++ x ++ s%") (not (p ?" ++ x ++ s%" k)))))"

theorem starts_test {k : Str} {ts : List Tree} (h : ts.all (fun
    | .node (.atom (.kw k') :: _) => decide (k' = k)
    | _ => false) = true) : ∀ t ∈ ts, ∃ b, t = .node (.atom (.kw k) :: b) := by
  intro t ht
  have := List.all_eq_true.1 h t ht
  split at this
  · rename_i k' b
    simp only [decide_eq_true_eq] at this
    subst this
    exact ⟨b, rfl⟩
  · simp at this

theorem renamed_test {K : Str → Prop} {ρ : Str → Str} (R : VarRenaming ρ K) {S S' : List Tree} (h : S' = S.map (Tree.renVar ρ)) :
    List.Forall₂ (RenamedText K) S S' := by
  subst h
  induction S with
  | nil => exact .nil
  | cons t S ih => exact .cons ⟨ρ, R, rfl⟩ ih

def closedTest (D : Domain) : Bool := D.actions.all (fun a => (a.pre.toList ++ a.eff.toList).all (fun e =>
  (freeVars e).all (fun v => decide (v.name ∈ a.params.map Term.name))))

theorem closed_test {D : Domain} (h : closedTest D = true) : ∀ a ∈ D.actions, ∀ f, PartOf a f → ClosedBy (a.params.map Term.name) f := by
  intro a ha f hf v hv
  simp only [closedTest, List.all_eq_true, decide_eq_true_eq] at h
  refine h a ha f ?_ v hv
  rcases hf with e | e <;> simp [e]

def pickPlan : Plan := ⟨[(s%"m", [.const s%"o" (some s%"t")]), (s%"m", [.const s%"k" (some s%"s")])]⟩
def pickProblem : Problem := ⟨s%"e", none, s%"d", none, [.const s%"o" (some s%"t")], [], .pred ⟨s%"q", [.const s%"o" (some s%"t")]⟩, none⟩

theorem pick_renamed : ∃ D D' τ τ', VarsRenamed (fun w => w = s%"k" ∨ w = s%"o") (pickText s%"x" s%"y") (pickText s%"y" s%"x")
      ((treesOf (pickText s%"x" s%"y")).take 6) (((treesOf (pickText s%"x" s%"y")).drop 6).take 1)
      ((treesOf (pickText s%"x" s%"y")).drop 7) ((treesOf (pickText s%"y" s%"x")).drop 7) ∧
    parseDomain (fun _ => none) .fresh (pickText s%"x" s%"y") = .ok (D, τ) ∧
    parseDomain (fun _ => none) .fresh (pickText s%"y" s%"x") = .ok (D', τ') ∧ D.constants = [.const s%"k" (some s%"s")] ∧
    D.actions ≠ D'.actions ∧ closedTest D = true ∧ pickPlan.check D pickProblem = .ok () ∧
    ∃ gs gs', pickPlan.inst D = .ok gs ∧ pickPlan.inst D' = .ok gs' ∧ gs.length = 2 := by
  have h : (match parseDomain (fun _ => none) .fresh (pickText s%"x" s%"y"), parseDomain (fun _ => none) .fresh (pickText s%"y" s%"x") with
    | .ok (D, _), .ok (D', _) => decide (D.constants = [.const s%"k" (some s%"s")]) && (!decide (D.actions = D'.actions) &&
      (closedTest D && (decide (pickPlan.check D pickProblem = .ok ()) && ((pickPlan.inst D).toOption.any (fun gs => decide (gs.length = 2)) &&
        (pickPlan.inst D').toOption.isSome))))
    | _, _ => false) = true := by decide +kernel
  cases h1 : parseDomain (fun _ => none) .fresh (pickText s%"x" s%"y") with
  | error e => rw [h1] at h; simp at h
  | ok r =>
    cases h2 : parseDomain (fun _ => none) .fresh (pickText s%"y" s%"x") with
    | error e => rw [h1, h2] at h; simp at h
    | ok r' =>
      rw [h1, h2] at h
      simp only [Bool.and_eq_true, decide_eq_true_eq, Bool.not_eq_true', decide_eq_false_iff_not] at h
      obtain ⟨k1, k2, k3, k4, k5, k6⟩ := h
      cases hg : pickPlan.inst r.1 with
      | error e => rw [hg] at k5; simp [Except.toOption] at k5
      | ok gs =>
        cases hg' : pickPlan.inst r'.1 with
        | error e => rw [hg'] at k6; simp [Except.toOption] at k6
        | ok gs' =>
          rw [hg] at k5
          exact ⟨r.1, r'.1, r.2, r'.2, ⟨⟨by decide +kernel, notStructure_test (by decide +kernel), isStructure_test (by decide +kernel)⟩,
            by decide +kernel, starts_test (by decide +kernel), starts_test (by decide +kernel), by decide +kernel,
            renamed_test (exchange_vars (a := s%"x") (b := s%"y") (by decide +kernel) (by decide +kernel) (by
              rintro c (rfl | rfl) <;> decide)) (by decide +kernel)⟩, rfl, rfl, k1, k2, k3, k4, gs, gs', hg, hg', by
            simpa [Except.toOption] using k5⟩

/-- The hypotheses of all three theorems are met by a text in which the actions change. -/
example : ∃ D D' : Domain, D.actions ≠ D'.actions ∧ List.Forall₂ (RenamedVars (fun w => w = s%"k" ∨ w = s%"o")) D.actions D'.actions ∧
    pickPlan.check D' pickProblem = .ok () ∧ ∃ gs gs', pickPlan.inst D = .ok gs ∧ pickPlan.inst D' = .ok gs' ∧ gs.length = 2 ∧
      ∀ (E : Type) (ν : Str → E) (I : Interp E), Solves ν pickProblem gs' I ↔ Solves ν pickProblem gs I := by
  obtain ⟨D, D', τ, τ', hT, h, h', hc, hne, hcl, hp, gs, gs', hg, hg', hl⟩ := pick_renamed
  have hK : ∀ n tag, .const n tag ∈ D.constants → (fun w => w = s%"k" ∨ w = s%"o") n := by
    intro n tag hm
    rw [hc] at hm
    simp only [List.mem_singleton, Term.const.injEq] at hm
    exact .inl hm.1
  have hargs : ∀ s ∈ pickPlan.steps, ∀ t ∈ s.2, ∃ n tag, t = .const n tag ∧ (fun w => w = s%"k" ∨ w = s%"o") n := by
    intro s hs t ht
    simp only [pickPlan, List.mem_cons, List.not_mem_nil, or_false] at hs
    rcases hs with rfl | rfl
    · simp only [List.mem_singleton] at ht; exact ⟨_, _, ht, .inr rfl⟩
    · simp only [List.mem_singleton] at ht; exact ⟨_, _, ht, .inl rfl⟩
  obtain ⟨as', τ'', h1, h2⟩ := C95_domain_partial hT h hK
  rw [h'] at h1
  simp only [Except.ok.injEq, Prod.mk.injEq] at h1
  refine ⟨D, D', hne, by rw [h1.1]; exact h2, ?_, gs, gs', hg, hg', hl, fun E ν I =>
    C95_solves_partial hT h h' hK (closed_test hcl) hp hargs hg hg' ν I⟩
  rw [(C95_plan_partial hT h h' hK pickPlan).1, hp]

end Pddl.Props
