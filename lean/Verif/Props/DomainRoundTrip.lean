/-
C42: domains through their text.
-/
import Verif.Proofs.DomainReread
import Verif.Proofs.DecEq

namespace Pddl.Props
open Spec

/-! ### C42 -/

/-- The text of the domain is read by a new parser as an equal domain. -/
def DomainRoundTrips (F : FloatOf) (d : Domain) : Prop :=
  ∃ text d' σ', d.str = .ok text ∧ parseDomain F PState.fresh text = .ok (d', σ') ∧ d'.pyEq d = true

/-- C42. Every domain that the grammar can write (`PrintDomain`) has a text, and a new parser reads it as an
equal domain. Missing: domains whose parts have no text in the grammar, or one that the parser reads as
something else; C42 is false of them (`C42_fails`). -/
theorem C42_partial {F : FloatOf} {d : Domain} (hb : BuiltDomain d) (hp : PrintDomain F d) : DomainRoundTrips F d :=
  let ⟨t, d', σ', h1, h2, h3, _⟩ := domain_read hb hp
  ⟨t, d', σ', h1, h2, h3⟩

/-- A domain with all sections. -/
def domainText : Str := s%"(define (domain logistics)
  (:requirements :typing :negative-preconditions :action-costs :fluents :disjunctive-preconditions :equality)
  (:types truck car - vehicle vehicle place)
  (:constants depot - place)
  (:predicates (at ?v - vehicle ?p - place) (free ?v - vehicle) (linked ?x ?y - (either place vehicle)))
  (:functions (total-cost) (fuel ?v - vehicle) - number)
  (:derived (free ?v - vehicle) (or (at ?v depot) (>= (fuel ?v) 5)))
  (:action drive :parameters (?v - truck ?from ?to - place)
    :precondition (and (at ?v ?from) (not (= ?from ?to)) (>= (fuel ?v) 1))
    :effect (and (at ?v ?to) (not (at ?v ?from)) (decrease (fuel ?v) 1) (increase (total-cost) 2))))"

/-- `DomainRoundTrips` as a test. -/
def domainTest (d : Domain) : Bool :=
  match d.str with
  | .error _ => false
  | .ok t => match parseDomain (fun _ => none) PState.fresh t with
    | .ok (d', _) => d'.pyEq d
    | .error _ => false

theorem domainTest_iff {d : Domain} : DomainRoundTrips (fun _ => none) d ↔ domainTest d = true := by
  constructor
  · rintro ⟨text, d', σ', h1, h2, h3⟩
    simp [domainTest, h1, h2, h3]
  · intro h
    unfold domainTest at h
    split at h
    · simp at h
    · rename_i text ht
      split at h
      · rename_i d' σ' hp
        exact ⟨text, d', σ', ht, hp, h⟩
      · simp at h

example : (match parseDomain (fun _ => none) PState.fresh domainText with
    | .ok (d, _) => domainTest d | .error _ => false) = true := by decide +kernel

section sample

private abbrev vv : Term := .var ⟨s%"v", [s%"truck"]⟩
private abbrev wv : Term := .var ⟨s%"v", [s%"vehicle"]⟩
private abbrev uv : Term := .var ⟨s%"v", []⟩
private abbrev fv : Term := .var ⟨s%"from", [s%"place"]⟩
private abbrev tv : Term := .var ⟨s%"to", [s%"place"]⟩
private abbrev dc : Term := .const s%"depot" (some s%"place")

/-- A smaller domain as arguments of the constructor. -/
def domainArgs : DomainArgs where
  name := s%"logistics"
  reqs := [.typing, .actionCosts, .fluents, .equality]
  types := [(s%"truck", some s%"vehicle"), (s%"vehicle", none), (s%"place", none)]
  constants := [dc]
  predicates := [⟨s%"at", [wv, .var ⟨s%"p", [s%"place"]⟩]⟩, ⟨s%"free", [wv]⟩,
    ⟨s%"linked", [.var ⟨s%"x", [s%"place", s%"vehicle"]⟩]⟩]
  functions := [(⟨s%"total-cost", []⟩, none), (⟨s%"fuel", [wv]⟩, some s%"number")]
  derived := [⟨⟨s%"free", [wv]⟩, .pred ⟨s%"at", [wv, dc]⟩⟩]
  actions := [⟨s%"drive", [vv, fv, tv],
    some (.bin .and [.pred ⟨s%"at", [vv, fv]⟩, .not (.eq fv tv), .bfun .ge [.nfun ⟨s%"fuel", [vv]⟩, .num (.int 1)]]),
    some (.bin .and [.pred ⟨s%"at", [vv, tv]⟩, .not (.pred ⟨s%"at", [vv, fv]⟩),
      .bfun .increase [.nfun ⟨s%"total-cost", []⟩, .num (.int 2)]])⟩]

theorem built_and {as : List Expr} (e : construct (.bop .and) as = .bin .and as) (h : ∀ a ∈ as, Built a) :
    Built (.bin .and as) := e ▸ .op (.bop .and) h

theorem built_fop {o : FOp} {a b : Expr} (e : construct (.fop o) [a, b] = .bfun o [a, b]) (ha : Built a) (hb : Built b) :
    Built (.bfun o [a, b]) := by
  rw [← e]
  refine .op _ ?_
  intro x hx
  simp only [List.mem_cons, List.not_mem_nil, or_false] at hx
  rcases hx with rfl | rfl
  · exact ha
  · exact hb

theorem domainArgs_built : BuiltDomainArgs domainArgs := by
  have pr : ∀ p ∈ domainArgs.predicates, mkPred p.name p.terms = .ok p := by decide +kernel
  have fn : ∀ f ∈ domainArgs.functions, mkNFun f.1.name f.1.terms = .ok f.1 := by decide +kernel
  have at_ : ∀ t ∈ [fv, tv], Built (.pred ⟨s%"at", [vv, t]⟩) := by
    intro t ht
    have : ∀ t ∈ [fv, tv], mkPred s%"at" [vv, t] = .ok ⟨s%"at", [vv, t]⟩ := by decide +kernel
    exact .pred (this t ht)
  refine ⟨by unfold IsDict; decide +kernel, fun p hp => ⟨_, _, pr p hp⟩, by unfold IsFunDict; decide +kernel,
    fun f hf => ⟨_, _, fn f hf⟩, ?_, ?_, by decide +kernel⟩
  · intro x hx
    simp only [domainArgs, List.mem_singleton] at hx
    subst hx
    refine ⟨?_, ?_, ⟨_, (by decide +kernel : parseName s%"drive" = .ok s%"drive")⟩⟩
    · refine built_and (by decide +kernel) ?_
      intro a ha
      simp only [List.mem_cons, List.not_mem_nil, or_false] at ha
      rcases ha with rfl | rfl | rfl
      · exact at_ _ (by simp)
      · exact .not (.eq (l := fv) (r := tv) (by decide +kernel))
      · refine built_fop (by decide +kernel) (.nfun (n := s%"fuel") (ts := [vv]) (by decide +kernel)) (.num _)
    · refine built_and (by decide +kernel) ?_
      intro a ha
      simp only [List.mem_cons, List.not_mem_nil, or_false] at ha
      rcases ha with rfl | rfl | rfl
      · exact at_ _ (by simp)
      · exact .not (at_ _ (by simp))
      · exact built_fop (by decide +kernel) (.nfun (n := s%"total-cost") (ts := []) (by decide +kernel)) (.num _)
  · intro x hx
    simp only [domainArgs, List.mem_singleton] at hx
    subst hx
    exact ⟨⟨s%"free", [wv], by decide +kernel⟩, .pred (n := s%"at") (ts := [wv, dc]) (by decide +kernel)⟩

/-- The hypotheses of `C42_partial` hold of a domain with all sections. -/
example : ∃ d, mkDomain domainArgs = .ok d ∧ BuiltDomain d ∧ PrintDomain (fun _ => none) d := by
  have hd : (match mkDomain domainArgs with | .ok _ => true | .error _ => false) = true := by decide +kernel
  cases h : mkDomain domainArgs with
  | error e => rw [h] at hd; simp at hd
  | ok d =>
    obtain ⟨_, _, _, _, _, _, _, _, hd⟩ := (mkDomain_ok domainArgs_built.types).1 h
    have e1 : d.reqs = domainArgs.reqs := by rw [hd]; decide +kernel
    have e2 : d.types = domainArgs.types := by rw [hd]; decide +kernel
    have e3 : d.constants = domainArgs.constants := by rw [hd]; decide +kernel
    have e4 : d.predicates = domainArgs.predicates := by rw [hd]; decide +kernel
    have e5 : d.functions = domainArgs.functions := by rw [hd]; decide +kernel
    have e6 : d.actions = domainArgs.actions := by rw [hd]; decide +kernel
    have e7 : d.derived = domainArgs.derived := by rw [hd]; decide +kernel
    refine ⟨d, rfl, ⟨domainArgs, domainArgs_built, h⟩, ?_⟩
    have hv : ∀ t ∈ [s%"truck", s%"vehicle", s%"place"], ValidType t := by decide +kernel
    have hn : ∀ n ∈ [s%"v", s%"p", s%"x", s%"from", s%"to", s%"depot"], ValidName n := by decide +kernel
    have one : ∀ n ∈ [s%"v", s%"p", s%"x", s%"from", s%"to", s%"depot"], ∀ l : List Str, (∀ t ∈ l, ValidType t) →
        DeclVars [⟨n, l⟩] := by
      intro n hn' l hl
      refine ⟨by simpa using hn n hn', by simpa using hl, by simp, by
        intro v hv w hw _
        simp only [List.mem_singleton] at hv hw
        subst hv hw
        exact fun _ => Iff.rfl⟩
    have hlen : Req.equality ∈ extendReqs domainArgs.reqs := by decide +kernel
    refine ⟨?_, ⟨?_, ?_, ?_⟩, ?_, ?_, ?_, ?_, ?_⟩
    · rw [e1]; decide
    · rw [e1]; exact fun _ => .inl (by decide)
    · rw [e2]; decide +kernel
    · rw [e2]
      intro p hp t ht
      simp only [domainArgs, List.mem_cons, List.not_mem_nil, or_false] at hp
      rcases hp with rfl | rfl | rfl
      · simp only [Option.some.injEq] at ht
        subst ht
        exact ⟨by decide, none, by decide +kernel⟩
      · cases ht
      · cases ht
    · rw [e3]
      intro o ho
      simp only [domainArgs, List.mem_singleton] at ho
      subst ho
      exact ⟨hn _ (by simp), by simpa using hv _ (by simp)⟩
    · rw [e4]
      intro p hp
      simp only [domainArgs, List.mem_cons, List.not_mem_nil, or_false] at hp
      rcases hp with rfl | rfl | rfl
      · refine ⟨[⟨s%"v", [s%"vehicle"]⟩, ⟨s%"p", [s%"place"]⟩], rfl, by decide +kernel, by decide +kernel, by decide +kernel, ?_⟩
        intro v hv w hw
        simp only [List.mem_cons, List.not_mem_nil, or_false] at hv hw
        rcases hv with rfl | rfl <;> rcases hw with rfl | rfl <;> intro h x
        · exact Iff.rfl
        · exact absurd h (by decide)
        · exact absurd h (by decide)
        · exact Iff.rfl
      · exact ⟨_, rfl, one _ (by simp) [s%"vehicle"] (by simpa using hv _ (by simp))⟩
      · exact ⟨_, rfl, one _ (by simp) [s%"place", s%"vehicle"] (by simpa using ⟨hv _ (by simp), hv s%"vehicle" (by simp)⟩)⟩
    · rw [e5]
      intro f hf
      simp only [domainArgs, List.mem_cons, List.not_mem_nil, or_false] at hf
      rcases hf with rfl | rfl
      · exact ⟨⟨[], rfl, ⟨by simp, by simp, by simp, by simp⟩, by simp⟩, fun _ => rfl, .inl rfl⟩
      · refine ⟨⟨_, rfl, one _ (by simp) [s%"vehicle"] (by simpa using hv _ (by simp)), by simp⟩, fun h => ?_, .inr rfl⟩
        exact absurd h (by decide)
    · rw [e7]
      intro x hx
      simp only [domainArgs, List.mem_singleton] at hx
      subst hx
      have hone := one s%"v" (by simp) [s%"vehicle"] (by simpa using hv _ (by simp))
      refine ⟨⟨_, rfl, hone, by simp⟩, ⟨⟨s%"free", [wv]⟩, by rw [e4]; decide +kernel, rfl, ?_, ?_⟩,
        ⟨.pred ⟨s%"at", [uv, dc]⟩, .pred (n := s%"at") (ts := [uv, dc]) (by decide +kernel), .pred ?_, by decide +kernel⟩⟩
      · rw [e4]; decide +kernel
      · refine .cons ⟨by simp [Term.tags], .inr ?_⟩ .nil
        intro t ht
        exact .inl ht
      · intro t ht
        simp only [List.mem_cons, List.not_mem_nil, or_false] at ht
        rcases ht with rfl | rfl
        · exact ⟨hn _ (by simp), .inr ⟨rfl, rfl⟩⟩
        · refine ⟨hn _ (by simp), ?_⟩
          show constantNamed d.constants s%"depot" = _
          rw [e3]; decide +kernel
    · rw [e6]
      intro x hx
      simp only [domainArgs, List.mem_singleton] at hx
      subst hx
      have kn : ∀ t ∈ [vv, fv, tv], Known (domainScope (fun _ => none) d [vv, fv, tv]) t := by
        intro t ht
        simp only [List.mem_cons, List.not_mem_nil, or_false] at ht
        rcases ht with rfl | rfl | rfl
        · exact ⟨hn _ (by simp), .inl ⟨⟨s%"v", [s%"truck"]⟩, rfl, rfl, fun _ => Iff.rfl⟩⟩
        · exact ⟨hn _ (by simp), .inl ⟨⟨s%"from", [s%"place"]⟩, rfl, rfl, fun _ => Iff.rfl⟩⟩
        · exact ⟨hn _ (by simp), .inl ⟨⟨s%"to", [s%"place"]⟩, rfl, rfl, fun _ => Iff.rfl⟩⟩
      refine ⟨⟨[⟨s%"v", [s%"truck"]⟩, ⟨s%"from", [s%"place"]⟩, ⟨s%"to", [s%"place"]⟩], rfl,
        by decide +kernel, by decide +kernel, ?_, by decide +kernel⟩, ?_, ?_⟩
      · intro v hv'
        simp only [List.mem_cons, List.not_mem_nil, or_false] at hv'
        rcases hv' with rfl | rfl | rfl <;> exact .inr ⟨_, rfl, hv _ (by simp)⟩
      · intro e he
        simp only [Option.some.injEq] at he
        subst he
        refine .and ?_
        intro a ha
        simp only [List.mem_cons, List.not_mem_nil, or_false] at ha
        rcases ha with rfl | rfl | rfl
        · exact .pred (by simpa using ⟨kn vv (by simp), kn fv (by simp)⟩)
        · refine .not (.eq (kn fv (by simp)) (kn tv (by simp)) ⟨.equality, by simp, ?_⟩)
          show Req.equality ∈ extendReqs d.reqs
          rw [e1]; exact hlen
        · exact .comp trivial (.fn (by simpa using kn vv (by simp))) (.num (.int 1))
      · intro e he
        simp only [Option.some.injEq] at he
        subst he
        refine .and ?_
        intro a ha
        simp only [List.mem_cons, List.not_mem_nil, or_false] at ha
        rcases ha with rfl | rfl | rfl
        · exact .lit (.atom (.pred (by simpa using ⟨kn vv (by simp), kn tv (by simp)⟩)))
        · exact .lit (.not (.pred (by simpa using ⟨kn vv (by simp), kn fv (by simp)⟩)))
        · exact .lit (.assign trivial (by simp) (.num (.int 2)))

end sample

/-- C42 for every domain that the constructor returns. -/
def C42_full : Prop := ∀ (F : FloatOf) (d : Domain), BuiltDomain d → DomainRoundTrips F d

/-- The arguments make a domain that is not read back. -/
def domainFails (a : DomainArgs) : Bool :=
  match mkDomain a with
  | .ok d => !domainTest d
  | .error _ => false

theorem domainFails_ok {a : DomainArgs} (h : domainFails a = true) :
    ∃ d, mkDomain a = .ok d ∧ ¬ DomainRoundTrips (fun _ => none) d := by
  unfold domainFails at h
  split at h
  · rename_i d hd
    exact ⟨d, hd, fun hr => by rw [domainTest_iff.1 hr] at h; simp at h⟩
  · simp at h

/-- An action with these parameters, this precondition and an empty effect. -/
def onlyAction (params : List Term) (pre : Expr) : Action := ⟨s%"m", params, some pre, some (.bin .and [])⟩

/-- C42 is false: a supertype that is not itself a key becomes one; `object` as supertype becomes none; types
without `:typing` are written with `- object`, which the parser then rejects; `:object-fluents` cannot be read;
a predicate declared with a constant, a function with the type of an object, and a function whose variable has two
types come back different or not at all; so do a parameter with two types, a constant that the domain does not
declare, an empty disjunction without `:disjunctive-preconditions`, and a negative number. -/
theorem C42_fails :
    let two : Term := .var ⟨s%"x", [s%"a", s%"b"]⟩
    let ts : DomainArgs := { name := s%"d", reqs := [.typing, .fluents], types := [(s%"a", none), (s%"b", none)] }
    ∀ a ∈ ([{ name := s%"d", reqs := [.typing], types := [(s%"a", some s%"b")] },
        { name := s%"d", reqs := [.typing], types := [(s%"a", some s%"object")] },
        { name := s%"d", types := [(s%"a", none)] },
        { name := s%"d", reqs := [.objectFluents] },
        { ts with predicates := [⟨s%"p", [.const s%"c" none]⟩] },
        { ts with functions := [(⟨s%"f", []⟩, some s%"a")] },
        { ts with functions := [(⟨s%"f", [two]⟩, some s%"number")] },
        { ts with actions := [onlyAction [two] (.bin .and [])] },
        { ts with actions := [onlyAction [] (.pred ⟨s%"p", [.const s%"c" none]⟩)] },
        { ts with actions := [onlyAction [] (.bin .or [])] },
        { ts with actions := [onlyAction [] (.bfun .ge [.nfun ⟨s%"f", []⟩, .num (.int (-1))])] }] : List DomainArgs),
      ∃ d, mkDomain a = .ok d ∧ BuiltDomain d ∧ ¬ DomainRoundTrips (fun _ => none) d := by
  intro two ts a ha
  have hfail : domainFails a = true := by
    revert a
    decide +kernel
  obtain ⟨d, h1, h2⟩ := domainFails_ok hfail
  refine ⟨d, h1, ⟨a, ?_, h1⟩, h2⟩
  have hm : ∃ n, parseName n = .ok s%"m" := ⟨s%"m", by decide +kernel⟩
  have hAnd : Built (.bin .and []) := built_and (by decide +kernel) (by simp)
  have act : ∀ (params : List Term) (pre : Expr), Built pre → BuiltAction (onlyAction params pre) :=
    fun _ _ h => ⟨h, hAnd, hm⟩
  have t1 : IsDict ts.types := by unfold IsDict; decide +kernel
  simp only [List.mem_cons, List.not_mem_nil, or_false] at ha
  rcases ha with rfl | rfl | rfl | rfl | rfl | rfl | rfl | rfl | rfl | rfl | rfl
  · exact ⟨by unfold IsDict; decide +kernel, by simp, by simp [IsFunDict], by simp, by simp, by simp, by simp⟩
  · exact ⟨by unfold IsDict; decide +kernel, by simp, by simp [IsFunDict], by simp, by simp, by simp, by simp⟩
  · exact ⟨by unfold IsDict; decide +kernel, by simp, by simp [IsFunDict], by simp, by simp, by simp, by simp⟩
  · exact ⟨by unfold IsDict; decide +kernel, by simp, by simp [IsFunDict], by simp, by simp, by simp, by simp⟩
  · refine ⟨t1, ?_, by simp [IsFunDict, ts], by simp [ts], by simp [ts], by simp [ts], by simp [ts]⟩
    intro p hp
    rw [List.mem_singleton] at hp
    subst hp
    exact ⟨s%"p", [.const s%"c" none], by decide +kernel⟩
  · refine ⟨t1, by simp [ts], by simp [IsFunDict], ?_, by simp [ts], by simp [ts], by simp [ts]⟩
    intro f hf
    rw [List.mem_singleton] at hf
    subst hf
    exact ⟨s%"f", [], by decide +kernel⟩
  · refine ⟨t1, by simp [ts], by simp [IsFunDict], ?_, by simp [ts], by simp [ts], by simp [ts]⟩
    intro f hf
    rw [List.mem_singleton] at hf
    subst hf
    exact ⟨s%"f", [two], by decide +kernel⟩
  · refine ⟨t1, by simp [ts], by simp [IsFunDict, ts], by simp [ts], ?_, by simp [ts], by decide +kernel⟩
    intro x hx
    rw [List.mem_singleton] at hx
    exact hx ▸ act _ _ hAnd
  · refine ⟨t1, by simp [ts], by simp [IsFunDict, ts], by simp [ts], ?_, by simp [ts], by decide +kernel⟩
    intro x hx
    rw [List.mem_singleton] at hx
    exact hx ▸ act _ _ (.pred (n := s%"p") (ts := [.const s%"c" none]) (by decide +kernel))
  · refine ⟨t1, by simp [ts], by simp [IsFunDict, ts], by simp [ts], ?_, by simp [ts], by decide +kernel⟩
    intro x hx
    rw [List.mem_singleton] at hx
    have : Built (.bin .or []) := by
      have e : Expr.bin .or [] = construct (.bop .or) [] := by decide +kernel
      rw [e]; exact .op _ (by simp)
    exact hx ▸ act _ _ this
  · refine ⟨t1, by simp [ts], by simp [IsFunDict, ts], by simp [ts], ?_, by simp [ts], by decide +kernel⟩
    intro x hx
    rw [List.mem_singleton] at hx
    exact hx ▸ act _ _ (built_fop (by decide +kernel) (.nfun (n := s%"f") (ts := []) (by decide +kernel)) (.num _))

theorem C42_full_fails : ¬ C42_full := by
  intro h
  obtain ⟨d, _, h2, h3⟩ := C42_fails { name := s%"d", types := [(s%"a", none)] } (by simp)
  exact h3 (h _ d h2)

/-- C42 for parsed domains. A domain that a new parser read from a text is read back from its own text as an
equal one, unless it has one of the obstacles listed in `DomainNoObstacle`, or a derived predicate was written
after an action (which leaves its parameters behind). -/
theorem C42_read_partial {F : FloatOf} {text : Str} {d : Domain} {σ' : PState}
    (h : parseDomain F PState.fresh text = .ok (d, σ')) (ho : DerivedFirst text) (hn : DomainNoObstacle F d) :
    DomainRoundTrips F d :=
  let ⟨h1, h2⟩ := domain_reread h ho hn
  C42_partial h1 h2

/-- A domain with all sections, whose derived predicate takes the type of its variable from the declaration. -/
def readSample : Str := s%"(define (domain logistics)
  (:requirements :typing :action-costs :fluents :equality :adl)
  (:types truck - vehicle vehicle place)
  (:constants depot - place)
  (:predicates (at ?v - vehicle ?p - place) (free ?v - vehicle) (linked ?x - (either place vehicle)))
  (:functions (fuel ?v - vehicle) - number (total-cost))
  (:derived (free ?w) (exists (?p - place) (at ?w ?p)))
  (:action drive :parameters (?v - truck ?from ?to - place)
    :precondition (and (at ?v ?from) (not (= ?from ?to)) (>= (fuel ?v) 1))
    :effect (and (at ?v ?to) (not (at ?v ?from)) (increase (total-cost) 2))))"

/-- What the parser makes of the derived predicate. -/
def readDerived : Derived :=
  let w := Term.var ⟨s%"w", [s%"vehicle"]⟩
  ⟨⟨s%"free", [w]⟩, .quant .ex [⟨s%"p", [s%"place"]⟩] (.pred ⟨s%"at", [w, .var ⟨s%"p", [s%"place"]⟩]⟩)⟩

def sectionIs (k : Str) : Tree → Bool
  | .node (.atom (.kw k') :: _) => decide (k' = k)
  | _ => false

theorem derivedFirst_test {text : Str} (h : (match readText text with
    | .ok [.node ts] => decide (ts.Pairwise (fun a b => sectionIs s%"action" a = true → sectionIs s%"derived" b = false))
    | _ => false) = true) : DerivedFirst text := by
  intro ts hb
  rw [readText_brackets.2 hb] at h
  simp only [decide_eq_true_eq] at h
  refine h.imp ?_
  rintro a b hab ⟨x, rfl⟩ ⟨y, rfl⟩
  have := hab (by simp [sectionIs, Grammar.section_])
  simp [sectionIs, Grammar.section_] at this

/-- The hypotheses of `C42_read_partial` hold of that text. -/
theorem readSample_ok : ∃ d σ', parseDomain (fun _ => none) PState.fresh readSample = .ok (d, σ') ∧ DerivedFirst readSample ∧
    DomainNoObstacle (fun _ => none) d ∧ d.derived = [readDerived] ∧ d.actions = domainArgs.actions := by
  have key : (match parseDomain (fun _ => none) PState.fresh readSample with
      | .ok (d, _) => decide (d.types = domainArgs.types ∧ Req.typing ∈ d.reqs ∧ d.functions = domainArgs.functions.reverse ∧
          d.actions = domainArgs.actions ∧ d.derived = [readDerived] ∧ d.predicates.map Pred.name = [s%"at", s%"free", s%"linked"])
      | .error _ => false) = true := by decide +kernel
  cases h : parseDomain (fun _ => none) PState.fresh readSample with
  | error e => rw [h] at key; simp at key
  | ok r =>
    obtain ⟨d, σ'⟩ := r
    rw [h] at key
    simp only [decide_eq_true_eq] at key
    obtain ⟨h1, h2, h3, h4, h5, h6⟩ := key
    refine ⟨d, σ', rfl, derivedFirst_test (by decide +kernel), ?_, h5, h4⟩
    constructor
    · exact fun _ => .inl h2
    · rw [h1]
      intro p hp t e
      simp only [domainArgs, List.mem_cons, List.not_mem_nil, or_false] at hp
      rcases hp with rfl | rfl | rfl
      · simp only [Option.some.injEq] at e
        subst e
        exact ⟨none, by simp [domainArgs]⟩
      · simp at e
      · simp at e
    · rw [h3]; decide +kernel
    · rw [h4]; decide +kernel
    · rw [h4]
      intro a ha e he
      simp only [domainArgs, List.mem_singleton] at ha
      subst ha
      simp only [Option.some.injEq] at he
      subst he
      exact ⟨⟨trivial, trivial, ⟨rfl, trivial, .int 1, trivial⟩, trivial⟩, by simp⟩
    · rw [h4]
      intro a ha e he
      simp only [domainArgs, List.mem_singleton] at ha
      subst ha
      simp only [Option.some.injEq] at he
      subst he
      exact ⟨⟨trivial, trivial, ⟨rfl, trivial, .int 2, trivial⟩, trivial⟩, by simp⟩
    · rw [h5]
      intro x hx
      rw [List.mem_singleton] at hx
      subst hx
      refine ⟨⟨by decide +kernel, by decide +kernel, ?_, by decide +kernel⟩, trivial⟩
      intro v hv
      rw [List.mem_singleton] at hv
      subst hv
      exact .inr ⟨_, rfl, by decide +kernel⟩
    · rw [h5]; decide +kernel
    · rw [h5]
      intro x hx p hp q hq e1 e2
      have : (d.predicates.map Pred.name).Nodup := by rw [h6]; decide +kernel
      exact List.inj_on_of_nodup_map this hq hp (e2.trans e1.symm)

/-- C42 is false of domains that the parser itself returns: for an undeclared supertype, for types without
`:typing`, for a parameter or a variable of a function with two types, for the empty precondition and effect `()`,
for operands that were merged, for quantified variables with two types, for a derived predicate that took the
types of the action before it, that has a variable twice in its head, or whose predicate is declared twice. -/
theorem C42_read_fails : ∀ text ∈ [
      s%"(define (domain d) (:requirements :typing) (:types a - b) (:predicates (p ?x - a)))",
      s%"(define (domain d) (:types a) (:predicates (p ?x)))",
      s%"(define (domain d) (:requirements :typing) (:types a b) (:action m :parameters (?x - (either a b)) :precondition (and) :effect (and)))",
      s%"(define (domain d) (:requirements :typing :fluents) (:types a b) (:functions (f ?x - (either a b)) - number))",
      s%"(define (domain d) (:action m :parameters () :precondition () :effect (and)))",
      s%"(define (domain d) (:requirements :adl) (:action m :parameters () :precondition (and) :effect ()))",
      s%"(define (domain d) (:requirements :fluents) (:functions (f)) (:action m :parameters () :precondition (= (f) (f)) :effect (and)))",
      s%"(define (domain d) (:requirements :adl) (:types a b) (:predicates (p ?x)) (:derived (p ?x) (forall (?y - (either a b)) (p ?y))))",
      s%"(define (domain d) (:requirements :typing) (:types a b) (:predicates (p ?x - a ?y - b)) (:derived (p ?x ?x) (and)))",
      s%"(define (domain d) (:requirements :typing) (:types a b) (:predicates (p ?x - b) (p ?x - a)) (:derived (p ?x) (and)))",
      s%"(define (domain d) (:requirements :typing) (:types a) (:predicates (p ?x) (q))
          (:action m :parameters (?x - a) :precondition (and) :effect (and)) (:derived (q) (p ?x)))"],
    ∃ d σ', parseDomain (fun _ => none) PState.fresh text = .ok (d, σ') ∧ ¬ DomainRoundTrips (fun _ => none) d := by
  intro text ht
  have h : (match parseDomain (fun _ => none) PState.fresh text with
      | .ok (d, _) => !domainTest d | .error _ => false) = true := by
    revert text
    decide +kernel
  split at h
  · rename_i d σ' hd
    exact ⟨d, σ', hd, fun hr => by rw [domainTest_iff.1 hr] at h; simp at h⟩
  · simp at h

end Pddl.Props
