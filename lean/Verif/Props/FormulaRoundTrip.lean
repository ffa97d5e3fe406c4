/-
C41: conditions through their text.
-/
import Verif.Proofs.Printable
import Verif.Proofs.DecEq
import Verif.Proofs.Keeps
import Verif.Model.ParseDomain

namespace Pddl.Props
open Spec

/-! ### C41 -/

/-- The text of the condition is read back, in the scope `E`, as an equal condition. -/
def RoundTrips (E : GEnv) (f : Expr) : Prop :=
  ∃ t g, readText f.str = .ok [t] ∧ E.gd t = .ok g ∧ g.pyEq f = true

/-- The same for effects. -/
def EffectRoundTrips (E : GEnv) (f : Expr) : Prop :=
  ∃ t g, readText f.str = .ok [t] ∧ E.effect true t = .ok g ∧ g.pyEq f = true

/-- C41. Every condition that the grammar can write (`PrintCond`), of any depth, is read back from its
text as an equal one. -/
theorem C41_partial {E : GEnv} {f : Expr} (hb : Built f) (hp : PrintCond E f) : RoundTrips E f := by
  obtain ⟨⟨g, h1, h2⟩, w⟩ := printCond_rel hp hb.good
  exact ⟨f.tree, g, (Prints.expr w).readText, gd_of_rel h1, (Expr.pyEq_iff _ _).2 h2⟩

/-- C41. The same for effects. -/
theorem C41_effects_partial {E : GEnv} {f : Expr} (hb : Built f) (hp : PrintEff E true f) :
    EffectRoundTrips E f := by
  obtain ⟨⟨g, h1, h2⟩, w⟩ := printEff_rel hp hb.good
  exact ⟨f.tree, g, (Prints.expr w).readText, effect_of_rel h1, (Expr.pyEq_iff _ _).2 h2⟩

/-- A scope with all requirements, a parameter `?x` of type `t`, and a constant `c`. -/
def sampleScope : GEnv :=
  ⟨fun _ => none, [.adl, .equality, .fluents],
   fun n => if n = s%"c" then .ok (.const s%"c" (some s%"t")) else .error .value,
   [(s%"x", .var ⟨s%"x", [s%"t"]⟩)], typedListVariable⟩

/-- The condition that a text is read into. -/
def condOf (E : GEnv) (text : Str) : Except Exc Expr := do
  match ← readText text with
  | [t] => E.gd t
  | _ => .error .lark

/-- Reading, printing and reading again. -/
def again (E : GEnv) (text : Str) : Except Exc (Str × Except Exc Expr) := do
  let f ← condOf E text
  pure (f.str, condOf E f.str)

/-- C41. A condition that was read from a text in the scope of a domain is read back from its own text as
an equal one, unless it contains a number with another spelling, a numeric operator whose operands were
merged, or quantified variables with several types or untyped before typed. -/
theorem C41_read_partial {E : GEnv} (hE : DomainScope E) {t : Tree} {f : Expr} (h : E.gd t = .ok f)
    (hn : NoObstacle E.float f) : RoundTrips E f :=
  C41_partial (gd_rel h).good.built (((gd_rel h).read hE.toTermScope).print hE hn)

theorem sampleScope_domain : DomainScope sampleScope := by
  refine ⟨⟨?_, ?_⟩, rfl⟩
  · intro n t h
    change (if n = s%"c" then Except.ok (Term.const s%"c" (some s%"t")) else Except.error Exc.value) = _ at h
    split at h
    · rename_i hn
      subst hn
      simp only [Except.ok.injEq] at h
      exact ⟨by decide +kernel, _, h.symm⟩
    · simp at h
  · intro n t h
    by_cases hn : n = s%"x"
    · subst hn
      have : dictGet sampleScope.params s%"x" = some (.var ⟨s%"x", [s%"t"]⟩) := by decide +kernel
      rw [this] at h
      simp only [Option.some.injEq] at h
      exact ⟨by decide +kernel, _, h.symm, rfl⟩
    · have hb : (n == s%"x") = false := by simpa using hn
      simp [sampleScope, dictGet, List.lookup, hb] at h

/-- `(and (= ?x c) (not (p ?x c)) (forall (?y - t ?z) (or (q ?x ?y) (>= (+ (f ?x) 1) 12))))` -/
def sampleCond : Expr :=
  let x := Term.var ⟨s%"x", [s%"t"]⟩
  let c := Term.const s%"c" (some s%"t")
  .bin .and [.eq x c, .not (.pred ⟨s%"p", [x, c]⟩),
    .quant .all [⟨s%"y", [s%"t"]⟩, ⟨s%"z", []⟩]
      (.bin .or [.pred ⟨s%"q", [x, .var ⟨s%"y", []⟩]⟩,
        .bfun .ge [.bfun .plus [.nfun ⟨s%"f", [x]⟩, .num (.int 1)], .num (.int 12)]])]

/-- The hypotheses hold of a condition with connectives, a quantifier and numbers. -/
example : (∃ t, readText s%"(and (= ?x c) (not (p ?x c)) (forall (?y - t ?z) (or (q ?x ?y) (>= (+ (f ?x) 1) 12))))" =
      .ok [t] ∧ sampleScope.gd t = .ok sampleCond) ∧ DomainScope sampleScope ∧
    NoObstacle sampleScope.float sampleCond := by
  refine ⟨⟨sampleCond.tree, by decide +kernel, by decide +kernel⟩, sampleScope_domain, ?_⟩
  simp only [sampleCond, NoObstacle, NoObstacles, WrittenArity, List.length_cons, List.length_nil, and_true, true_and]
  exact ⟨⟨by decide +kernel, by decide +kernel, by
    intro v hv
    simp only [List.mem_cons, List.not_mem_nil, or_false] at hv
    rcases hv with rfl | rfl
    · exact Or.inr ⟨_, rfl, by decide +kernel⟩
    · exact Or.inl rfl, by decide +kernel⟩, ⟨by trivial, .int 1⟩, .int 12⟩

/-- C41 for every condition that the parser returns. -/
def C41_full : Prop := ∀ (E : GEnv), DomainScope E → ∀ t f, E.gd t = .ok f → RoundTrips E f

/-- `RoundTrips` as a test. -/
def roundTripsB (E : GEnv) (f : Expr) : Bool :=
  match condOf E f.str with
  | .ok g => g.pyEq f
  | .error _ => false

theorem roundTrips_test {E : GEnv} {f : Expr} : RoundTrips E f ↔ roundTripsB E f = true := by
  constructor
  · rintro ⟨t, g, h1, h2, h3⟩
    simp [roundTripsB, condOf, h1, h2, h3]
  · intro h
    unfold roundTripsB at h
    split at h
    · rename_i g hg
      unfold condOf at hg
      rw [bind_ok_iff] at hg
      obtain ⟨ts, h1, h2⟩ := hg
      split at h2
      · exact ⟨_, g, h1, h2, h⟩
      · simp at h2
    · simp at h

/-- The text is read into a condition whose own text is not read into an equal one. -/
def failsB (E : GEnv) (text : Str) : Bool :=
  match condOf E text with
  | .ok f => !roundTripsB E f
  | .error _ => false

theorem fails_test {E : GEnv} {text : Str} (h : failsB E text = true) :
    ∃ t f, readText text = .ok [t] ∧ E.gd t = .ok f ∧ ¬ RoundTrips E f := by
  unfold failsB at h
  split at h
  · rename_i f hf
    unfold condOf at hf
    rw [bind_ok_iff] at hf
    obtain ⟨ts, h1, h2⟩ := hf
    split at h2
    · rename_i t
      exact ⟨t, f, h1, h2, fun hr => by rw [roundTrips_test.1 hr] at h; simp at h⟩
    · simp at h2
  · simp at h

/-- C41 is false of conditions that the parser itself returns: a variable with two types is written
`?a - t u`; an operator with a repeated operand is written with one operand, which the grammar does not
accept; nested divisions are written as one with three operands. -/
theorem C41_fails : ∀ text ∈ [s%"(exists (?a - (either t u)) (p ?a))", s%"(>= (+ (f) (f)) 1)",
      s%"(= (f) (f))", s%"(>= (/ (/ (f) 1) 2) 1)"],
    ∃ t f, readText text = .ok [t] ∧ sampleScope.gd t = .ok f ∧ ¬ RoundTrips sampleScope f := by
  have h : ∀ text ∈ [s%"(exists (?a - (either t u)) (p ?a))", s%"(>= (+ (f) (f)) 1)",
      s%"(= (f) (f))", s%"(>= (/ (/ (f) 1) 2) 1)"], failsB sampleScope text = true := by
    decide +kernel
  exact fun text ht => fails_test (h text ht)

theorem C41_full_fails : ¬ C41_full := by
  intro h
  obtain ⟨t, f, _, h2, h3⟩ := C41_fails s%"(= (f) (f))" (by simp)
  exact h3 (h sampleScope sampleScope_domain t f h2)

/-- C41 also depends on the order in which Python iterates over the set of quantified variables: with the
untyped variable first the text is read, but as a different condition. -/
theorem C41_order_fails :
    let f := mkQuant .ex (.pred ⟨s%"p", []⟩) [⟨s%"b", []⟩, ⟨s%"a", [s%"t"]⟩]
    let f' := mkQuant .ex (.pred ⟨s%"p", []⟩) [⟨s%"a", [s%"t"]⟩, ⟨s%"b", []⟩]
    f.pyEq f' = true ∧ ¬ RoundTrips sampleScope f ∧ RoundTrips sampleScope f' := by
  refine ⟨by decide +kernel, fun h => ?_, ?_⟩
  · exact absurd (roundTrips_test.1 h) (by decide +kernel)
  · exact roundTrips_test.2 (by decide +kernel)

/-- The text `(and (q ?x) (forall (?y - t) (when (p ?y) (not (r ?y)))) (increase (f) 2))` of an effect. -/
example : PrintEff sampleScope true (.bin .and [.pred ⟨s%"q", [.var ⟨s%"x", [s%"t"]⟩]⟩,
    .fall [⟨s%"y", [s%"t"]⟩] (.when (.pred ⟨s%"p", [.var ⟨s%"y", []⟩]⟩) (.not (.pred ⟨s%"r", [.var ⟨s%"y", []⟩]⟩))),
    .bfun .increase [.nfun ⟨s%"f", []⟩, .num (.int 2)]]) := by
  have ky : Known sampleScope (.var ⟨s%"y", []⟩) := ⟨by decide +kernel, Or.inr ⟨by decide +kernel, rfl⟩⟩
  have kx : Known sampleScope (.var ⟨s%"x", [s%"t"]⟩) :=
    ⟨by decide +kernel, Or.inl ⟨⟨s%"x", [s%"t"]⟩, by decide +kernel, rfl, fun _ => Iff.rfl⟩⟩
  refine .and ?_
  intro a ha
  simp only [List.mem_cons, List.not_mem_nil, or_false] at ha
  rcases ha with rfl | rfl | rfl
  · exact .lit (.atom (.pred (by simpa using kx)))
  · refine .fall rfl ⟨by decide +kernel, by decide +kernel, ?_, by decide +kernel⟩
      (.when (.pred (by simpa using ky)) (.lit (.not (.pred (by simpa using ky)))))
    intro v hv
    simp only [List.mem_cons, List.not_mem_nil, or_false] at hv
    subst hv
    exact Or.inr ⟨_, rfl, by decide +kernel⟩
  · exact .lit (.assign trivial (by simp) (.num (.int 2)))

end Pddl.Props
