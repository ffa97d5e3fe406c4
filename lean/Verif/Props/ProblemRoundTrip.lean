/-
C43: problems through their text.
-/
import Verif.Proofs.ProblemRead
import Verif.Proofs.DecEq

namespace Pddl.Props
open Spec

/-! ### C43 -/

/-- The text of the problem is read by a new parser as an equal problem. -/
def ProblemRoundTrips (F : FloatOf) (p : Problem) : Prop :=
  ∃ p' σ', parseProblem F [] p.str = .ok (p', σ') ∧ p'.pyEq p = true

/-- C43. Every problem that the grammar can write (`PrintProblem`) is read back from its text as an equal one,
by every problem parser, whatever it has read before. Missing: problems with an attached domain, and those
whose parts have no text in the grammar of problems; C43 is false of them (`C43_fails`). -/
theorem C43_partial {F : FloatOf} {σ : List (Str × Term)} (hσ : OwnNames σ) {p : Problem} (hb : BuiltProblem p)
    (hp : PrintProblem F p) : ∃ p' σ', parseProblem F σ p.str = .ok (p', σ') ∧ p'.pyEq p = true :=
  let ⟨p', σ', h1, h2, _⟩ := problem_read hσ hb hp
  ⟨p', σ', h1, h2⟩

/-- C43. A problem that was read from a text is read back from its own text as an equal one, by the same parser
and by a new one, unless it contains a number with another spelling or an operator whose operands were merged. -/
theorem C43_read_partial {F : FloatOf} {σ σ' : List (Str × Term)} (hσ : OwnNames σ) {text : Str} {p : Problem}
    (h : parseProblem F σ text = .ok (p, σ')) (hn : ProblemNoObstacle F p) :
    ProblemRoundTrips F p ∧ ∃ p' σ'', parseProblem F σ' p.str = .ok (p', σ'') ∧ p'.pyEq p = true := by
  obtain ⟨h1, h2, h3⟩ := problem_reread hσ h hn
  exact ⟨C43_partial (by intro n t h; simp [dictGet] at h) h1 h2, C43_partial h3 h1 h2⟩

/-- A new parser, and every later one, has its objects under their own names. -/
theorem C43_parser_state {F : FloatOf} {σ σ' : List (Str × Term)} :
    OwnNames [] ∧ ∀ {text : Str} {p : Problem}, OwnNames σ → parseProblem F σ text = .ok (p, σ') → OwnNames σ' := by
  refine ⟨by intro n t h; simp [dictGet] at h, ?_⟩
  intro text p hσ h
  obtain ⟨ts, _, ⟨P⟩⟩ := parseProblem_ok h
  exact P.names hσ

/-- A problem with everything that has a text. -/
def problemText : Str := s%"(define (problem p1) (:domain d1) (:requirements :typing :strips)
  (:objects a b - t c) (:init (q b a) (not (r)) (= (f a) 3))
  (:goal (and (q a ?x) (not (r)) (>= (+ (f a) 1) 12)))
  (:metric maximize (* 2 (total-cost))))"

/-- The same problem as arguments of the constructor. -/
def problemArgs : ProblemArgs where
  name := s%"p1"
  domainName := some s%"d1"
  reqs := some [.typing, .strips]
  objects := [.const s%"a" (some s%"t"), .const s%"b" (some s%"t"), .const s%"c" none]
  init := [.pred ⟨s%"q", [.const s%"b" none, .const s%"a" none]⟩, .not (.pred ⟨s%"r", []⟩),
    .bfun .eq [.nfun ⟨s%"f", [.const s%"a" none]⟩, .num (.int 3)]]
  goal := some (.bin .and [.pred ⟨s%"q", [.const s%"a" none, .var ⟨s%"x", []⟩]⟩, .not (.pred ⟨s%"r", []⟩),
    .bfun .ge [.bfun .plus [.nfun ⟨s%"f", [.const s%"a" none]⟩, .num (.int 1)], .num (.int 12)]])
  metric := some ⟨.bfun .times [.num (.str s%"2"), .nfun ⟨s%"total-cost", []⟩], true⟩

/-- Reading, printing, reading again and comparing. -/
def rereads (text : Str) : Bool :=
  match parseProblem (fun _ => none) [] text with
  | .ok (p, _) => match parseProblem (fun _ => none) [] p.str with
    | .ok (p', _) => p'.pyEq p
    | .error _ => false
  | .error _ => false

example : rereads problemText = true := by decide +kernel

/-- The hypotheses of `C43_read_partial` hold of that text. -/
theorem problemText_ok : ∃ p σ', parseProblem (fun _ => none) [] problemText = .ok (p, σ') ∧ ProblemNoObstacle (fun _ => none) p := by
  have key : (match parseProblem (fun _ => none) [] problemText with
      | .ok (p, _) => decide (p.init.length = 3 ∧ p.init[2]? = problemArgs.init[2]? ∧
          (p.init.take 2).all (fun e => match e with | .pred _ => true | .not (.pred _) => true | _ => false) = true ∧
          some p.goal = problemArgs.goal ∧
          p.metric.map (fun m => m.expr) = problemArgs.metric.map (fun m => m.expr))
      | .error _ => false) = true := by decide +kernel
  cases h : parseProblem (fun _ => none) [] problemText with
  | error e => rw [h] at key; simp at key
  | ok r =>
    obtain ⟨p, σ'⟩ := r
    rw [h] at key
    simp only [decide_eq_true_eq] at key
    obtain ⟨h1, h2, h3, h4, h5⟩ := key
    refine ⟨p, σ', rfl, ?_, ?_, ?_⟩
    · obtain ⟨a, b, c, hl⟩ : ∃ a b c, p.init = [a, b, c] := by
        match p.init, h1 with
        | [a, b, c], _ => exact ⟨a, b, c, rfl⟩
      rw [hl] at h2 h3 ⊢
      simp only [List.getElem?_cons_succ, List.getElem?_cons_zero, problemArgs, Option.some.injEq] at h2
      subst h2
      simp only [List.take_succ_cons, List.take_zero, List.all_cons, List.all_nil, Bool.and_true, Bool.and_eq_true] at h3
      have lit : ∀ e : Expr, (match e with | .pred _ => true | .not (.pred _) => true | _ => false) = true →
          NoObstacle (fun _ => none) e := by
        intro e he
        split at he
        · trivial
        · trivial
        · simp at he
      intro e he
      simp only [List.mem_cons, List.not_mem_nil, or_false] at he
      rcases he with rfl | rfl | rfl
      · exact lit _ h3.1
      · exact lit _ h3.2
      · exact ⟨rfl, trivial, .int 3, trivial⟩
    · simp only [problemArgs, Option.some.injEq] at h4
      rw [h4]
      exact ⟨trivial, trivial, ⟨rfl, ⟨le_refl 2, trivial, .int 1, trivial⟩, .int 12, trivial⟩, trivial⟩
    · intro m hm
      rw [hm] at h5
      simp only [problemArgs, Option.map_some, Option.some.injEq] at h5
      rw [h5]
      exact ⟨le_refl 2, trivial, trivial, trivial⟩

/-- The hypotheses of `C43_partial` hold of a problem with all sections. -/
example : ∃ p, mkProblem problemArgs = .ok p ∧ BuiltProblem p ∧ PrintProblem (fun _ => none) p := by
  have hc : ∀ n ∈ [s%"a", s%"b", s%"c", s%"x", s%"t"], ValidName n := by decide +kernel
  cases h : mkProblem problemArgs with
  | error e =>
    have : (match mkProblem problemArgs with | .ok _ => true | .error _ => false) = true := by decide +kernel
    rw [h] at this; simp at this
  | ok p =>
    obtain ⟨h1, h2, h3, h4, h5, h6, _⟩ := mkProblem_fields h
    have e3 : dedupBy Term.pyEq problemArgs.objects = problemArgs.objects := by decide +kernel
    have e4 : dedupBy Expr.pyEq problemArgs.init = problemArgs.init := by decide +kernel
    have er := mkProblem_reqs h rfl
    rw [e3] at h3
    rw [e4] at h4
    have hi : ∀ e ∈ problemArgs.init, InitText (fun _ => none) e ∧ Built e := by
      intro e he
      simp only [problemArgs, List.mem_cons, List.not_mem_nil, or_false] at he
      rcases he with rfl | rfl | rfl
      · exact ⟨.pred (by simpa [IsConstant] using ⟨hc _ (by simp), hc _ (by simp)⟩),
          built_iff_good.2 ⟨by decide +kernel, by decide +kernel⟩⟩
      · exact ⟨.not (by simp), built_iff_good.2 ⟨by decide +kernel, by decide +kernel⟩⟩
      · refine ⟨.value (by simpa [IsConstant] using hc _ (by simp)) (.int 3), ?_⟩
        have : Expr.bfun .eq [.nfun ⟨s%"f", [.const s%"a" none]⟩, .num (.int 3)] =
          construct (.fop .eq) [.nfun ⟨s%"f", [.const s%"a" none]⟩, .num (.int 3)] := by decide +kernel
        rw [this]
        refine .op _ ?_
        intro a ha
        simp only [List.mem_cons, List.not_mem_nil, or_false] at ha
        rcases ha with rfl | rfl
        · exact built_iff_good.2 (show parseFunction s%"f" = .ok s%"f" by decide +kernel)
        · exact .num _
    have ca : ∀ t ∈ [Term.const s%"a" none], GoalTerm t := by simpa [GoalTerm] using hc _ (by simp)
    have hf : Built (.nfun ⟨s%"f", [.const s%"a" none]⟩) :=
      built_iff_good.2 (show parseFunction s%"f" = .ok s%"f" by decide +kernel)
    have op2 : ∀ (o : FOp) (a b : Expr), construct (.fop o) [a, b] = .bfun o [a, b] → Built a → Built b →
        Built (.bfun o [a, b]) := by
      intro o a b e ha hb
      rw [← e]
      refine .op _ ?_
      intro x hx
      simp only [List.mem_cons, List.not_mem_nil, or_false] at hx
      rcases hx with rfl | rfl
      · exact ha
      · exact hb
    refine ⟨p, rfl, ⟨problemArgs, ⟨fun e he => (hi e he).2, ?_, ?_⟩, h⟩, h2, ?_, ?_, ?_, ?_, ?_⟩
    · intro g hg
      simp only [problemArgs, Option.some.injEq] at hg
      subst hg
      have : ∀ as : List Expr, construct (.bop .and) as = .bin .and as → (∀ a ∈ as, Built a) → Built (.bin .and as) :=
        fun as e ha => e ▸ .op (.bop .and) ha
      refine this _ (by decide +kernel) ?_
      intro a ha
      simp only [List.mem_cons, List.not_mem_nil, or_false] at ha
      rcases ha with rfl | rfl | rfl
      · exact built_iff_good.2 ⟨by decide +kernel, by decide +kernel⟩
      · exact built_iff_good.2 ⟨by decide +kernel, by decide +kernel⟩
      · exact op2 _ _ _ (by decide +kernel) (op2 _ _ _ (by decide +kernel) hf (.num _)) (.num _)
    · intro m hm
      simp only [problemArgs, Option.some.injEq] at hm
      subst hm
      exact op2 _ _ _ (by decide +kernel) (.num _)
        (built_iff_good.2 (show parseFunction s%"total-cost" = .ok s%"total-cost" by decide +kernel))
    · unfold Problem.reqs
      rw [h2, er]
      decide +kernel
    · rw [h3]
      intro o ho
      simp only [problemArgs, List.mem_cons, List.not_mem_nil, or_false] at ho
      have ht : ValidType s%"t" := by decide +kernel
      rcases ho with rfl | rfl | rfl
      · exact ⟨hc _ (by simp), by simpa using ht⟩
      · exact ⟨hc _ (by simp), by simpa using ht⟩
      · exact ⟨hc _ (by simp), by simp⟩
    · rw [h4]; exact fun e he => (hi e he).1
    · rw [h5]
      refine .and ?_
      intro a ha
      simp only [List.mem_cons, List.not_mem_nil, or_false] at ha
      rcases ha with rfl | rfl | rfl
      · exact .pred (by simpa [GoalTerm] using ⟨hc _ (by simp), hc _ (by simp)⟩)
      · exact .not (.pred (by simp))
      · exact .comp trivial (.plus (by simp) (by simpa using ⟨GoalNum.fn ca, GoalNum.num (.int 1)⟩)) (.num (.int 12))
    · intro m hm
      rw [h6] at hm
      simp only [problemArgs, Option.some.injEq] at hm
      subst hm
      refine .times (by simp) ?_
      intro a ha
      simp only [List.mem_cons, List.not_mem_nil, or_false] at ha
      rcases ha with rfl | rfl
      · exact .num (.digits ⟨by simp, by simpa using (digit_iff '2').1 (by decide)⟩)
      · exact .fn (by simp)

/-- C43 for every problem that the constructor returns. -/
def C43_full : Prop := ∀ (F : FloatOf) (p : Problem), BuiltProblem p → ProblemRoundTrips F p

/-- `ProblemRoundTrips` as a test. -/
def problemTest (p : Problem) : Bool :=
  match parseProblem (fun _ => none) [] p.str with
  | .ok (p', _) => p'.pyEq p
  | .error _ => false

theorem problemTest_iff {p : Problem} : ProblemRoundTrips (fun _ => none) p ↔ problemTest p = true := by
  constructor
  · rintro ⟨p', σ', h1, h2⟩
    simp [problemTest, h1, h2]
  · intro h
    unfold problemTest at h
    split at h
    · rename_i p' σ' hp
      exact ⟨p', σ', hp, h⟩
    · simp at h

/-- The arguments make a problem that is not read back. -/
def argsFail (a : ProblemArgs) : Bool :=
  match mkProblem a with
  | .ok p => !problemTest p
  | .error _ => false

theorem argsFail_ok {a : ProblemArgs} (h : argsFail a = true) :
    ∃ p, mkProblem a = .ok p ∧ ¬ ProblemRoundTrips (fun _ => none) p := by
  unfold argsFail at h
  split at h
  · rename_i p hp
    exact ⟨p, hp, fun hr => by rw [problemTest_iff.1 hr] at h; simp at h⟩
  · simp at h

/-- A problem with the given goal and metric. -/
def withGoal (g : Expr) (m : Option Metric := none) : ProblemArgs :=
  { name := s%"p", domainName := some s%"d", goal := some g, metric := m }

/-- C43 is false: a disjunctive goal, an equality of terms and a quantified goal are printed, but the problem
parser rejects them; a variable of the goal loses its types; the number in a metric comes back as a string; and
`:object-fluents` cannot be read. -/
theorem C43_fails :
    let q : Expr := .pred ⟨s%"q", []⟩
    let r : Expr := .pred ⟨s%"r", []⟩
    let x : Var := ⟨s%"x", [s%"t"]⟩
    ∀ a ∈ [withGoal (.bin .or [q, r]), withGoal (.eq (.var ⟨s%"x", []⟩) (.const s%"c" none)), withGoal (.quant .ex [x] q),
        withGoal (.pred ⟨s%"q", [.var x]⟩), withGoal q (some ⟨.num (.int 2), false⟩),
        { withGoal q with reqs := some [.objectFluents] }],
      ∃ p, mkProblem a = .ok p ∧ BuiltProblem p ∧ ¬ ProblemRoundTrips (fun _ => none) p := by
  intro q r x a ha
  have hq : Built q := built_iff_good.2 ⟨by decide +kernel, by decide +kernel⟩
  have hr : Built r := built_iff_good.2 ⟨by decide +kernel, by decide +kernel⟩
  have hfail : argsFail a = true := by
    revert a
    decide +kernel
  obtain ⟨p, h1, h2⟩ := argsFail_ok hfail
  refine ⟨p, h1, ⟨a, ?_, h1⟩, h2⟩
  have mk : ∀ {g : Expr} {m : Option Metric} {rs : Option (List Req)}, Built g → (∀ x, m = some x → Built x.expr) →
      BuiltArgs { withGoal g m with reqs := rs } := by
    intro g m rs hg hm
    refine ⟨by simp [withGoal], ?_, hm⟩
    intro g' hg'
    simp only [withGoal, Option.some.injEq] at hg'
    exact hg' ▸ hg
  simp only [List.mem_cons, List.not_mem_nil, or_false] at ha
  rcases ha with rfl | rfl | rfl | rfl | rfl | rfl
  · refine mk ?_ (by simp)
    have : Expr.bin .or [q, r] = construct (.bop .or) [q, r] := by decide +kernel
    rw [this]
    refine .op _ ?_
    intro a ha
    simp only [List.mem_cons, List.not_mem_nil, or_false] at ha
    rcases ha with rfl | rfl
    · exact hq
    · exact hr
  · exact mk (.eq (l := .var ⟨s%"x", []⟩) (r := .const s%"c" none) (by decide +kernel)) (by simp)
  · refine mk ?_ (by simp)
    have : Expr.quant .ex [x] q = mkQuant .ex q [x] := by decide +kernel
    rw [this]
    exact .quant _ _ hq
  · exact mk (built_iff_good.2 ⟨by decide +kernel, by decide +kernel⟩) (by simp)
  · refine mk hq ?_
    intro m hm
    simp only [Option.some.injEq] at hm
    subst hm
    exact .num _
  · exact mk hq (by simp)

theorem C43_full_fails : ¬ C43_full := by
  intro h
  obtain ⟨p, _, h2, h3⟩ := C43_fails (withGoal (.pred ⟨s%"q", [.var ⟨s%"x", [s%"t"]⟩]⟩)) (by simp)
  exact h3 (h _ p h2)

/-- C43 is false of problems that the parser itself returns: operands that were merged leave an operator with
one operand, which the grammar does not accept. -/
theorem C43_read_fails : ∀ text ∈ [
      s%"(define (problem p) (:domain d) (:init) (:goal (>= (+ (f) (f)) 1)))",
      s%"(define (problem p) (:domain d) (:init) (:goal (= (f) (f))))",
      s%"(define (problem p) (:domain d) (:init) (:goal (q)) (:metric minimize (+ (f) (f))))"],
    ∃ p σ', parseProblem (fun _ => none) [] text = .ok (p, σ') ∧ ¬ ProblemRoundTrips (fun _ => none) p := by
  intro text ht
  have h : ∀ text ∈ [
      s%"(define (problem p) (:domain d) (:init) (:goal (>= (+ (f) (f)) 1)))",
      s%"(define (problem p) (:domain d) (:init) (:goal (= (f) (f))))",
      s%"(define (problem p) (:domain d) (:init) (:goal (q)) (:metric minimize (+ (f) (f))))"],
      (match parseProblem (fun _ => none) [] text with
        | .ok (p, _) => !problemTest p | .error _ => false) = true := by decide +kernel
  have h := h text ht
  split at h
  · rename_i p σ' hp
    exact ⟨p, σ', hp, fun hr => by rw [problemTest_iff.1 hr] at h; simp at h⟩
  · simp at h

/-- A problem with an attached domain is never read back as an equal problem: the parser attaches none. -/
theorem C43_domain_fails {F : FloatOf} {p : Problem} (h : p.domain.isSome) : ¬ ProblemRoundTrips F p := by
  rintro ⟨p', σ', h1, h2⟩
  obtain ⟨ts, _, ⟨P⟩⟩ := parseProblem_ok h1
  have hd : p'.domain = none := (mkProblem_fields P.hproblem).2.1
  simp only [Problem.pyEq, hd, Bool.and_eq_true] at h2
  cases hp : p.domain with
  | none => rw [hp] at h; simp at h
  | some d => rw [hp] at h2; simp [domOptEq] at h2

end Pddl.Props
