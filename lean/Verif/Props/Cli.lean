/-
Properties of the traceback limit (C36) and of the command line (C50).
-/
import Verif.Model.Cli
import Verif.Spec.Cli
import Verif.Proofs.DecEq

namespace Pddl.Props
open Spec

/-! ### C36: the traceback limit -/

/-- The claim is false: when the limit is not set (the normal state of an interpreter), a
failing parse leaves it at 0, and a successful one sets it to `None`. -/
theorem C36_fails :
    (∃ (parse : TbLimit → Except Exc Nat), (callParser parse .absent).2 ≠ .absent) ∧
    (∃ (parse : TbLimit → Except Exc Nat), (callParser parse .pyNone).2 ≠ .pyNone ∧
      (callParser parse .pyNone).2 = .int 0) := by
  refine ⟨⟨fun _ => .ok 0, by decide⟩, ⟨fun _ => .error .lark, by decide, by decide⟩⟩

/-- What holds: a limit that is a number is restored by every history of calls, whatever
their outcomes. Missing: a limit that is not set or `None`. -/
theorem C36_partial {α} (h : List (TbLimit → Except Exc α)) (i : Int) :
    callHistory h (.int i) = .int i := by
  induction h with
  | nil => rfl
  | cons p ps ih =>
    have : (callParser p (.int i)).2 = .int i := by
      cases hp : p (.int 0) <;> simp [callParser, hp, TbLimit.get]
    rw [callHistory, this, ih]

/-- A limit of `None` is kept as long as all calls succeed. -/
theorem C36_success_partial {α} (h : List (TbLimit → Except Exc α))
    (hok : ∀ p ∈ h, ∃ r, p (.int 0) = .ok r) : callHistory h .pyNone = .pyNone := by
  induction h with
  | nil => rfl
  | cons p ps ih =>
    obtain ⟨r, hr⟩ := hok p (by simp)
    have : (callParser p .pyNone).2 = .pyNone := by
      simp [callParser, hr, TbLimit.get]
    rw [callHistory, this, ih (fun q hq => hok q (by simp [hq]))]

open Classical in
/-- The complete description: from a limit that is not a number, every history with a
failing call ends with 0 (tracebacks stay cut off), and every other non-empty one with
`None`. -/
theorem C36_exact_partial {α} (h : List (TbLimit → Except Exc α)) (l : TbLimit)
    (hl : l = .absent ∨ l = .pyNone) (hne : h ≠ []) :
    callHistory h l =
      (if ∃ p ∈ h, ∃ e, p (.int 0) = .error e then .int 0 else .pyNone) := by
  induction h generalizing l with
  | nil => exact absurd rfl hne
  | cons p ps ih =>
    cases hp : p (.int 0) with
    | error e =>
      have h1 : (callParser p l).2 = .int 0 := by
        rcases hl with rfl | rfl <;> simp [callParser, hp, TbLimit.get]
      rw [callHistory, h1, C36_partial, if_pos ⟨p, by simp, e, hp⟩]
    | ok r =>
      have h1 : (callParser p l).2 = .pyNone := by
        rcases hl with rfl | rfl <;> simp [callParser, hp, TbLimit.get]
      rw [callHistory, h1]
      cases ps with
      | nil => simp [callHistory, hp]
      | cons q qs =>
        rw [ih .pyNone (Or.inr rfl) (by simp)]
        simp [hp]

/-- The result of a call is that of the parser run with the limit 0. -/
theorem C36_result {α} (parse : TbLimit → Except Exc α) (l : TbLimit) :
    (callParser parse l).1 = parse (.int 0) := by
  cases hp : parse (.int 0) <;> simp [callParser, hp]

example : callHistory [fun _ => (.ok 1 : Except Exc Nat), fun _ => .error .lark, fun _ => .ok 2]
    (.int 7) = .int 7 := by decide
example : callHistory [fun _ => (.ok 1 : Except Exc Nat), fun _ => .error .lark, fun _ => .ok 2]
    .absent = .int 0 := by decide

/-! ### C50: the command line -/

/-- The domain stage: parse the domain, then produce its text. -/
def domainStage (F : FloatOf) (t : Str) : Except Exc Str := do
  let (d, _) ← parseDomain F .fresh t
  d.str

/-- The problem stage: parse the problem, check it against the domain, produce its text. -/
def problemStage (F : FloatOf) (dt pt : Str) : Except Exc Str := do
  let (d, _) ← parseDomain F .fresh dt
  let (p, _) ← parseProblem F [] pt
  p.check d
  pure p.str

/-- The plan stage: parse the plan, check it against domain and problem, produce its text. -/
def planStage (F : FloatOf) (dt pt t : Str) : Except Exc Str := do
  let (d, _) ← parseDomain F .fresh dt
  let (p, _) ← parseProblem F [] pt
  let pl ← parsePlan t
  pl.check d p
  pure pl.str

/-- The stages asked for. -/
def stages (F : FloatOf) (dt : Str) : Option Str → Option Str → List (Except Exc Str)
  | none, _ => [domainStage F dt]
  | some pt, none => [domainStage F dt, problemStage F dt pt]
  | some pt, some t => [domainStage F dt, problemStage F dt pt, planStage F dt pt t]

/-- The command line prints the texts of the stages before the first failing one, in order,
and its outcome is the first failure. -/
theorem C50_stages (F : FloatOf) (dt : Str) (pt t : Option Str) :
    cli F dt pt t false = (printedBefore (stages F dt pt t), firstFailure (stages F dt pt t)) := by
  unfold cli
  cases hd : parseDomain F .fresh dt with
  | error e => cases pt <;> cases t <;> simp [stages, domainStage, hd, bind, Except.bind,
      printedBefore, firstFailure]
  | ok r =>
    obtain ⟨d, σ⟩ := r
    cases hs : d.str with
    | error e => cases pt <;> cases t <;> simp [stages, domainStage, hd, hs, bind, Except.bind,
        printedBefore, firstFailure]
    | ok ds =>
      cases pt with
      | none => simp [stages, domainStage, hd, hs, bind, Except.bind, printedBefore, firstFailure]
      | some pt =>
        cases hp : parseProblem F [] pt with
        | error e => cases t <;> simp [stages, domainStage, problemStage, hd, hs, hp, bind,
            Except.bind, printedBefore, firstFailure]
        | ok r =>
          obtain ⟨p, σ'⟩ := r
          cases hc : p.check d with
          | error e => cases t <;> simp [stages, domainStage, problemStage, hd, hs, hp, hc, bind,
              Except.bind, printedBefore, firstFailure]
          | ok u =>
            cases t with
            | none => simp [stages, domainStage, problemStage, hd, hs, hp, hc, bind, Except.bind,
                pure, Except.pure, printedBefore, firstFailure]
            | some t =>
              cases hl : parsePlan t with
              | error e => simp [stages, domainStage, problemStage, planStage, hd, hs, hp, hc, hl,
                  bind, Except.bind, pure, Except.pure, printedBefore, firstFailure]
              | ok pl =>
                cases hk : pl.check d p <;>
                  simp [stages, domainStage, problemStage, planStage, hd, hs, hp, hc, hl, hk,
                    bind, Except.bind, pure, Except.pure, printedBefore, firstFailure]

/-- The first failure is none exactly when all stages succeed. -/
theorem firstFailure_ok {α} (l : List (Except Exc α)) :
    firstFailure l = .ok () ↔ ∀ s ∈ l, ∃ a, s = .ok a := by
  induction l with
  | nil => simp [firstFailure]
  | cons a l ih => cases a <;> simp [firstFailure, ih]

/-- It succeeds exactly when every stage does. -/
theorem C50_success (F : FloatOf) (dt : Str) (pt t : Option Str) (quiet : Bool) :
    (cli F dt pt t quiet).2 = .ok () ↔ ∀ s ∈ stages F dt pt t, ∃ a, s = .ok a := by
  have hq : (cli F dt pt t quiet).2 = (cli F dt pt t false).2 := by
    cases quiet with
    | false => rfl
    | true =>
      unfold cli
      simp only [if_true, Bool.false_eq_true, if_false]
      repeat' split
      all_goals rfl
  rw [hq, C50_stages, firstFailure_ok]

/-- With `--quiet` nothing is printed and the outcome is the same. -/
theorem C50_quiet (F : FloatOf) (dt : Str) (pt t : Option Str) :
    cli F dt pt t true = ([], (cli F dt pt t false).2) := by
  unfold cli
  simp only [if_true, Bool.false_eq_true, if_false]
  repeat' split
  all_goals rfl

/-- A plan that names an unknown action: domain and problem have been printed by then. -/
example : cli (fun _ => none) s%"(define (domain d) (:predicates (p)))"
    (some s%"(define (problem x) (:domain d) (:init (p)) (:goal (p)))") (some s%"(a)") false =
    ([s%"(define (domain d)\n    (:predicates (p))\n)",
      s%"(define (problem x)\n    (:domain d)\n    (:init (p))\n    (:goal (p))\n)"],
     .error .validation) := by decide +kernel

/-- All stages succeed. -/
example : (cli (fun _ => none)
    s%"(define (domain d) (:predicates (p)) (:action a :parameters () :precondition (p) :effect (not (p))))"
    (some s%"(define (problem x) (:domain d) (:init (p)) (:goal (not (p))))") (some s%"(a)") false).2 =
    .ok () := by decide +kernel

end Pddl.Props
