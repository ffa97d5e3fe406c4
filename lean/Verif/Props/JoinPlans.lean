/-
C96: plans can be put together and taken apart.
-/
import Verif.Proofs.JoinText
import Verif.Proofs.Problem
import Verif.Spec.Execute
import Verif.Model.Print
import Verif.Props.Share

namespace Pddl.Props
open Spec

/-- The plan that does `p`, then `q`. -/
def Spec.then_ (p q : Plan) : Plan := ⟨p.steps ++ q.steps⟩

/-- A text that is a plan, followed on a new line by any text: the outcome is that of the second text, with the steps of
the first in front. -/
theorem C96_text {s t : Str} {p : Plan} (h : parsePlan s = .ok p) :
    parsePlan (s ++ '\n' :: t) = (parsePlan t).map (Spec.then_ p) := by
  unfold parsePlan at h ⊢
  obtain ⟨a, ha, h⟩ := bind_ok_iff.1 h
  obtain ⟨xs, hx, h⟩ := bind_ok_iff.1 h
  simp only [pure_ok, Except.ok.injEq] at h
  subst h
  unfold readText at ha ⊢
  rw [lex_newline]
  cases hl : readTrees (lex s) with
  | none => rw [hl] at ha; simp at ha
  | some a' =>
    rw [hl] at ha
    simp only [pure_ok, Except.ok.injEq] at ha
    subst ha
    rw [readTrees_first hl]
    cases readTrees (lex t) with
    | none => rfl
    | some b =>
      simp only [Option.map_some, pure_ok, ok_bind, groundActions_append, hx]
      cases b.mapM groundAction <;> rfl

/-- Any text, followed on a new line by a plan. -/
theorem C96_text_last {s t : Str} {q : Plan} (h : parsePlan t = .ok q) :
    parsePlan (s ++ '\n' :: t) = (parsePlan s).map (fun p => Spec.then_ p q) := by
  unfold parsePlan at h ⊢
  obtain ⟨b, hb, h⟩ := bind_ok_iff.1 h
  obtain ⟨ys, hy, h⟩ := bind_ok_iff.1 h
  simp only [pure_ok, Except.ok.injEq] at h
  subst h
  unfold readText at hb ⊢
  rw [lex_newline]
  cases hl : readTrees (lex t) with
  | none => rw [hl] at hb; simp at hb
  | some b' =>
    rw [hl] at hb
    simp only [pure_ok, Except.ok.injEq] at hb
    subst hb
    rw [readTrees_second hl]
    cases readTrees (lex s) with
    | none => rfl
    | some a =>
      simp only [Option.map_some, pure_ok, ok_bind, groundActions_append, hy]
      cases a.mapM groundAction <;> rfl

/-- The text of a joined plan. -/
theorem C96_str {p q : Plan} (hp : p.steps ≠ []) (hq : q.steps ≠ []) : (Spec.then_ p q).str = p.str ++ '\n' :: q.str := by
  have key : ∀ (l m : List Str), l ≠ [] → m ≠ [] → joinStr s%"\n" (l ++ m) = joinStr s%"\n" l ++ '\n' :: joinStr s%"\n" m := by
    intro l m hl hm
    induction l with
    | nil => exact absurd rfl hl
    | cons x l ih =>
      cases l with
      | nil =>
        cases m with
        | nil => exact absurd rfl hm
        | cons y m => simp [joinStr]
      | cons x' l =>
        have := ih (by simp)
        simp only [List.cons_append] at this ⊢
        rw [joinStr, this, joinStr]
        · simp
  unfold Plan.str Spec.then_
  rw [List.map_append]
  exact key _ _ (by simpa using hp) (by simpa using hq)

/-- The check of a joined plan is the check of the first, then of the second. -/
theorem C96_check (p q : Plan) (d : Domain) (pr : Problem) :
    (Spec.then_ p q).check d pr = (do p.check d pr; q.check d pr) := by
  unfold Plan.check Spec.then_
  simp only
  induction p.steps with
  | nil => rfl
  | cons s l ih =>
    obtain ⟨n, args⟩ := s
    simp only [List.cons_append, checkSteps, ih]
    cases check (decide (n ∈ d.actions.map Action.name)) .validation with
    | error e => rfl
    | ok u =>
      simp only [ok_bind]
      cases dictGet d.schemas n with
      | none => rfl
      | some a =>
        simp only
        cases check (decide (args.length = a.params.length)) .validation with
        | error e => rfl
        | ok u =>
          simp only [ok_bind]
          cases check (args.all (fun t => memBy Term.pyEq t (dedupBy Term.pyEq (pr.objects ++ d.constants)))) .validation <;> rfl

/-- So each part of an accepted plan is accepted, and two accepted plans make one. -/
theorem C96_accepted (p q : Plan) (d : Domain) (pr : Problem) :
    (Spec.then_ p q).check d pr = .ok () ↔ p.check d pr = .ok () ∧ q.check d pr = .ok () := by
  rw [C96_check]
  cases p.check d pr with
  | error e => simp [error_bind]
  | ok u => simp [ok_bind]

/-- The ground actions of a joined plan are those of the first, then those of the second. -/
theorem C96_instantiate (p q : Plan) (d : Domain) :
    (Spec.then_ p q).inst d = (do let gs ← p.inst d; let hs ← q.inst d; pure (gs ++ hs)) := by
  unfold Plan.inst Spec.then_
  simp only
  induction p.steps with
  | nil =>
    simp only [List.nil_append, instSteps, pure_ok, ok_bind]
    cases instSteps d.schemas q.steps <;> rfl
  | cons s l ih =>
    obtain ⟨n, args⟩ := s
    simp only [List.cons_append, instSteps, ih]
    cases dictGet d.schemas n with
    | none => rfl
    | some a =>
      simp only
      cases a.inst args with
      | error e => rfl
      | ok g =>
        simp only [ok_bind]
        cases instSteps d.schemas l with
        | error e => rfl
        | ok gs =>
          simp only [ok_bind, pure_ok]
          cases instSteps d.schemas q.steps <;> rfl

/-- A joined plan leads from one state to another through a state that the first part leads to. -/
theorem C96_runs {E : Type} {ν : Str → E} {gs hs : List Action} {I K : Interp E} :
    Runs ν (gs ++ hs) I K ↔ ∃ J, Runs ν gs I J ∧ Runs ν hs J K := by
  induction gs generalizing I with
  | nil =>
    constructor
    · intro h; exact ⟨I, .nil, h⟩
    · rintro ⟨J, h1, h2⟩; cases h1; exact h2
  | cons g gs ih =>
    constructor
    · intro h
      cases h with
      | cons h1 h2 =>
        obtain ⟨J, h3, h4⟩ := ih.1 h2
        exact ⟨J, .cons h1 h3, h4⟩
    · rintro ⟨J, h1, h2⟩
      cases h1 with
      | cons h3 h4 => exact .cons h3 (ih.2 ⟨J, h4, h2⟩)

/-- Together: reading, checking, instantiating and carrying out two plan texts joined by a newline. -/
theorem C96_solves {s t : Str} {p q : Plan} (hp : parsePlan s = .ok p) (hq : parsePlan t = .ok q) (d : Domain) (pr : Problem) :
    ∃ r, parsePlan (s ++ '\n' :: t) = .ok r ∧
      (r.check d pr = .ok () ↔ p.check d pr = .ok () ∧ q.check d pr = .ok ()) ∧
      ∀ gs, r.inst d = .ok gs → ∃ gs1 gs2, p.inst d = .ok gs1 ∧ q.inst d = .ok gs2 ∧
        ∀ (E : Type) (ν : Str → E) (I : Interp E), Solves ν pr gs I ↔
          StartsIn ν pr.init I ∧ ∃ J K, Runs ν gs1 I J ∧ Runs ν gs2 J K ∧ holds K pr.goal ν := by
  refine ⟨Spec.then_ p q, by rw [C96_text hp, hq]; rfl, C96_accepted p q d pr, fun gs h => ?_⟩
  rw [C96_instantiate] at h
  obtain ⟨gs1, h1, h⟩ := bind_ok_iff.1 h
  obtain ⟨gs2, h2, h⟩ := bind_ok_iff.1 h
  simp only [pure_ok, Except.ok.injEq] at h
  subst h
  refine ⟨gs1, gs2, h1, h2, fun E ν I => ?_⟩
  unfold Solves
  simp only [C96_runs]
  constructor
  · rintro ⟨h1, K, ⟨J, h2, h3⟩, h4⟩; exact ⟨h1, J, K, h2, h3, h4⟩
  · rintro ⟨h1, J, K, h2, h3, h4⟩; exact ⟨h1, K, ⟨J, h2, h3⟩, h4⟩

/-! ### Cases -/

/-- The first text ends in a comment. -/
example : parsePlan s%"(a b c) ; first\n(d)" = .ok ⟨[(s%"a", [.const s%"b" none, .const s%"c" none]), (s%"d", [])]⟩ := by
  have h := C96_text (s := s%"(a b c) ; first") (t := s%"(d)") (p := ⟨[(s%"a", [.const s%"b" none, .const s%"c" none])]⟩) (by decide +kernel)
  exact h.trans (by decide +kernel)

/-- The second text is no plan: neither are both. -/
example : parsePlan s%"(a b)\n(and" = .error .lark := by
  have h := C96_text (s := s%"(a b)") (t := s%"(and") (p := ⟨[(s%"a", [.const s%"b" none])]⟩) (by decide +kernel)
  exact h.trans (by decide +kernel)

/-- The first text is no plan because an argument is reserved. -/
example : parsePlan s%"(a and)\n(d e)" = .error .validation := by
  have h := C96_text_last (s := s%"(a and)") (t := s%"(d e)") (q := ⟨[(s%"d", [.const s%"e" none])]⟩) (by decide +kernel)
  exact h.trans (by decide +kernel)

/-- The hypothesis is needed: two texts of which neither is a plan can make one. -/
example : parsePlan s%"(a" = .error .lark ∧ parsePlan s%"b)" = .error .lark ∧
    parsePlan s%"(a\nb)" = .ok ⟨[(s%"a", [.const s%"b" none])]⟩ := by decide +kernel

example : (Spec.then_ ⟨[(s%"a", [.const s%"b" none])]⟩ ⟨[(s%"d", [])]⟩).str = s%"(a b)\n(d )" := by
  rw [C96_str (by simp) (by simp)]; decide +kernel

end Pddl.Props
