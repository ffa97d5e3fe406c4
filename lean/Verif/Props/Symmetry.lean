/-
C111: renamed plans solve renamed problems; objects that a problem does not tell apart may be exchanged in its plans.
-/
import Verif.Proofs.Along
import Verif.Props.Rename
import Verif.Proofs.Cone

namespace Pddl.Props
open Pddl Spec

/-- A renamed plan of a renamed domain has the renamed steps. They solve the renamed problem from the states in which this
problem starts and from which, read with the old names, the old steps solve the old problem. Each solution of the old
problem comes from one of the renamed problem. -/
theorem C111_solves {ρ : Str → Str} (R : Renaming ρ) {d : Domain} {plan : Plan} {gs : List Action}
    (hg : plan.inst d = .ok gs) : ∃ gs', (plan.rename ρ).inst (d.rename ρ) = .ok gs' ∧
      ∀ (D : Type) (ν : Str → D) (p : Problem),
        (∀ I, Solves ν (p.rename ρ) gs' I ↔ StartsIn ν (p.rename ρ).init I ∧ Solves (ν ∘ ρ) p gs (I.along ρ)) ∧
        ∀ I', Solves (ν ∘ ρ) p gs I' → ∃ I, I.along ρ = I' ∧ Solves ν (p.rename ρ) gs' I := by
  refine ⟨gs.map (Action.rename ρ), ?_, fun D ν p => ⟨fun I => ⟨fun h => ⟨h.1, solves_along R.inj h⟩, ?_⟩, ?_⟩⟩
  · rw [R.planInst, hg]; rfl
  · rintro ⟨h1, h2⟩
    exact solves_along_of R.inj h1 h2
  · intro I' h
    exact solves_along_back R.inj h

/-- The same for texts: the text of a domain, of a problem and of a plan, all with their names renamed. -/
theorem C111_texts {ρ : Str → Str} (R : Renaming ρ) (F : FloatOf) {td td' tp tp' tl tl' : Str}
    (h1 : Renamed ρ td td') (h2 : Renamed ρ tp tp') (h3 : Renamed ρ tl tl')
    (l1 : LooseText td) (l1' : LooseText td') (l2 : LooseText tp) (l2' : LooseText tp')
    {d : Domain} {σ : PState} {p : Problem} {τ : List (Str × Term)} {plan : Plan} {gs : List Action}
    (hd : parseDomain F .fresh td = .ok (d, σ)) (hp : parseProblem F [] tp = .ok (p, τ)) (hl : parsePlan tl = .ok plan)
    (hg : plan.inst d = .ok gs) :
    ∃ d' σ' p' τ' plan' gs', parseDomain F .fresh td' = .ok (d', σ') ∧ parseProblem F [] tp' = .ok (p', τ') ∧
      parsePlan tl' = .ok plan' ∧ plan'.inst d' = .ok gs' ∧
      ∀ (D : Type) (ν : Str → D),
        (∀ I, Solves ν p' gs' I ↔ StartsIn ν p'.init I ∧ Solves (ν ∘ ρ) p gs (I.along ρ)) ∧
        ∀ I', Solves (ν ∘ ρ) p gs I' → ∃ I, I.along ρ = I' ∧ Solves ν p' gs' I := by
  have e1 := C83_domain_partial R F h1 l1 l1'
  have e2 := C83_problem_partial R F h2 l2 l2'
  have e3 := C83_plan R h3
  rw [hd] at e1
  rw [hp] at e2
  rw [hl] at e3
  obtain ⟨gs', k1, k2⟩ := C111_solves R hg
  cases f1 : parseDomain F .fresh td' with
  | error e => rw [f1] at e1; cases e1
  | ok r =>
    rw [f1] at e1
    cases f2 : parseProblem F [] tp' with
    | error e => rw [f2] at e2; cases e2
    | ok q =>
      rw [f2] at e2
      have e1 : r.1 = d.rename ρ := by simpa [Except.map] using e1
      have e2 : q.1 = p.rename ρ := by simpa [Except.map] using e2
      refine ⟨r.1, r.2, q.1, q.2, plan.rename ρ, gs', rfl, rfl, e3, ?_, fun D ν => ?_⟩
      · rw [e1]; exact k1
      · rw [e2]; exact k2 D ν p

/-- A domain whose text has none of the renamed names is left alone. -/
theorem rename_absent {ρ : Str → Str} (R : Renaming ρ) (F : FloatOf) {td : Str} (l : LooseText td)
    (hf : ∀ w, Tok.name w ∈ lex td → ρ w = w) {d : Domain} {σ : PState} (hd : parseDomain F .fresh td = .ok (d, σ)) :
    d.rename ρ = d := by
  have h : Renamed ρ td td := by
    show lex td = (lex td).map (Tok.rename ρ)
    conv_lhs => rw [← List.map_id (lex td)]
    refine List.map_congr_left (fun t ht => ?_)
    cases t with
    | name w => simp only [id, Tok.rename, hf w ht]
    | _ => rfl
  have e := C83_domain_partial R F h l l
  rw [hd] at e
  simpa [Except.map, eq_comm] using e

theorem starts_members {D : Type} {ν : Str → D} {l l' : List Expr} {I : Interp D} (h : ∀ e, e ∈ l ↔ e ∈ l')
    (hs : StartsIn ν l I) : StartsIn ν l' I :=
  ⟨fun n ds => (hs.pred n ds).trans (by simp only [h]), fun p hp => hs.not p ((h _).2 hp), fun f v hf => hs.value f v ((h _).2 hf),
    fun n ds hn => by obtain ⟨ts, v, hm, e⟩ := hs.other n ds hn; exact ⟨ts, v, (h _).1 hm, e⟩⟩

theorem checkSteps_objects {schemas : List (Str × Action)} {names : List Str} {objs objs' : List Term}
    (h : ∀ t, memBy Term.pyEq t objs = memBy Term.pyEq t objs') (steps : List (Str × List Term)) :
    checkSteps schemas names objs steps = checkSteps schemas names objs' steps := by
  induction steps with
  | nil => rfl
  | cons s steps ih => obtain ⟨n, args⟩ := s; simp only [checkSteps, h, ih]

theorem check_symmetric {π : Str → Str} {p : Problem} (hp : Symmetric π p) (plan : Plan) (d : Domain) :
    plan.check d (p.rename π) = plan.check d p := by
  refine checkSteps_objects (fun t => ?_) _
  rw [Bool.eq_iff_iff, memBy_dedup_term, memBy_dedup_term]
  simp only [List.mem_append, hp.objects, Problem.rename]

/-- Objects are interchangeable: if none of the renamed names is in the text of the domain, and the problem lists the same
objects and facts and asks for the same goal after the renaming, then with a plan also the renamed plan can be instantiated,
the check of plans has the same outcome for it, and it solves the problem from every state (of a class `K` of states that
does not tell the names apart either) in which the problem starts if the plan does. -/
theorem C111_objects {π : Str → Str} (R : Renaming π) (F : FloatOf) {td : Str} (l : LooseText td)
    (hf : ∀ w, Tok.name w ∈ lex td → π w = w) {d : Domain} {σ : PState} (hd : parseDomain F .fresh td = .ok (d, σ))
    {plan : Plan} {gs : List Action} (hg : plan.inst d = .ok gs) :
    ∃ gs', (plan.rename π).inst d = .ok gs' ∧ ∀ p : Problem, Symmetric π p →
      (plan.rename π).check d p = plan.check d p ∧
      (∀ (D : Type) (K : Interp D → Prop), (∀ I, K I → K (I.along π)) →
        (∀ (ν : Str → D) (I : Interp D), K I → StartsIn ν p.init I → Solves ν p gs I) →
        ∀ (ν : Str → D) (I : Interp D), K I → StartsIn ν p.init I → Solves ν p gs' I) ∧
      ∀ (D : Type) (ν : Str → D) (I : Interp D), Solves ν p gs' I ↔ StartsIn ν p.init I ∧ Solves (ν ∘ π) p gs (I.along π) := by
  obtain ⟨gs', k1, k2⟩ := C111_solves R hg
  have hr := rename_absent R F l hf hd
  rw [hr] at k1
  refine ⟨gs', k1, fun p hp => ?_⟩
  have key : ∀ (D : Type) (ν : Str → D) (I : Interp D), Solves ν (p.rename π) gs' I ↔ Solves ν p gs' I := by
    intro D ν I
    refine and_congr ⟨starts_members fun e => (hp.init e).symm, starts_members hp.init⟩
      (exists_congr fun J => and_congr_right fun _ => hp.goal D J ν)
  have iff : ∀ (D : Type) (ν : Str → D) (I : Interp D), Solves ν p gs' I ↔
      StartsIn ν p.init I ∧ Solves (ν ∘ π) p gs (I.along π) := by
    intro D ν I
    rw [← key, (k2 D ν p).1 I]
    exact and_congr_left fun _ => ⟨starts_members fun e => (hp.init e).symm, starts_members hp.init⟩
  refine ⟨by rw [← check_symmetric hp, ← R.planCheck plan d p, hr], fun D K hK h ν I hI hs => (iff D ν I).2 ⟨hs, h _ _ (hK I hI) ?_⟩, iff⟩
  exact starts_along R.inj (starts_members hp.init hs)

/-! ### A case -/

/-- Two lamps that are alike. -/
def lampDomain : Str := s%"(define (domain lamps) (:predicates (off ?x) (on ?x))
  (:action switch :parameters (?x) :precondition (off ?x) :effect (and (on ?x) (not (off ?x)))))"

def lampProblem : Str := s%"(define (problem p) (:domain lamps) (:objects a b) (:init (off a) (off b)) (:goal (and (on a) (on b))))"

def lampStep (n : Str) : Str × List Term := (s%"switch", [.const n none])

def lampSwitch (n : Str) : Action := ⟨s%"switch", [.const n none], some (.pred ⟨s%"off", [.const n none]⟩),
  some (.bin .and [.pred ⟨s%"on", [.const n none]⟩, .not (.pred ⟨s%"off", [.const n none]⟩)])⟩

theorem lamp_parsed : ∃ d σ p τ, parseDomain (fun _ => none) .fresh lampDomain = .ok (d, σ) ∧
    parseProblem (fun _ => none) [] lampProblem = .ok (p, τ) ∧
    (Plan.mk [lampStep s%"a", lampStep s%"b"]).inst d = .ok [lampSwitch s%"a", lampSwitch s%"b"] ∧
    p.objects = [.const s%"a" none, .const s%"b" none] ∧
    p.init = [.pred ⟨s%"off", [.const s%"a" none]⟩, .pred ⟨s%"off", [.const s%"b" none]⟩] ∧
    p.goal = .bin .and [.pred ⟨s%"on", [.const s%"a" none]⟩, .pred ⟨s%"on", [.const s%"b" none]⟩] := by
  have h : (match parseDomain (fun _ => none) .fresh lampDomain, parseProblem (fun _ => none) [] lampProblem with
      | .ok (d, _), .ok (p, _) => decide ((Plan.mk [lampStep s%"a", lampStep s%"b"]).inst d = .ok [lampSwitch s%"a", lampSwitch s%"b"]) &&
          decide (p.objects = [.const s%"a" none, .const s%"b" none]) &&
          decide (p.init = [.pred ⟨s%"off", [.const s%"a" none]⟩, .pred ⟨s%"off", [.const s%"b" none]⟩]) &&
          decide (p.goal = .bin .and [.pred ⟨s%"on", [.const s%"a" none]⟩, .pred ⟨s%"on", [.const s%"b" none]⟩])
      | _, _ => false) = true := by decide +kernel
  cases h1 : parseDomain (fun _ => none) .fresh lampDomain with
  | error e => rw [h1] at h; cases h
  | ok r =>
    rw [h1] at h
    cases h2 : parseProblem (fun _ => none) [] lampProblem with
    | error e => rw [h2] at h; cases h
    | ok q =>
      rw [h2] at h
      simp only [Bool.and_eq_true, decide_eq_true_eq] at h
      exact ⟨r.1, r.2, q.1, q.2, rfl, rfl, h.1.1.1, h.1.1.2, h.1.2, h.2⟩

theorem lamp_renaming : Renaming (exchange s%"a" s%"b") :=
  exchange_renaming (by decide +kernel) (by decide +kernel) (by decide +kernel) (by decide +kernel)

theorem lamp_loose : LooseText lampDomain := by
  have h : ∀ w ∈ (lex lampDomain).filterMap (fun k => match k with | .name w => some w | _ => none),
      ∀ k ∈ gluing, ¬ (k.isPrefixOf w = true ∧ k.length < w.length) := by decide +kernel
  intro w hw k hk c cs e
  refine absurd ⟨?_, ?_⟩ (h w (List.mem_filterMap.2 ⟨_, hw, rfl⟩) k hk) <;> rw [e] <;> simp

theorem lamp_absent : ∀ w, Tok.name w ∈ lex lampDomain → exchange s%"a" s%"b" w = w := by
  have h : ∀ w ∈ (lex lampDomain).filterMap (fun k => match k with | .name w => some w | _ => none),
      exchange s%"a" s%"b" w = w := by decide +kernel
  exact fun w hw => h w (List.mem_filterMap.2 ⟨_, hw, rfl⟩)

/-- Lamps with different names are different lamps. Then switching them on one after the other works. -/
theorem lamp_solves {D : Type} {ν : Str → D} {p : Problem} {I : Interp D} (hI : ∀ a b, I.const a = I.const b → a = b)
    (h5 : p.init = [.pred ⟨s%"off", [.const s%"a" none]⟩, .pred ⟨s%"off", [.const s%"b" none]⟩])
    (h6 : p.goal = .bin .and [.pred ⟨s%"on", [.const s%"a" none]⟩, .pred ⟨s%"on", [.const s%"b" none]⟩])
    (hs : StartsIn ν p.init I) : Solves ν p [lampSwitch s%"a", lampSwitch s%"b"] I := by
  have hnext : ∀ (C : Change D → Prop) (I : Interp D), ∃ J, Next C I J := fun C I => by
    obtain ⟨J, hJ, _⟩ := next_exists C I (fun _ => False) I.fn (fun _ _ h => h.elim) (fun _ _ _ _ h => h.elim)
    exact ⟨J, hJ⟩
  obtain ⟨J1, h1⟩ := hnext (fun c => ∃ e, (lampSwitch s%"a").eff = some e ∧ makes I c e ν) I
  obtain ⟨J2, h2⟩ := hnext (fun c => ∃ e, (lampSwitch s%"b").eff = some e ∧ makes J1 c e ν) J1
  have hab : I.const s%"a" ≠ I.const s%"b" := fun e => absurd (hI _ _ e) (by decide +kernel)
  have c1 : J1.const = I.const := h1.const
  have c2 : J2.const = I.const := h2.const.trans c1
  have p1 : I.pred s%"off" [I.const s%"a"] := (hs.pred _ _).2 ⟨[.const s%"a" none], by rw [h5]; simp, rfl⟩
  have p2 : I.pred s%"off" [I.const s%"b"] := (hs.pred _ _).2 ⟨[.const s%"b" none], by rw [h5]; simp, rfl⟩
  have q1 : J1.pred s%"off" [I.const s%"b"] := by
    refine (h1.pred _ _).2 (.inr ⟨p2, ?_⟩)
    rintro ⟨e, he, hm⟩
    simp only [lampSwitch, Option.some.injEq] at he
    subst he
    simp [makes, makesSome, deletes, denote] at hm
    exact hab hm.symm
  have q2 : J1.pred s%"on" [I.const s%"a"] :=
    (h1.pred _ _).2 (.inl ⟨_, rfl, by simp [makes, makesSome, denote]⟩)
  have r1 : J2.pred s%"on" [I.const s%"a"] := by
    refine (h2.pred _ _).2 (.inr ⟨q2, ?_⟩)
    rintro ⟨e, he, hm⟩
    simp only [lampSwitch, Option.some.injEq] at he
    subst he
    simp [makes, makesSome, deletes, denote] at hm
  have r2 : J2.pred s%"on" [I.const s%"b"] :=
    (h2.pred _ _).2 (.inl ⟨_, rfl, by simp [makes, makesSome, denote, c1]⟩)
  refine ⟨hs, J2, .cons ⟨?_, h1⟩ (.cons ⟨?_, h2⟩ .nil), ?_⟩
  · intro e he
    simp only [lampSwitch, Option.some.injEq] at he
    subst he
    simpa [holds, denote] using p1
  · intro e he
    simp only [lampSwitch, Option.some.injEq] at he
    subst he
    simpa [holds, denote, c1] using q1
  · rw [h6]
    simpa [holds, holdsAll, denote, c2] using ⟨r1, r2⟩

/-- Switching on the lamps in the other order. -/
example : ∃ d σ p τ gs', parseDomain (fun _ => none) .fresh lampDomain = .ok (d, σ) ∧
    parseProblem (fun _ => none) [] lampProblem = .ok (p, τ) ∧
    (Plan.mk [lampStep s%"b", lampStep s%"a"]).inst d = .ok gs' ∧ Symmetric (exchange s%"a" s%"b") p ∧
    ∀ (D : Type) (ν : Str → D) (I : Interp D), (∀ a b, I.const a = I.const b → a = b) → StartsIn ν p.init I →
      Solves ν p gs' I := by
  obtain ⟨d, σ, p, τ, h1, h2, h3, h4, h5, h6⟩ := lamp_parsed
  obtain ⟨gs', k1, k2⟩ := C111_objects lamp_renaming _ lamp_loose lamp_absent h1 h3
  have hs : Symmetric (exchange s%"a" s%"b") p := by
    refine ⟨fun t => ?_, fun e => ?_, fun D J ν => ?_⟩
    · rw [h4, show List.map (Term.rename (exchange s%"a" s%"b")) [Term.const s%"a" none, .const s%"b" none] =
        [.const s%"b" none, .const s%"a" none] by decide +kernel]
      simp only [List.mem_cons, List.not_mem_nil, or_false]; exact or_comm
    · rw [h5, show List.map (Expr.rename (exchange s%"a" s%"b")) [Expr.pred ⟨s%"off", [.const s%"a" none]⟩, .pred ⟨s%"off", [.const s%"b" none]⟩] =
        [.pred ⟨s%"off", [.const s%"b" none]⟩, .pred ⟨s%"off", [.const s%"a" none]⟩] by decide +kernel]
      simp only [List.mem_cons, List.not_mem_nil, or_false]; exact or_comm
    · rw [h6, show Expr.rename (exchange s%"a" s%"b") (.bin .and [.pred ⟨s%"on", [.const s%"a" none]⟩, .pred ⟨s%"on", [.const s%"b" none]⟩]) =
        .bin .and [.pred ⟨s%"on", [.const s%"b" none]⟩, .pred ⟨s%"on", [.const s%"a" none]⟩] by decide +kernel]
      simp only [holds, holdsAll, and_true]; exact and_comm
  refine ⟨d, σ, p, τ, gs', h1, h2, k1, hs, fun D => (k2 p hs).2.1 D (fun I => ∀ a b, I.const a = I.const b → a = b) ?_ ?_⟩
  · exact fun I hI a b e => lamp_renaming.inj _ _ (hI _ _ e)
  · exact fun ν I hI hs => lamp_solves hI h5 h6 hs

end Pddl.Props
