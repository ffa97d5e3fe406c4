/- Ground actions and the texts with the arguments written in. -/
import Verif.Proofs.WriteSem
import Verif.Proofs.ReplaceAction

namespace Pddl
open Spec Props

variable {r : Str → Option Str} {E E' : GEnv}

/-! ### Environments -/

theorem FRel.env (hf : E.float = E'.float) (ht : ∀ l, E.terms l = E'.terms l) {t : Tree} {e : Expr} (h : FRel E t e) : FRel E' t e := by
  induction h with
  | num h => exact .num (hf ▸ h)
  | plus h1 h2 _ ih => exact .plus h1 h2 ih
  | times h1 h2 _ ih => exact .times h1 h2 ih
  | divide _ _ ih1 ih2 => exact .divide ih1 ih2
  | minus _ ih => exact .minus ih
  | fn0 h => exact .fn0 h
  | fn h1 h2 => exact .fn (ht _ ▸ h1) h2

theorem terms_env (hc : E.constant = E'.constant) (hp : E.params = E'.params) (l : List Tree) : E.terms l = E'.terms l := by
  induction l using GEnv.terms.induct with
  | case1 => rfl
  | case2 n ts ih => rw [GEnv.terms, GEnv.terms, ih, hc]
  | case3 n ts ih => rw [GEnv.terms, GEnv.terms, ih, GEnv.variable, GEnv.variable, hp]
  | case4 l h1 h2 h3 =>
    rw [GEnv.terms.eq_def, GEnv.terms.eq_def]
    split
    · exact absurd rfl h1
    · exact absurd rfl (h2 _ _)
    · exact absurd rfl (h3 _ _)
    · rfl

theorem fExps_env (hf : E.float = E'.float) (ht : ∀ l, E.terms l = E'.terms l) {l : List Tree} {es : List Expr}
    (h : E.fExps l = .ok es) : E'.fExps l = .ok es := by
  obtain ⟨h1, h2⟩ := fExps_ok.1 h
  exact fExps_ok.2 ⟨h1, fun p hp => fExp_iff.2 ((fExp_rel (h2 p hp)).env hf ht)⟩

theorem Spec.KeepsOperands.env (hf : E.float = E'.float) (ht : ∀ l, E.terms l = E'.terms l) {t : Tree} (h : KeepsOperands E t) :
    KeepsOperands E' t := by
  have hx : ∀ {l es}, E'.fExps l = .ok es → E.fExps l = .ok es := fun h => fExps_env hf.symm (fun l => (ht l).symm) h
  exact ⟨fun a es hi he => h.plus a es hi (hx he), fun a es hi he => h.times a es hi (hx he),
    fun a es hi he => h.divide a es hi (hx he), fun a es hi h1 he => h.eq a es hi h1 (hx he)⟩

theorem keeps_ground {F : FloatOf} (hF : E.float = F) {t : Tree} (h : KeepsOperands (textEnv F) t) : KeepsOperands E.ground t :=
  KeepsOperands.env (E := textEnv F) (E' := E.ground) hF.symm (terms_env (E := textEnv F) (E' := E.ground) rfl rfl) h

theorem ground_parser (hE : ParserEnv E) : ParserEnv E.ground := by
  refine ⟨?_, ?_, hE.typedVars⟩
  · intro n t h
    simp only [GEnv.ground, Except.ok.injEq] at h
    exact ⟨none, h.symm⟩
  · intro n t h
    simp [GEnv.ground, dictGet] at h

/-! ### Arguments -/

theorem argumentOf_none {vs : List Var} {args : List Term} (hl : args.length = vs.length) {x : Str}
    (h : argumentOf (vs.map Term.var) args x = none) : ∀ v ∈ vs, v.name ≠ x := by
  unfold argumentOf at h
  rw [Option.map_eq_none_iff, List.find?_eq_none] at h
  intro v hv e
  obtain ⟨i, hi, he⟩ := List.getElem_of_mem hv
  have : (Term.var v, args[i]'(by omega)) ∈ (vs.map Term.var).zip args := by
    rw [List.mem_iff_getElem]
    exact ⟨i, by simp [hl, hi], by simp [he]⟩
  exact h _ this (decide_eq_true e)

theorem argumentOf_some {params args : List Term} {x a : Str} (h : argumentOf params args x = some a) :
    ∃ p t, (p, t) ∈ params.zip args ∧ p.name = x ∧ t.name = a := by
  unfold argumentOf at h
  obtain ⟨⟨p, t⟩, hf, he⟩ := Option.map_eq_some_iff.1 h
  have hs := List.find?_some hf
  exact ⟨p, t, List.mem_of_find?_eq_some hf, of_decide_eq_true hs, he⟩

theorem argumentOf_notParam {params args : List Term} {x : Str} (h : x ∉ params.map Term.name) : argumentOf params args x = none := by
  cases he : argumentOf params args x with
  | none => rfl
  | some a =>
    obtain ⟨p, t, h1, h2, _⟩ := argumentOf_some he
    exact absurd (List.mem_map.2 ⟨p, (List.of_mem_zip h1).1, h2⟩) h

theorem args_cover {vs : List Var} {args : List Term} (hl : args.length = vs.length)
    (hp : E.params = vs.map (fun v => (v.name, Term.var v))) : Covers (argumentOf (vs.map Term.var) args) E := by
  intro n hn
  cases hd : dictGet E.params n with
  | none => rfl
  | some t =>
    have := dictGet_mem hd
    rw [hp] at this
    obtain ⟨v, hv, e⟩ := List.mem_map.1 this
    injection e with e _
    exact absurd e (argumentOf_none hl hn v hv)

theorem args_write {D : Type} {I : Interp D} {ρ ρ' : Str → D} {vs : List Var} {args : List Term} (hl : args.length = vs.length)
    (hargs : ∀ t ∈ args, ∃ n tag, t = .const n tag) (hb : Binds I (vs.map Term.var) args ρ ρ') :
    Writes I (argumentOf (vs.map Term.var) args) ρ ρ' := by
  constructor
  · intro x a h
    obtain ⟨p, t, h1, h2, h3⟩ := argumentOf_some h
    obtain ⟨n, tag, rfl⟩ := hargs t (List.of_mem_zip h1).2
    rw [← h2, hb.param _ h1, ← h3]
    rfl
  · intro x h
    refine hb.other x ?_
    intro t ht
    obtain ⟨v, hv, rfl⟩ := List.mem_map.1 ht
    exact argumentOf_none hl h v hv

theorem writeIn_ne {t : Tree} (h : t ≠ .node []) : writeIn r t ≠ .node [] := by
  cases t with
  | atom k => rw [writeIn]; simp
  | node l =>
    rw [writeIn]
    intro e
    injection e with e
    unfold writeIns at e
    split at e
    · simp_all
    · split at e <;> simp at e
    · simp at e

/-! ### Texts without arithmetic stay without arithmetic -/

theorem termsOnly_writeIns' {l : List Tree} (h : termsOnly l = true) : termsOnly (writeIns r l) = true := by
  induction l using termsOnly.induct with
  | case1 => simp [writeIns, termsOnly]
  | case2 n ts ih =>
    rw [termsOnly] at h
    rw [writeIns_cons (by simp), writeIn, termsOnly]
    exact ih h
  | case3 n ts ih =>
    rw [termsOnly] at h
    rw [writeIns]
    cases hr : r n with
    | some a => simp only [termsOnly]; exact ih h
    | none => simp only [termsOnly]; exact ih h
  | case4 l h1 h2 h3 =>
    rw [termsOnly.eq_def] at h
    split at h
    · exact absurd rfl h1
    · exact absurd rfl (h2 _ _)
    · exact absurd rfl (h3 _ _)
    · cases h

theorem written_head {k : Tok} (hk : ∀ n, k ≠ .name n) (hq : k ≠ .qmark) {args : List Tree} {t : Tree}
    (h : Inside (.node (.atom k :: args)) (writeIn r t)) : ∃ args', args = writeIns r args' ∧ Inside (.node (.atom k :: args')) t := by
  rcases inside_writeIn h with ⟨s', h1, h2⟩ | ⟨x, a, hx, e⟩
  · cases s' with
    | atom k => rw [writeIn] at h2; cases h2
    | node l =>
      rw [writeIn] at h2
      injection h2 with h2
      rw [writeIns.eq_def] at h2
      split at h2
      · cases h2
      · next n ts =>
        split at h2
        · injection h2 with h2 _
          injection h2 with h2
          exact absurd h2 (hk _)
        · injection h2 with h2 _
          injection h2 with h2
          exact absurd h2 hq
      · next u us _ =>
        injection h2 with h2 h3
        cases u with
        | atom k' =>
          rw [writeIn] at h2
          injection h2 with h2
          subst h2
          exact ⟨us, h3, h1⟩
        | node l => rw [writeIn] at h2; cases h2
  · cases e

theorem noArithmetic_writeIn {t : Tree} (h : NoArithmetic t) : NoArithmetic (writeIn r t) := by
  refine ⟨fun a hi => ?_, fun a hi => ?_, fun a hi => ?_, fun a hi => ?_⟩
  · obtain ⟨a', _, hi⟩ := written_head (by simp) (by simp) hi
    exact h.plus _ hi
  · obtain ⟨a', _, hi⟩ := written_head (by simp) (by simp) hi
    exact h.times _ hi
  · obtain ⟨a', _, hi⟩ := written_head (by simp) (by simp) hi
    exact h.divide _ hi
  · obtain ⟨a', rfl, hi'⟩ := written_head (by simp) (by simp) hi
    exact termsOnly_writeIns' (h.eq _ hi')

end Pddl
