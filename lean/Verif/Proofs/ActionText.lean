/-
The text of a parsed action.
-/
import Verif.Proofs.EffectSem
import Verif.Proofs.KeepsText

namespace Pddl
open Spec

/-- The states a domain parser can be in after parsing any number of texts successfully. -/
inductive ParserState (F : FloatOf) : PState → Prop
  | fresh : ParserState F .fresh
  | parsed {σ text d σ'} : ParserState F σ → parseDomain F σ text = .ok (d, σ') → ParserState F σ'

theorem ParserState.constsOk {F : FloatOf} {σ : PState} (h : ParserState F σ) : ConstsOk σ := by
  induction h with
  | fresh => intro p hp; simp [PState.fresh] at hp
  | parsed _ h ih =>
    obtain ⟨ts, _, h⟩ := parseDomain_ok h
    obtain ⟨P⟩ := domainDef_ok h
    have h4 := constsOk_domain P ih
    have h5 := (structures_from P.hstruct).1
    unfold ConstsOk at *
    rw [P.hσ']
    simp only
    rw [h5.2.1]
    exact h4

/-- The parts of a parsed action, with the environment in which its condition and effect were read. -/
theorem action_parts {F : FloatOf} {σ : PState} {text : Str} {d : Domain} {σ' : PState}
    (hσ : ParserState F σ) (h : parseDomain F σ text = .ok (d, σ')) {a : Action} (ha : a ∈ d.actions) :
    ∃ (ts : List Tree) (n : Str) (ps : List Tree) (pre eff : Tree) (E : GEnv) (p e : Expr),
      readText text = .ok [.node ts] ∧ actionText n ps pre eff ∈ ts ∧ a.name = n ∧ a.pre = some p ∧ a.eff = some e ∧
      ParserEnv E ∧ E.Plain ∧ E.float = F ∧ E.typedVars = typedListVariable ∧ E.preGd pre = .ok p ∧ E.effOpt eff = .ok e ∧
      (∀ w, Inside (.atom (.name w)) (.node ts) → nameRegex w = true) := by
  obtain ⟨ts, hr, h⟩ := parseDomain_ok h
  obtain ⟨P⟩ := domainDef_ok h
  rw [(mkDomain_actions P.hdomain).1] at ha
  have ha := dedupBy_subset ha
  obtain ⟨body, σ1, σ2, hb, hs, hd⟩ := (structures_from P.hstruct).2.1 a ha
  obtain ⟨n, ps, t, t', params, p, e, rfl, hpar, rfl, hpre, heff, hact⟩ := actionDef_ok hd
  have hbody := P.sub hb
  have hc : ConstsOk { σ1 with params := params } := by
    have h4 := constsOk_domain P hσ.constsOk
    unfold ConstsOk at *
    simp only
    rw [hs.2.1]
    exact h4
  unfold mkAction at hact
  obtain ⟨n', hn, hact'⟩ := bind_ok_iff.1 hact
  clear hact
  obtain ⟨rfl, _⟩ := parseName_ok.1 hn
  simp only [pure_ok, Except.ok.injEq] at hact'
  subst hact'
  exact ⟨ts, _, ps, t, t', ({ σ1 with params := params } : PState).env F, p, e, hr, hbody, rfl, rfl, rfl,
    params_env hc (actionParameters_vars hpar) F, env_plain hc (actionParameters_vars hpar) F, rfl, rfl, hpre, heff,
    fun w hw => readText_words hr (t := .node ts) (by simp) hw⟩

theorem Spec.NoArithmetic.keeps {t : Tree} (h : NoArithmetic t) (E : GEnv) : KeepsOperands E t where
  plus a _ hi := absurd hi (h.plus a)
  times a _ hi := absurd hi (h.times a)
  divide a _ hi := absurd hi (h.divide a)
  eq a es hi he := by rw [h.eq a hi] at he; cases he

end Pddl
