/- The texts of ground actions. -/
import Verif.Proofs.Replace
import Verif.Proofs.Gate
import Verif.Props.Ground

namespace Pddl
open Spec Props

/-- Each written action without parameters is read. -/
theorem written_ground {F : FloatOf} {σ : PState} {text : Str} {d : Domain} {σ' : PState} (hσ : ParserState F σ)
    (h : parseDomain F σ text = .ok (d, σ')) {ts : List Tree} (hr : readText text = .ok [.node ts]) {n : Str} {pre eff : Tree}
    (hin : actionText n [] pre eff ∈ ts) :
    ∃ b ∈ d.actions, ∃ (E : GEnv) (p e p' e' : Expr), b.name = n ∧ b.params = [] ∧ b.pre = some p' ∧ b.eff = some e' ∧
      p.norm = p'.norm ∧ e.norm = e'.norm ∧ ParserEnv E ∧ E.float = F ∧ E.typedVars = typedListVariable ∧ E.params = [] ∧
      E.preGd pre = .ok p ∧ E.effOpt eff = .ok e := by
  obtain ⟨ts', hr', h⟩ := parseDomain_ok h
  rw [hr] at hr'
  injection hr' with hr'
  injection hr' with hr'
  injection hr' with hr'
  subst hr'
  obtain ⟨P⟩ := domainDef_ok h
  have h5 : actionText n [] pre eff ∈ P.ts5 := by
    obtain ⟨w, x, hts, hp, hx⟩ := header_ok P.hheader
    rw [hts] at hin
    rcases List.mem_cons.1 hin with h | h
    · exact absurd h (by simp [actionText])
    rcases List.mem_cons.1 h with h | h
    · rcases hx with ⟨rfl, _⟩ | ⟨rfl, _⟩ <;> simp [actionText] at h
    rcases P.mem h with ⟨_, _, e⟩ | ⟨_, _, e⟩ | ⟨_, _, e⟩ | ⟨_, _, e⟩ | ⟨_, _, e⟩ | h
    · simp [actionText] at e
    · simp [actionText] at e
    · simp [actionText] at e
    · simp [actionText] at e
    · simp [actionText] at e
    · exact h
  rcases structures_mem P.hstruct h5 with ⟨body, σ1, a, σ2, e, hs, hd, ha⟩ | ⟨_, _, _, e, _⟩
  · injection e with e
    injection e with _ e
    obtain ⟨n', ps, t, t', params, p, x, hbody, hpar, rfl, hpre, heff, hact⟩ := actionDef_ok hd
    rw [← e] at hbody
    simp only [List.cons.injEq, Tree.atom.injEq, Tok.name.injEq, Tree.node.injEq, true_and, and_true] at hbody
    obtain ⟨rfl, rfl, rfl, rfl⟩ := hbody
    have hp0 : params = [] := by
      have : actionParameters [] = .ok [] := by decide +kernel
      rw [this] at hpar
      injection hpar with hpar
      exact hpar.symm
    subst hp0
    have hc : ConstsOk { σ1 with params := [] } := by
      have h4 := constsOk_domain P hσ.constsOk
      unfold ConstsOk at *
      simp only
      rw [hs.2.1]
      exact h4
    unfold mkAction at hact
    obtain ⟨n'', hn, hact'⟩ := bind_ok_iff.1 hact
    obtain ⟨rfl, _⟩ := parseName_ok.1 hn
    simp only [pure_ok, Except.ok.injEq, List.map_nil] at hact'
    have hcov := dedupBy_cover (eq := Action.pyEq) (fun _ => Action.pyEq_iff.2 rfl) ha
    rw [← (mkDomain_actions P.hdomain).1] at hcov
    obtain ⟨b, hb, hbe⟩ := memBy_iff.1 hcov
    rw [← hact'] at hbe
    simp only [Action.pyEq, Bool.and_eq_true, decide_eq_true_eq] at hbe
    obtain ⟨⟨⟨h1, h2⟩, h3⟩, h4⟩ := hbe
    obtain ⟨bn, bp, bpre, beff⟩ := b
    simp only at h1 h2 h3 h4
    cases bpre with
    | none => simp [optEq] at h3
    | some p' =>
      cases beff with
      | none => simp [optEq] at h4
      | some e' =>
        refine ⟨_, hb, ({ σ1 with params := [] } : PState).env F, p, x, p', e', h1.symm, ?_, rfl, rfl,
          (Expr.pyEq_iff _ _).1 h3, (Expr.pyEq_iff _ _).1 h4, params_env hc (actionParameters_vars hpar) F, rfl, rfl, rfl, hpre, heff⟩
        cases bp with
        | nil => rfl
        | cons => simp [termsEq] at h2
  · simp [actionText] at e

/-- Two pairs of a parameter and its argument with equal names are the same. -/
theorem zip_unique {vs : List Var} {args : List Term} (hn : (vs.map Var.name).Nodup) {v w : Var} {t t' : Term}
    (h : (Term.var v, t) ∈ (vs.map Term.var).zip args) (h' : (Term.var w, t') ∈ (vs.map Term.var).zip args)
    (e : v.name = w.name) : v = w ∧ t = t' := by
  obtain ⟨i, hi, hi'⟩ := List.getElem_of_mem h
  obtain ⟨j, hj, hj'⟩ := List.getElem_of_mem h'
  have hi2 : i < vs.length := by
    have := hi
    simp at this
    omega
  have hj2 : j < vs.length := by
    have := hj
    simp at this
    omega
  rw [List.getElem_zip, List.getElem_map] at hi' hj'
  injection hi' with a1 a2
  injection hj' with b1 b2
  injection a1 with a1
  injection b1 with b1
  have hij : i = j := by
    have := (List.nodup_iff_injective_get.1 hn) (a₁ := ⟨i, by simpa using hi2⟩) (a₂ := ⟨j, by simpa using hj2⟩)
      (by simp [a1, b1, e])
    simpa using this
  subst hij
  exact ⟨a1.symm.trans b1, a2.symm.trans b2⟩

/-- Reading a text with the arguments in place of the parameters. -/
theorem swap_args {E E' : GEnv} {vs : List Var} {args : List Term} (hn : (vs.map Var.name).Nodup) (hl : args.length = vs.length)
    (hargs : ∀ t ∈ args, ∃ n tag, t = .const n tag) (hE : ParserEnv E) (hp : E.params = vs.map (fun v => (v.name, Term.var v)))
    (hE' : ParserEnv E') (hp' : E'.params = []) (hF : E.float = E'.float) (hv : E.typedVars = E'.typedVars) :
    Swap (Mapping.ofZip (vs.map Term.var) args) (argumentOf (vs.map Term.var) args) E E' := by
  have hname : ∀ {v u : Var}, (Term.var v).pyEq (.var u) = true → v.name = u.name := by
    intro v u h
    simp only [Term.pyEq, Var.pyEq, Bool.and_eq_true, decide_eq_true_eq] at h
    exact h.1
  have hzip : ∀ v ∈ vs, ∃ t, (Term.var v, t) ∈ (vs.map Term.var).zip args := by
    intro v hv
    obtain ⟨i, hi, he⟩ := List.getElem_of_mem hv
    refine ⟨args[i]'(by omega), ?_⟩
    rw [List.mem_iff_getElem]
    exact ⟨i, by simp [hl, hi], by simp [he]⟩
  have hdict : ∀ n t, dictGet E.params n = some t → ∃ v ∈ vs, t = .var v ∧ v.name = n := by
    intro n t h
    obtain ⟨v, rfl, hvn⟩ := hE.params n t h
    refine ⟨v, ?_, rfl, hvn⟩
    have := dictGet_mem h
    rw [hp] at this
    obtain ⟨u, hu, e⟩ := List.mem_map.1 this
    injection e with _ e
    injection e with e
    rw [← e]
    exact hu
  constructor
  · intro n t t' h h'
    obtain ⟨tag, rfl⟩ := hE.constant n t h
    obtain ⟨tag', rfl⟩ := hE'.constant n t' h'
    simp [substTerm, Term.norm]
  · intro n a t t' h1 h2 h3
    obtain ⟨tag', rfl⟩ := hE'.constant a t' h3
    unfold argumentOf at h1
    obtain ⟨⟨p1, p2⟩, hf, he⟩ := Option.map_eq_some_iff.1 h1
    have hm := List.mem_of_find?_eq_some hf
    have hs := List.find?_some hf
    obtain ⟨u, hu, e⟩ := List.mem_map.1 (List.of_mem_zip hm).1
    simp only at e he hs
    subst e
    have hs : u.name = n := of_decide_eq_true hs
    obtain ⟨v, hvm, rfl, hvn⟩ : ∃ v ∈ vs, t = .var v ∧ v.name = n := by
      unfold GEnv.variable at h2
      split at h2
      · next t0 ht0 =>
        simp only [pure_ok, Except.ok.injEq] at h2
        subst h2
        exact hdict n _ ht0
      · next hno =>
        exfalso
        refine absurd hno ?_
        rw [hp]
        obtain ⟨t1, ht1⟩ := dictGet_of_key (d := vs.map (fun v => (v.name, Term.var v))) (k := n)
          (List.mem_map.2 ⟨_, List.mem_map.2 ⟨u, hu, rfl⟩, hs⟩)
        rw [ht1]
        simp
    obtain ⟨t, ht⟩ := hzip v hvm
    have hg : (Mapping.ofZip (vs.map Term.var) args).get (.var v) = some t := by
      rw [get_ofZip]
      cases hq : ((vs.map Term.var).zip args).reverse.find? (fun p => (Term.var v).pyEq p.1) with
      | none =>
        rw [List.find?_eq_none] at hq
        exact absurd (Term.pyEq_iff.2 rfl) (hq _ (List.mem_reverse.2 ht))
      | some q =>
        obtain ⟨q1, q2⟩ := q
        have hm' := List.mem_reverse.1 (List.mem_of_find?_eq_some hq)
        have hs' := List.find?_some hq
        obtain ⟨w, hw, e⟩ := List.mem_map.1 (List.of_mem_zip hm').1
        simp only at e hs'
        subst e
        rw [← (zip_unique hn ht hm' (hname hs')).2]
        rfl
    have := (zip_unique hn hm ht (by rw [hs, hvn])).2
    subst this
    obtain ⟨c, tag, rfl⟩ := hargs _ (List.of_mem_zip ht).2
    simp only [Term.name] at he
    subst he
    simp [substTerm, hg, Term.norm]
  · intro n t t' h1 h2 h3
    unfold argumentOf at h1
    rw [Option.map_eq_none_iff, List.find?_eq_none] at h1
    have hno : ∀ v ∈ vs, v.name ≠ n := by
      intro v hv
      obtain ⟨t, ht⟩ := hzip v hv
      exact fun e => h1 _ ht (decide_eq_true e)
    have hd : dictGet E.params n = none := by
      cases hd : dictGet E.params n with
      | none => rfl
      | some t0 =>
        obtain ⟨v, hv, _, e⟩ := hdict n t0 hd
        exact absurd e (hno v hv)
    have hd' : dictGet E'.params n = none := by rw [hp']; rfl
    unfold GEnv.variable at h2 h3
    rw [hd] at h2
    rw [hd'] at h3
    simp only at h2 h3
    rw [h2] at h3
    injection h3 with h3
    subst h3
    obtain ⟨v, hv, h2⟩ := bind_ok_iff.1 h2
    simp only [pure_ok, Except.ok.injEq] at h2
    subst h2
    have hvn : v.name = n := by rw [(mkVar_set_ok.1 hv).2.2]
    have : (Mapping.ofZip (vs.map Term.var) args).get (.var v) = none := by
      rw [get_ofZip, Option.map_eq_none_iff, List.find?_eq_none]
      intro p hp
      obtain ⟨u, hu, e⟩ := List.mem_map.1 (List.of_mem_zip (List.mem_reverse.1 hp)).1
      rw [← e]
      intro hc
      exact hno u hu ((hname hc).symm.trans hvn)
    simp [substTerm, this]
  · exact hF
  · intro toks l l' h h'
    rw [hv, h'] at h
    injection h with h
    exact h.symm

end Pddl
