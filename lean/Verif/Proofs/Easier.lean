/-
Actions written with fewer conditions, fewer deletions and more additions.
-/
import Verif.Spec.Easier
import Verif.Proofs.Monotone
import Verif.Proofs.ReplaceAction

namespace Pddl
open Spec

/-! ### Reading the parts -/

variable {E E' : GEnv} {m : Mapping} {D : Type} {I : Interp D}

theorem conjuncts_single {t : Tree} (h : ∀ args, t ≠ .node (.atom (.name s%"and") :: args)) : conjuncts t = [t] := by
  unfold conjuncts
  split
  · rename_i w args
    split
    · rename_i hw; subst hw; exact absurd rfl (h args)
    · rfl
  · rfl

theorem conjuncts_and (args : List Tree) : conjuncts (.node (.atom (.name s%"and") :: args)) = args := by
  unfold conjuncts; simp

theorem pre_parts {t : Tree} {p : Expr} (h : E.preGd t = .ok p) (ρ : Str → D) :
    holds I (p.sub m) ρ ↔ ∀ u ∈ conjuncts t, ∃ e, E.gd u = .ok e ∧ holds I (e.sub m) ρ := by
  unfold GEnv.preGd at h
  split at h
  · simp only [pure_ok, Except.ok.injEq] at h
    subst h
    rw [sub_mkOr (by simp)]
    have e1 : mkOr ([] : List Expr) = .bin .or [] := by decide +kernel
    simp [e1, holds, holdsSome, conjuncts, GEnv.gd]
  · by_cases hc : ∃ args, t = .node (.atom (.name s%"and") :: args)
    · obtain ⟨args, rfl⟩ := hc
      rw [conjuncts_and]
      unfold GEnv.gd at h
      rw [if_pos rfl] at h
      obtain ⟨es, he, h⟩ := bind_ok_iff.1 h
      simp only [pure_ok, Except.ok.injEq] at h
      subst h
      have P := gds_ok.1 he
      have hg : ∀ e ∈ es, e.Good := fun e hm => by
        obtain ⟨u, _, hu⟩ := P.mem_right hm
        exact (gd_iff.1 hu).good
      rw [sub_mkAnd hg, holds_mkAnd]
      constructor
      · intro hh u hu
        obtain ⟨e, hm, he⟩ := P.mem_left hu
        exact ⟨e, he, hh _ (List.mem_map_of_mem hm)⟩
      · intro hh a ha
        obtain ⟨e, hm, rfl⟩ := List.mem_map.1 ha
        obtain ⟨u, hu, he⟩ := P.mem_right hm
        obtain ⟨e', he', hh'⟩ := hh u hu
        rw [he] at he'
        cases he'
        exact hh'
    · rw [conjuncts_single (fun args e => hc ⟨args, e⟩)]
      simp [h]

theorem effect_top {t : Tree} (h : ∀ args, t ≠ .node (.atom (.name s%"and") :: args)) : E.effect true t = E.effect false t := by
  unfold GEnv.effect
  split
  · rename_i w args
    by_cases hw : w = s%"and"
    · subst hw; exact absurd rfl (h args)
    · simp [hw]
  · rfl

theorem eff_parts {t : Tree} {e : Expr} (h : E.effOpt t = .ok e) (c : Change D) (ρ : Str → D) :
    makes I c (e.sub m) ρ ↔ ∃ u ∈ conjuncts t, ∃ x, E.effect false u = .ok x ∧ makes I c (x.sub m) ρ := by
  unfold GEnv.effOpt at h
  split at h
  · simp only [pure_ok, Except.ok.injEq] at h
    subst h
    rw [sub_mkOr (by simp)]
    have e1 : mkOr ([] : List Expr) = .bin .or [] := by decide +kernel
    simp [e1, makes, conjuncts, GEnv.effect, GEnv.pEffect]
  · by_cases hc : ∃ args, t = .node (.atom (.name s%"and") :: args)
    · obtain ⟨args, rfl⟩ := hc
      rw [conjuncts_and]
      rw [effect_name, if_pos ⟨rfl, rfl⟩] at h
      obtain ⟨es, he, h⟩ := bind_ok_iff.1 h
      simp only [pure_ok, Except.ok.injEq] at h
      subst h
      have P := effects_ok.1 he
      have hg : ∀ e ∈ es, e.Good := fun e hm => by
        obtain ⟨u, _, hu⟩ := P.mem_right hm
        exact (effect_iff.1 hu).good
      rw [sub_mkAnd hg, makes_mkAnd]
      constructor
      · rintro ⟨a, ha, hh⟩
        obtain ⟨e, hm, rfl⟩ := List.mem_map.1 ha
        obtain ⟨u, hu, he⟩ := P.mem_right hm
        exact ⟨u, hu, e, he, hh⟩
      · rintro ⟨u, hu, x, hx, hh⟩
        obtain ⟨e, hm, he⟩ := P.mem_left hu
        rw [he] at hx
        cases hx
        exact ⟨_, List.mem_map_of_mem hm, hh⟩
    · rw [conjuncts_single (fun args e => hc ⟨args, e⟩)]
      rw [effect_top (fun args e => hc ⟨args, e⟩)] at h
      simp [h]

theorem preGd_reads {t : Tree} {p : Expr} (h : E.preGd t = .ok p) : ∀ u ∈ conjuncts t, u ≠ .node [] → ∃ e, E.gd u = .ok e := by
  unfold GEnv.preGd at h
  split at h
  · intro u hu hne
    simp [conjuncts] at hu
    exact absurd hu hne
  · by_cases hc : ∃ args, t = .node (.atom (.name s%"and") :: args)
    · obtain ⟨args, rfl⟩ := hc
      rw [conjuncts_and]
      unfold GEnv.gd at h
      rw [if_pos rfl] at h
      obtain ⟨es, he, h⟩ := bind_ok_iff.1 h
      intro u hu _
      obtain ⟨e, _, he⟩ := (gds_ok.1 he).mem_left hu
      exact ⟨e, he⟩
    · rw [conjuncts_single (fun args e => hc ⟨args, e⟩)]
      intro u hu _
      simp at hu
      subst hu
      exact ⟨_, h⟩

theorem effOpt_reads {t : Tree} {e : Expr} (h : E.effOpt t = .ok e) : ∀ u ∈ conjuncts t, u ≠ .node [] → ∃ x, E.effect false u = .ok x := by
  unfold GEnv.effOpt at h
  split at h
  · intro u hu hne
    simp [conjuncts] at hu
    exact absurd hu hne
  · by_cases hc : ∃ args, t = .node (.atom (.name s%"and") :: args)
    · obtain ⟨args, rfl⟩ := hc
      rw [conjuncts_and]
      rw [effect_name, if_pos ⟨rfl, rfl⟩] at h
      obtain ⟨es, he, h⟩ := bind_ok_iff.1 h
      intro u hu _
      obtain ⟨e, _, he⟩ := (effects_ok.1 he).mem_left hu
      exact ⟨e, he⟩
    · rw [conjuncts_single (fun args e => hc ⟨args, e⟩)]
      rw [effect_top (fun args e => hc ⟨args, e⟩)] at h
      intro u hu _
      simp at hu
      subst hu
      exact ⟨_, h⟩

/-! ### Two environments with the same parameters -/

theorem writeIns_none {l : List Tree} (h : ∀ t ∈ l, writeIn (fun _ => none) t = t) : writeIns (fun _ => none) l = l := by
  induction hk : l.length using Nat.strongRecOn generalizing l with
  | _ k ih =>
    subst hk
    unfold writeIns
    split
    · rfl
    · rename_i n ts
      rw [ih ts.length (by simp; omega) (fun t ht => h t (by simp [ht])) rfl]
    · rename_i t ts _
      rw [h t (by simp), ih ts.length (by simp) (fun t ht => h t (by simp [ht])) rfl]

theorem writeIn_none (t : Tree) : writeIn (fun _ => none) t = t := by
  induction t using Tree.ind with
  | hatom a => rw [writeIn]
  | hnode l ih => rw [writeIn, writeIns_none ih]

theorem swap_same (hE : ParserEnv E) (hE' : ParserEnv E') (hp : E.params = E'.params) (hf : E.float = E'.float)
    (hv : E.typedVars = E'.typedVars) : Swap [] (fun _ => none) E E' where
  const n t t' h h' := by
    obtain ⟨tag, rfl⟩ := hE.constant n t h
    obtain ⟨tag', rfl⟩ := hE'.constant n t' h'
    rfl
  param n a t t' h := by cases h
  other n t t' _ h h' := by
    unfold GEnv.variable at h h'
    rw [hp] at h
    rw [h] at h'
    cases h'
    cases t <;> rfl
  float := hf
  typedVars toks l l' h h' := by
    rw [hv, h'] at h
    cases h
    rfl

theorem gd_same (hE : ParserEnv E) (hE' : ParserEnv E') (hp : E.params = E'.params) (hf : E.float = E'.float)
    (hv : E.typedVars = E'.typedVars) {t : Tree} {e e' : Expr} (h : E.gd t = .ok e) (h' : E'.gd t = .ok e') : e.norm = e'.norm := by
  have h1 := GRel.swap (swap_same hE hE' hp hf hv) (gd_iff.1 h) (by rw [writeIn_none]; exact gd_iff.1 h')
  have h2 := GRel.swap (swap_same hE hE rfl rfl rfl) (gd_iff.1 h) (by rw [writeIn_none]; exact gd_iff.1 h)
  exact h2.symm.trans h1

theorem effect_same (hE : ParserEnv E) (hE' : ParserEnv E') (hp : E.params = E'.params) (hf : E.float = E'.float)
    (hv : E.typedVars = E'.typedVars) {top : Bool} {t : Tree} {e e' : Expr} (h : E.effect top t = .ok e) (h' : E'.effect top t = .ok e') :
    e.norm = e'.norm := by
  have h1 := ERel.swap (swap_same hE hE' hp hf hv) (effect_iff.1 h) (by rw [writeIn_none]; exact effect_iff.1 h')
  have h2 := ERel.swap (swap_same hE hE rfl rfl rfl) (effect_iff.1 h) (by rw [writeIn_none]; exact effect_iff.1 h)
  exact h2.symm.trans h1

/-! ### Additions and deletions -/

theorem adds_only {t : Tree} {x : Expr} (h : E.effect false t = .ok x) (ha : AddsAtom t) {c : Change D} {ρ : Str → D}
    (hm : makes I c (x.sub m) ρ) : ∃ n ds, c = .add n ds := by
  obtain ⟨w, args, rfl, hw, hu⟩ := ha
  simp only [List.mem_cons, List.not_mem_nil, or_false, not_or] at hw
  rw [effect_name] at h
  simp only [hw, if_false, Bool.false_eq_true, false_and] at h
  unfold GEnv.pEffect at h
  have ho : assignOp w = none := by
    unfold updateWord at hu
    unfold assignOp
    repeat' split at hu
    all_goals simp_all
  simp only [hw, if_false, ho] at h
  rcases atomic_shape h with ⟨p, rfl⟩ | ⟨l, r, rfl⟩
  · simp only [Expr.sub, makes] at hm
    exact ⟨_, _, hm⟩
  · simp only [Expr.sub, makes] at hm

theorem deletes_only {t : Tree} {x : Expr} (h : E.effect false t = .ok x) (ha : DeletesAtom t) {c : Change D} {ρ : Str → D}
    (hm : makes I c (x.sub m) ρ) : ∃ n ds, c = .del n ds := by
  obtain ⟨y, rfl⟩ := ha
  rw [effect_name] at h
  simp only [Bool.false_eq_true, false_and, if_false] at h
  rw [if_neg (by decide), if_neg (by decide), if_neg (by decide)] at h
  unfold GEnv.pEffect at h
  rw [if_pos rfl] at h
  split at h
  · obtain ⟨e, he, h⟩ := bind_ok_iff.1 h
    simp only [pure_ok, Except.ok.injEq] at h
    subst h
    rcases atomic_shape he with ⟨p, rfl⟩ | ⟨l, r, rfl⟩
    · simp only [Expr.sub, makes, deletes] at hm
      exact ⟨_, _, hm⟩
    · simp only [Expr.sub, makes, deletes] at hm
  · cases h

theorem effect_empty {x : Expr} : E.effect false (.node []) ≠ .ok x := by
  simp [GEnv.effect, GEnv.pEffect]

/-! ### The ground actions -/

/-- The action `g'` needs less, adds at least as much and deletes at most as much as `g`. -/
structure Relaxes (g g' : Action) : Prop where
  pre : ∀ (D : Type) (I : Interp D) (ρ : Str → D), (∀ e, g.pre = some e → holds I e ρ) → ∀ e, g'.pre = some e → holds I e ρ
  add : ∀ (D : Type) (I : Interp D) (ρ : Str → D) n ds, (∃ e, g.eff = some e ∧ makes I (.add n ds) e ρ) → ∃ e, g'.eff = some e ∧ makes I (.add n ds) e ρ
  del : ∀ (D : Type) (I : Interp D) (ρ : Str → D) n ds, (∃ e, g'.eff = some e ∧ makes I (.del n ds) e ρ) → ∃ e, g.eff = some e ∧ makes I (.del n ds) e ρ
  num : ∀ (D : Type) (I : Interp D) (ρ : Str → D) op n ds v, (∃ e, g'.eff = some e ∧ makes I (.num op n ds v) e ρ) ↔ ∃ e, g.eff = some e ∧ makes I (.num op n ds v) e ρ

theorem relaxed_runs {ρ : Str → D} {gs gs' : List Action} (hR : List.Forall₂ Relaxes gs gs') (hg : ∀ g ∈ gs', Definite g) {I' J : Interp D}
    (h : Runs ρ gs I J) (hl : Larger I I') : ∃ J', Larger J J' ∧ Runs ρ gs' I' J' := by
  induction h generalizing I' gs' with
  | nil => cases hR; exact ⟨I', hl, .nil⟩
  | @cons g gs I J K ha _ ih =>
    cases hR with
    | @cons _ g' _ gs' hr hR =>
    have hd := hg g' (by simp)
    have hsame : ∀ c, (∃ e, g'.eff = some e ∧ makes I' c e ρ) ↔ ∃ e, g'.eff = some e ∧ makes I c e ρ := fun c =>
      exists_congr fun e => and_congr_right fun he => makes_same hl.const hl.fn (hd.2 e he) c ρ
    let J' : Interp D := ⟨J.const, J.ty, fun n ds => (∃ e, g'.eff = some e ∧ makes I (.add n ds) e ρ) ∨
      (I'.pred n ds ∧ ¬ ∃ e, g'.eff = some e ∧ makes I (.del n ds) e ρ), J.fn⟩
    have hJ : Larger J J' := by
      refine ⟨rfl, rfl, rfl, fun n ds hj => ?_⟩
      rcases (ha.2.pred n ds).1 hj with h | ⟨h, h'⟩
      · exact .inl (hr.add _ _ _ _ _ h)
      · exact .inr ⟨hl.pred n ds h, fun hd => h' (hr.del _ _ _ _ _ hd)⟩
    obtain ⟨K', hK, hr'⟩ := ih hR (fun g hg' => hg g (List.mem_cons_of_mem _ hg')) hJ
    refine ⟨K', hK, .cons (J := J') ⟨fun e he => holds_larger hl (hd.1 e he) (hr.pre _ _ _ ha.1 e he), ?_⟩ hr'⟩
    refine ⟨ha.2.const.trans hl.const.symm, ha.2.ty.trans hl.ty.symm, fun n ds => ?_, fun f ds hc => ?_, fun f ds op v hc hu => ?_⟩
    · rw [hsame, hsame]
    · rw [hl.fn]
      exact ha.2.same f ds (fun op v hc' => hc op v ((hsame _).2 ((hr.num _ _ _ _ _ _ _).2 hc')))
    · rw [hl.fn]
      exact ha.2.updated f ds op v ((hr.num _ _ _ _ _ _ _).1 ((hsame _).1 hc)) (fun op' v' hc' => hu op' v' ((hsame _).2 ((hr.num _ _ _ _ _ _ _).2 hc')))

/-- The action as written, with its parameters. -/
theorem action_env {F : FloatOf} {σ : PState} {text : Str} {d : Domain} {σ' : PState} {ts : List Tree} (hσ : ParserState F σ)
    (h : parseDomain F σ text = .ok (d, σ')) (hts : readText text = .ok [.node ts]) {a : Action} (ha : a ∈ d.actions) :
    ∃ (ps : List Tree) (pre eff : Tree) (E : GEnv) (p e : Expr), actionText a.name ps pre eff ∈ ts ∧ a.pre = some p ∧ a.eff = some e ∧
      ParserEnv E ∧ E.float = F ∧ E.typedVars = typedListVariable ∧ actionParameters ps = .ok E.params ∧
      a.params = E.params.map Prod.snd ∧ E.preGd pre = .ok p ∧ E.effOpt eff = .ok e := by
  obtain ⟨ts', hr, h⟩ := parseDomain_ok h
  rw [hts] at hr
  simp only [Except.ok.injEq, List.cons.injEq, Tree.node.injEq, and_true] at hr
  subst hr
  obtain ⟨P⟩ := domainDef_ok h
  rw [(mkDomain_actions P.hdomain).1] at ha
  have ha := dedupBy_subset ha
  obtain ⟨body, σ1, σ2, hb, hs, hd⟩ := (structures_from P.hstruct).2.1 a ha
  obtain ⟨n, ps, t, t', params, p, e, rfl, hpar, rfl, hpre, heff, hact⟩ := actionDef_ok hd
  have hbody := P.sub hb
  have hc : ConstsOk { σ1 with params := params } := by
    have h4 := constsOk_domain P hσ.constsOk
    unfold ConstsOk at *
    simp only
    rw [hs.2.1]
    exact h4
  unfold mkAction at hact
  obtain ⟨n', hn, hact'⟩ := bind_ok_iff.1 hact
  clear hact
  obtain ⟨rfl, _⟩ := parseName_ok.1 hn
  simp only [pure_ok, Except.ok.injEq] at hact'
  subst hact'
  exact ⟨ps, t, t', ({ σ1 with params := params } : PState).env F, p, e, hbody, rfl, rfl,
    params_env hc (actionParameters_vars hpar) F, rfl, rfl, hpar, rfl, hpre, heff⟩

theorem inst_parts {a g : Action} {args : List Term} {p e : Expr} (hp : a.pre = some p) (he : a.eff = some e) (h : a.inst args = .ok g) :
    g.pre = some (p.sub (Mapping.ofZip a.params args)) ∧ g.eff = some (e.sub (Mapping.ofZip a.params args)) := by
  unfold Action.inst at h
  split at h
  · simp at h
  · obtain ⟨pre', h1, hi⟩ := bind_ok_iff.1 h
    obtain ⟨eff', h2, hi⟩ := bind_ok_iff.1 hi
    obtain ⟨_, rfl⟩ := Rules.mkAction_ok.1 hi
    rw [hp] at h1
    rw [he] at h2
    simp only [instOpt] at h1 h2
    obtain ⟨p2, k1, h3⟩ := bind_ok_iff.1 h1
    obtain ⟨e2, k2, h4⟩ := bind_ok_iff.1 h2
    simp only [pure_ok, Except.ok.injEq] at h3 h4
    subst h3 h4
    exact ⟨by rw [inst_sub k1], by rw [inst_sub k2]⟩

variable {F : FloatOf} {σ σ₂ : PState} {text text' : Str} {d d' : Domain} {τ τ₂ : PState} {ts ts' : List Tree}

theorem action_relaxed (hσ : ParserState F σ) (h : parseDomain F σ text = .ok (d, τ)) (hts : readText text = .ok [.node ts])
    (hσ₂ : ParserState F σ₂) (h₂ : parseDomain F σ₂ text' = .ok (d', τ₂)) (hts' : readText text' = .ok [.node ts'])
    (H : Easier ts ts') {a a' g g' : Action} {args : List Term} (ha : a ∈ d.actions) (ha' : a' ∈ d'.actions) (hn : a'.name = a.name)
    (hg : a.inst args = .ok g) (hg' : a'.inst args = .ok g') : Relaxes g g' := by
  obtain ⟨ps, pre, eff, E, p, e, hin, hp, he, hE, hF, hv, hps, hpar, hpre, heff⟩ := action_env hσ h hts ha
  obtain ⟨ps', pre', eff', E', p', e', hin', hp', he', hE', hF', hv', hps', hpar', hpre', heff'⟩ := action_env hσ₂ h₂ hts' ha'
  rw [hn] at hin'
  obtain ⟨rfl, Hpre, Heff⟩ := H _ _ _ _ _ _ _ hin hin'
  have hpp : E.params = E'.params := by
    rw [hps] at hps'
    exact Except.ok.inj hps'
  have hfl := hF.trans hF'.symm
  have htv := hv.trans hv'.symm
  obtain ⟨k1, k2⟩ := inst_parts hp he hg
  obtain ⟨k1', k2'⟩ := inst_parts hp' he' hg'
  rw [hpar] at k1 k2
  rw [hpar', ← hpp] at k1' k2'
  -- what is in both effects makes the same changes
  have hboth : ∀ {t x x'} {D : Type} (I : Interp D) (c : Change D) ρ, E.effect false t = .ok x → E'.effect false t = .ok x' →
      (makes I c (x.sub (Mapping.ofZip (E.params.map Prod.snd) args)) ρ ↔ makes I c (x'.sub (Mapping.ofZip (E.params.map Prod.snd) args)) ρ) := by
    intro t x x' D I c ρ hx hx'
    exact makes_congr I c (sub_congr (effect_same hE hE' hpp hfl htv hx hx')) ρ
  have hread : ∀ t ∈ conjuncts eff, t ≠ .node [] → ∃ x, E.effect false t = .ok x := effOpt_reads heff
  have hread' : ∀ t ∈ conjuncts eff', t ≠ .node [] → ∃ x, E'.effect false t = .ok x := effOpt_reads heff'
  -- all changes but deletions
  have hfwd : ∀ {D : Type} (I : Interp D) (c : Change D) ρ, (∀ n ds, c ≠ .del n ds) →
      makes I c (e.sub (Mapping.ofZip (E.params.map Prod.snd) args)) ρ → makes I c (e'.sub (Mapping.ofZip (E.params.map Prod.snd) args)) ρ := by
    intro D I c ρ hc hm
    obtain ⟨t, ht, x, hx, hm⟩ := (eff_parts heff c ρ).1 hm
    rcases Heff.1 t ht with h | h | rfl
    · obtain ⟨x', hx'⟩ := hread' t h (by rintro rfl; exact effect_empty hx)
      exact (eff_parts heff' c ρ).2 ⟨t, h, x', hx', (hboth I c ρ hx hx').1 hm⟩
    · obtain ⟨n, ds, rfl⟩ := deletes_only hx h hm
      exact absurd rfl (hc n ds)
    · exact absurd hx effect_empty
  -- all changes but additions
  have hbwd : ∀ {D : Type} (I : Interp D) (c : Change D) ρ, (∀ n ds, c ≠ .add n ds) →
      makes I c (e'.sub (Mapping.ofZip (E.params.map Prod.snd) args)) ρ → makes I c (e.sub (Mapping.ofZip (E.params.map Prod.snd) args)) ρ := by
    intro D I c ρ hc hm
    obtain ⟨t, ht, x, hx, hm⟩ := (eff_parts heff' c ρ).1 hm
    rcases Heff.2 t ht with h | h | rfl
    · obtain ⟨x', hx'⟩ := hread t h (by rintro rfl; exact effect_empty hx)
      exact (eff_parts heff c ρ).2 ⟨t, h, x', hx', (hboth I c ρ hx' hx).2 hm⟩
    · obtain ⟨n, ds, rfl⟩ := adds_only hx h hm
      exact absurd rfl (hc n ds)
    · exact absurd hx effect_empty
  refine ⟨?_, ?_, ?_, ?_⟩
  · intro D I ρ hh x hx
    rw [k1'] at hx
    cases hx
    have hh := (pre_parts hpre ρ).1 (hh _ k1)
    refine (pre_parts hpre' ρ).2 (fun u hu => ?_)
    obtain ⟨x, hx, hh⟩ := hh u (Hpre u hu)
    obtain ⟨x', hx'⟩ := preGd_reads hpre' u hu (by rintro rfl; simp [GEnv.gd] at hx)
    exact ⟨x', hx', (holds_congr_norm I (sub_congr (gd_same hE hE' hpp hfl htv hx hx')) ρ).1 hh⟩
  · rintro D I ρ n ds ⟨x, hx, hm⟩
    rw [k2] at hx
    cases hx
    exact ⟨_, k2', hfwd I _ ρ (by simp) hm⟩
  · rintro D I ρ n ds ⟨x, hx, hm⟩
    rw [k2'] at hx
    cases hx
    exact ⟨_, k2, hbwd I _ ρ (by simp) hm⟩
  · intro D I ρ op n ds v
    constructor
    · rintro ⟨x, hx, hm⟩
      rw [k2'] at hx
      cases hx
      exact ⟨_, k2, hbwd I _ ρ (by simp) hm⟩
    · rintro ⟨x, hx, hm⟩
      rw [k2] at hx
      cases hx
      exact ⟨_, k2', hfwd I _ ρ (by simp) hm⟩

theorem plan_relaxed (hσ : ParserState F σ) (h : parseDomain F σ text = .ok (d, τ)) (hts : readText text = .ok [.node ts])
    (hσ₂ : ParserState F σ₂) (h₂ : parseDomain F σ₂ text' = .ok (d', τ₂)) (hts' : readText text' = .ok [.node ts'])
    (H : Easier ts ts') {plan : Plan} {gs gs' : List Action} (hg : plan.inst d = .ok gs) (hg' : plan.inst d' = .ok gs') :
    List.Forall₂ Relaxes gs gs' := by
  have k := instSteps_ok.1 hg
  have k' := instSteps_ok.1 hg'
  clear hg hg'
  revert k k'
  generalize plan.steps = l
  intro k k'
  induction k generalizing gs' with
  | nil => cases k'; exact .nil
  | cons h1 _ ih =>
    cases k' with
    | cons h1' k' =>
      obtain ⟨a, ha, hi⟩ := h1
      obtain ⟨a', ha', hi'⟩ := h1'
      have m1 := lastNamed_mem ha
      have m2 := lastNamed_mem ha'
      exact .cons (action_relaxed hσ h hts hσ₂ h₂ hts' H m1.1 m2.1 (m2.2.trans m1.2.symm) hi hi') (ih k')

end Pddl
