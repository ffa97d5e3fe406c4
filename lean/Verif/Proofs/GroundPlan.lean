/-
Ground actions of plans do what the actions of the plans do.
-/
import Verif.Spec.GroundPlan
import Verif.Spec.SaidDerived
import Verif.Proofs.GroundSem
import Verif.Proofs.SaidTask
import Verif.Props.Instantiate

namespace Pddl
open Spec

/-- Instances of effects make the changes with the mapped variables replaced, also with arithmetic. -/
theorem inst_makes_all {m : Mapping} {D : Type} {I : Interp D} {c : Change D} {a b : Expr} (hsh : Definite a) (hw : WellSorted a)
    (hc : NoCollision m a) (hg : a.Good) (h : a.inst m = .ok b) (hs : Safe m a []) {ρ ρ' : Str → D} (ha : AgreeB I m [] ρ ρ') :
    makes I c b ρ ↔ makes I c a ρ' := by
  induction hsh generalizing b with
  | pred p =>
    obtain ⟨_, _, rfl⟩ := inst_pred_ok.mp h
    simp only [makes, denote_substs ha hs]
  | eq l r =>
    obtain ⟨_, rfl⟩ := inst_eq_ok.mp h
    simp [makes]
  | not p =>
    obtain ⟨b, h1, rfl⟩ := inst_not_ok.mp h
    obtain ⟨_, _, rfl⟩ := inst_pred_ok.mp h1
    have : ∀ t ∈ p.terms, SafeTerm m [] t := hs
    simp only [makes, deletes, denote_substs ha this]
  | notEq l r =>
    obtain ⟨b, h1, rfl⟩ := inst_not_ok.mp h
    obtain ⟨_, rfl⟩ := inst_eq_ok.mp h1
    simp [makes, deletes]
  | update o as =>
    obtain ⟨bs, h2, rfl⟩ := inst_bfun_ok.mp h
    rw [construct_fop_inst hg.1 hw.1 h2 (fun hm => hc.2 hm bs (insts_ok.mpr h2))]
    simp only [makes]
    have hs' := safeAll_iff.mp hs
    have hc' := noCollisions_iff.1 hc.1
    have hw' := wellSorteds_iff.1 hw.2
    have hg' := goods_iff.mp hg.2
    have hn := hw.1
    match as, bs, h2 with
    | [], _, .nil => simp [updated]
    | [x], [y], .cons h1 .nil => simp [updated]
    | [x, z], [y, w], .cons h1 (.cons h3 .nil) =>
      have hv := inst_value ha (hn z (by simp)) (hs' z (by simp)) (hc' z (by simp)) (hw' z (by simp)) (hg' z (by simp)) h3
      cases x with
      | nfun f =>
        obtain ⟨_, rfl⟩ := inst_nfun_ok.mp h1
        simp only [updated, hv, denote_substs ha (hs' (.nfun f) (by simp))]
      | num n => have := inst_num_ok.mp h1; subst this; simp [updated]
      | bfun o' as' =>
        obtain ⟨bs', h2', rfl⟩ := inst_bfun_ok.mp h1
        rw [construct_fop_inst (hg' (.bfun o' as') (by simp)).1 (hw' (.bfun o' as') (by simp)).1 h2'
          (fun hm => (hc' (.bfun o' as') (by simp)).2 hm bs' (insts_ok.mpr h2'))]
        simp [updated]
      | _ => exact (hn _ List.mem_cons_self).elim
    | _ :: _ :: _ :: _, _ :: _ :: _ :: _, .cons _ (.cons _ (.cons _ _)) => simp [updated]
  | @and as _ ih =>
    obtain ⟨bs, h2, rfl⟩ := inst_bin_ok.mp h
    have hs' := safeAll_iff.mp hs
    have hw' := wellSorteds_iff.1 hw
    have hc' := noCollisions_iff.1 hc
    have hg' := goods_iff.mp hg.2
    rw [show construct (.bop .and) bs = mkAnd bs from rfl, makes_mkAnd, makes, makesSome_iff]
    constructor
    · rintro ⟨b, hb, hm⟩
      obtain ⟨a, haa, e⟩ := forall2_mem h2 b hb
      exact ⟨a, haa, (ih a haa (hw' a haa) (hc' a haa) (hg' a haa) e (hs' a haa)).1 hm⟩
    · rintro ⟨a, haa, hm⟩
      obtain ⟨b, hb, e⟩ := forall2_mem' h2 a haa
      exact ⟨b, hb, (ih a haa (hw' a haa) (hc' a haa) (hg' a haa) e (hs' a haa)).2 hm⟩

/-- With different parameters the mapping is the list of pairs. -/
theorem ofZip_different {vs : List Var} (hn : (vs.map Var.name).Nodup) (args : List Term) :
    Mapping.ofZip (vs.map Term.var) args = (vs.map Term.var).zip args := by
  have : ∀ (vs : List Var) (args : List Term) (m : Mapping), (vs.map Var.name).Nodup →
      (∀ p ∈ m, ∀ v ∈ vs, p.1.name ≠ v.name) →
      ((vs.map Term.var).zip args).foldl (fun m p => m.set p.1 p.2) m = m ++ (vs.map Term.var).zip args := by
    intro vs
    induction vs with
    | nil => intro args m _ _; simp
    | cons v vs ih =>
      intro args m hn hm
      cases args with
      | nil => simp
      | cons x args =>
        rw [List.map_cons, List.nodup_cons] at hn
        have hset : m.set (.var v) x = m ++ [(.var v, x)] := by
          unfold Mapping.set
          rw [if_neg]
          simp only [List.any_eq_true, not_exists, not_and]
          intro p hp he
          refine hm p hp v List.mem_cons_self ?_
          cases hq : p.1 with
          | const n t => rw [hq] at he; simp [Term.pyEq] at he
          | var w => rw [hq] at he; simp only [Term.pyEq, Var.pyEq, Bool.and_eq_true, decide_eq_true_eq] at he; exact he.1.symm
        simp only [List.map_cons, List.zip_cons_cons, List.foldl_cons]
        rw [hset, ih args _ hn.2, List.append_assoc, List.singleton_append]
        intro p hp w hw
        rcases List.mem_append.1 hp with hp | hp
        · exact hm p hp w (List.mem_cons_of_mem _ hw)
        · rw [List.mem_singleton.1 hp]
          exact fun e => hn.1 (List.mem_map.2 ⟨w, hw, e.symm⟩)
  unfold Mapping.ofZip
  simpa using this vs args [] hn (by simp)

/-- Binding the parameters is agreeing with the mapping. -/
theorem binds_agree {D : Type} {I : Interp D} {vs : List Var} {args : List Term} {ρ ρ' : Str → D} (hl : args.length = vs.length)
    (h : Binds I (vs.map Term.var) args ρ ρ') : AgreeB I ((vs.map Term.var).zip args) [] ρ ρ' := by
  refine ⟨by simp, ?_, ?_⟩
  · intro v t _ hg
    unfold Mapping.get at hg
    split at hg
    · rename_i p hp
      cases hg
      have hm := List.mem_of_find?_eq_some hp
      have he := List.find?_some hp
      have := h.param p hm
      obtain ⟨w, _, hw⟩ := List.mem_map.1 (List.of_mem_zip hm).1
      rw [← hw] at he this
      simp only [Term.pyEq, Var.pyEq, Bool.and_eq_true, decide_eq_true_eq] at he
      rw [he.1]; exact this
    · cases hg
  · intro n _ hn
    refine h.other n ?_
    intro t ht e
    obtain ⟨v, hv, rfl⟩ := List.mem_map.1 ht
    obtain ⟨i, hi, rfl⟩ := List.getElem_of_mem hv
    refine hn ⟨vs[i], args[i]'(by omega), ?_, e⟩
    exact List.mem_iff_getElem.2 ⟨i, by simp; omega, by simp⟩

/-- There are values for different parameters. -/
theorem binds_some {D : Type} (I : Interp D) (params args : List Term) (hn : (params.map Term.name).Nodup) (ρ : Str → D) :
    ∃ ρ', Binds I params args ρ ρ' := by
  induction params generalizing args with
  | nil => exact ⟨ρ, by simp, fun _ _ => rfl⟩
  | cons p ps ih =>
    rw [List.map_cons, List.nodup_cons] at hn
    cases args with
    | nil => exact ⟨ρ, by simp, fun _ _ => rfl⟩
    | cons x args =>
      obtain ⟨ρ1, h1, h2⟩ := ih args hn.2
      refine ⟨fun n => if n = p.name then denote I ρ x else ρ1 n, ?_, ?_⟩
      · intro q hq
        rw [List.zip_cons_cons, List.mem_cons] at hq
        rcases hq with rfl | hq
        · simp
        · have : q.1.name ≠ p.name := fun e => hn.1 (List.mem_map.2 ⟨q.1, (List.of_mem_zip hq).1, e⟩)
          simp only [this, if_false]
          exact h1 q hq
      · intro n hn'
        have : n ≠ p.name := fun e => hn' p List.mem_cons_self e.symm
        simp only [this, if_false]
        exact h2 n (fun t ht => hn' t (List.mem_cons_of_mem _ ht))

/-- One ground action, with conditions evaluated in `I'`. -/
theorem inst_actsAt {D : Type} {a g : Action} {args : List Term} (hb : BuiltAction a) (hs : SafeStep a args) (hg : a.inst args = .ok g)
    {I' I J : Interp D} {ρ : Str → D} : ActsAt ρ g I' I J ↔ ∃ ρ', args.length = a.params.length ∧ Binds I' a.params args ρ ρ' ∧
      (∀ e, a.pre = some e → holds I' e ρ') ∧ Next (fun c => ∃ e, a.eff = some e ∧ makes I' c e ρ') I J := by
  obtain ⟨vs, hvs, hnd⟩ := hs.params
  obtain ⟨n, hn⟩ := hb.name
  obtain ⟨h1, h2, h3, h4, h5⟩ := (Props.C15_result a g args (by obtain ⟨e, hv⟩ := parseName_ok.1 hn; rw [e]; exact parseName_of_valid hv)).1 hg
  have hmap : Mapping.ofZip a.params args = a.params.zip args := by rw [hvs]; exact ofZip_different hnd args
  rw [hmap] at h4 h5
  have hlen : args.length = vs.length := by rw [h1, hvs, List.length_map]
  have hconst : ToConstants (a.params.zip args) := fun p hp => hs.consts p.2 (List.of_mem_zip hp).2
  have key : ∀ ρ', Binds I' a.params args ρ ρ' → (((∀ e, g.pre = some e → holds I' e ρ) ↔ ∀ e, a.pre = some e → holds I' e ρ') ∧
      ∀ c, (∃ e, g.eff = some e ∧ makes I' c e ρ) ↔ ∃ e, a.eff = some e ∧ makes I' c e ρ') := by
    intro ρ' hbd
    have hag : AgreeB I' (a.params.zip args) [] ρ ρ' := by rw [hvs] at hbd ⊢; exact binds_agree hlen hbd
    constructor
    · cases hp : a.pre with
      | none =>
        rw [hp] at h4
        cases hq : g.pre with
        | none => simp
        | some e => rw [hq] at h4; exact h4.elim
      | some e =>
        rw [hp] at h4
        have hbe := hb.pre
        rw [hp] at hbe
        cases hq : g.pre with
        | none => rw [hq] at h4; exact h4.elim
        | some e' =>
          rw [hq] at h4
          have hi := hs.pre e hp
          simp only [Option.some.injEq, forall_eq']
          exact inst_holds hconst hi.sorted hbe.good hi.distinct h4 hi.safe hag
    · intro c
      cases hp : a.eff with
      | none =>
        rw [hp] at h5
        cases hq : g.eff with
        | none => simp
        | some e => rw [hq] at h5; exact h5.elim
      | some e =>
        rw [hp] at h5
        have hbe := hb.eff
        rw [hp] at hbe
        cases hq : g.eff with
        | none => rw [hq] at h5; exact h5.elim
        | some e' =>
          rw [hq] at h5
          obtain ⟨hi, hd⟩ := hs.eff e hp
          simp only [Option.some.injEq, exists_eq_left']
          exact inst_makes_all hd hi.sorted hi.distinct hbe.good h5 hi.safe hag
  constructor
  · rintro ⟨hp, hnx⟩
    obtain ⟨ρ', hbd⟩ := binds_some I' a.params args (by rw [hvs, List.map_map]; exact hnd) ρ
    exact ⟨ρ', h1, hbd, (key ρ' hbd).1.1 hp, hnx.congr (key ρ' hbd).2⟩
  · rintro ⟨ρ', _, hbd, hp, hnx⟩
    exact ⟨(key ρ' hbd).1.2 hp, hnx.congr (fun c => ((key ρ' hbd).2 c).symm)⟩

/-- One ground action. -/
theorem inst_acts {D : Type} {a g : Action} {args : List Term} (hb : BuiltAction a) (hs : SafeStep a args) (hg : a.inst args = .ok g)
    {I J : Interp D} {ρ : Str → D} : Acts ρ g I J ↔ ∃ ρ', args.length = a.params.length ∧ Binds I a.params args ρ ρ' ∧
      (∀ e, a.pre = some e → holds I e ρ') ∧ Next (fun c => ∃ e, a.eff = some e ∧ makes I c e ρ') I J :=
  inst_actsAt hb hs hg (I' := I)

/-- Ground actions one after the other. -/
theorem inst_runs {D : Type} {d : Domain} {steps : List (Str × List Term)} {gs : List Action} (hb : ∀ a ∈ d.actions, BuiltAction a)
    (ho : OneActionEach d) (hs : ∀ st ∈ steps, ∀ a ∈ d.actions, a.name = st.1 → SafeStep a st.2)
    (hg : List.Forall₂ (fun s g => ∃ a, lastNamed s.1 d.actions = some a ∧ a.inst s.2 = .ok g) steps gs)
    {I J : Interp D} {ρ : Str → D} : Runs ρ gs I J ↔ StepByStep (Performs d ρ) steps I J := by
  have key : ∀ st ∈ steps, ∀ g, (∃ a, lastNamed st.1 d.actions = some a ∧ a.inst st.2 = .ok g) → ∀ I J : Interp D,
      Acts ρ g I J ↔ Performs d ρ st I J := by
    rintro st hst g ⟨a, ha, hg⟩ I J
    obtain ⟨hm, hn⟩ := lastNamed_mem ha
    rw [inst_acts (hb a hm) (hs st hst a hm hn) hg]
    constructor
    · rintro ⟨ρ', h1, h2, h3, h4⟩
      exact ⟨a, hm, ρ', hn, h1, h2, h3, h4⟩
    · rintro ⟨b, hb', ρ', hn', h1, h2, h3, h4⟩
      have := ho b hb' a hm (hn'.trans hn.symm)
      subst this
      exact ⟨ρ', h1, h2, h3, h4⟩
  clear hs
  induction hg generalizing I with
  | nil =>
    constructor
    · rintro ⟨⟩; exact .nil
    · rintro ⟨⟩; exact .nil
  | cons h _ ih =>
    have ih := fun {I} => @ih I (fun st hst => key st (List.mem_cons_of_mem _ hst))
    constructor
    · intro hr
      cases hr with
      | cons h1 h2 => exact .cons ((key _ List.mem_cons_self _ h _ _).1 h1) (ih.1 h2)
    · intro hr
      cases hr with
      | cons h1 h2 => exact .cons ((key _ List.mem_cons_self _ h _ _).2 h1) (ih.2 h2)

/-- Ground actions one after the other, with derived predicates. -/
theorem inst_runsBy {D : Type} {d : Domain} {steps : List (Str × List Term)} {gs : List Action} (hb : ∀ a ∈ d.actions, BuiltAction a)
    (ho : OneActionEach d) (hs : ∀ st ∈ steps, ∀ a ∈ d.actions, a.name = st.1 → SafeStep a st.2)
    (hg : List.Forall₂ (fun s g => ∃ a, lastNamed s.1 d.actions = some a ∧ a.inst s.2 = .ok g) steps gs)
    {E : Interp D → Interp D → Prop} {I J : Interp D} {ρ : Str → D} :
    RunsBy E ρ gs I J ↔ StepByStep (fun st I J => ∃ I', E I I' ∧ PerformsAt d ρ st I' I J) steps I J := by
  have key : ∀ st ∈ steps, ∀ g, (∃ a, lastNamed st.1 d.actions = some a ∧ a.inst st.2 = .ok g) → ∀ I' I J : Interp D,
      ActsAt ρ g I' I J ↔ PerformsAt d ρ st I' I J := by
    rintro st hst g ⟨a, ha, hg⟩ I' I J
    obtain ⟨hm, hn⟩ := lastNamed_mem ha
    rw [inst_actsAt (hb a hm) (hs st hst a hm hn) hg]
    constructor
    · rintro ⟨ρ', h1, h2, h3, h4⟩
      exact ⟨a, hm, ρ', hn, h1, h2, h3, h4⟩
    · rintro ⟨b, hb', ρ', hn', h1, h2, h3, h4⟩
      have := ho b hb' a hm (hn'.trans hn.symm)
      subst this
      exact ⟨ρ', h1, h2, h3, h4⟩
  clear hs
  induction hg generalizing I with
  | nil =>
    constructor
    · rintro ⟨⟩; exact .nil
    · rintro ⟨⟩; exact .nil
  | cons h _ ih =>
    have ih := fun {I} => @ih I (fun st hst => key st (List.mem_cons_of_mem _ hst))
    constructor
    · intro hr
      cases hr with
      | cons h0 h1 h2 => exact .cons ⟨_, h0, (key _ List.mem_cons_self _ h _ _ _).1 h1⟩ (ih.1 h2)
    · intro hr
      cases hr with
      | cons h1 h2 =>
        obtain ⟨_, h0, h1⟩ := h1
        exact .cons h0 ((key _ List.mem_cons_self _ h _ _ _).2 h1) (ih.2 h2)

/-- What ground actions do one after the other is done by actions of the domain, also if there are more of the same name. -/
theorem inst_runs_imp {D : Type} {d : Domain} {steps : List (Str × List Term)} {gs : List Action} (hb : ∀ a ∈ d.actions, BuiltAction a)
    (hs : ∀ st ∈ steps, ∀ a ∈ d.actions, a.name = st.1 → SafeStep a st.2)
    (hg : List.Forall₂ (fun s g => ∃ a, lastNamed s.1 d.actions = some a ∧ a.inst s.2 = .ok g) steps gs)
    {E : Interp D → Interp D → Prop} {I J : Interp D} {ρ : Str → D} (hr : RunsBy E ρ gs I J) :
    StepByStep (fun st I J => ∃ I', E I I' ∧ PerformsAt d ρ st I' I J) steps I J := by
  induction hg generalizing I with
  | nil => cases hr; exact .nil
  | cons h _ ih =>
    cases hr with
    | cons h0 h1 h2 =>
      obtain ⟨a, ha, hg⟩ := h
      obtain ⟨hm, hn⟩ := lastNamed_mem ha
      obtain ⟨ρ', k1, k2, k3, k4⟩ := (inst_actsAt (hb a hm) (hs _ List.mem_cons_self a hm hn) hg).1 h1
      exact .cons ⟨_, h0, a, hm, ρ', hn, k1, k2, k3, k4⟩ (ih (fun st hst => hs st (List.mem_cons_of_mem _ hst)) h2)

/-- The actions of a domain come from the constructor. -/
theorem Spec.BuiltDomain.actions {d : Domain} (h : BuiltDomain d) : ∀ a ∈ d.actions, BuiltAction a := by
  obtain ⟨x, hx, hmk⟩ := h
  obtain ⟨_, _, _, _, _, _, _, _, rfl⟩ := (mkDomain_ok hx.types).1 hmk
  exact fun a ha => hx.actions a (dedupBy_subset ha)

end Pddl
