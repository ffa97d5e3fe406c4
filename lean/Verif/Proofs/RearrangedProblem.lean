/-
Reading a problem text with its declarations in another order.
-/
import Verif.Spec.RearrangedProblem
import Verif.Proofs.RearrangedDomain
import Verif.Proofs.WrittenProblem
import Verif.Props.ProblemArgs
import Verif.Props.Args

namespace Pddl
open Spec Spec.Grammar

/-- A problem is read section by section. -/
theorem problemDef_sections {F : FloatOf} {σ : List (Str × Term)} {ts : List Tree} {s : ProblemSections} (hs : s.Of (.node ts)) :
    problemDef F σ ts = (do
      let reqs ← optSection s.reqs none problemRequirements
      let (objs, σ) ← optSection s.objects ([], σ) problemObjects
      let init ← s.init.mapM (initEl F σ)
      let goal ← (goalEnv F).gd s.goal
      let metric ← problemMetric (optText s%"metric" s.metric)
      let p ← mkProblem { name := s.name, domain := none, domainName := some s.domain, reqs := reqs,
                          objects := objs, init := init, goal := some goal, metric := metric }
      pure (p, σ)) := by
  obtain ⟨h, hh, e⟩ := hs
  simp only [Tree.node.injEq] at e
  subst e
  have e1 : problemDomain (section_ s%"domain" [word s.domain] ::
      (optText s%"requirements" s.reqs ++ optText s%"objects" s.objects ++
        section_ s%"init" s.init :: section_ s%"goal" [s.goal] :: optText s%"metric" s.metric)) =
      .ok (s.domain, optText s%"requirements" s.reqs ++ (optText s%"objects" s.objects ++
        section_ s%"init" s.init :: section_ s%"goal" [s.goal] :: optText s%"metric" s.metric)) := by
    rw [List.append_assoc]; rfl
  have e2 : takeSection s%"requirements" (optText s%"requirements" s.reqs ++ (optText s%"objects" s.objects ++
        section_ s%"init" s.init :: section_ s%"goal" [s.goal] :: optText s%"metric" s.metric)) =
      (s.reqs, optText s%"objects" s.objects ++
        section_ s%"init" s.init :: section_ s%"goal" [s.goal] :: optText s%"metric" s.metric) := by
    refine Props.takeSection_rest ?_
    intro b hb
    simp only [List.mem_append, List.mem_cons] at hb
    rcases hb with hb | hb | hb | hb
    · exact notin_optText (by decide) b hb
    · simp [section_] at hb
    · simp [section_] at hb
    · exact notin_optText (by decide) b hb
  have e3 : takeSection s%"objects" (optText s%"objects" s.objects ++
        section_ s%"init" s.init :: section_ s%"goal" [s.goal] :: optText s%"metric" s.metric) =
      (s.objects, section_ s%"init" s.init :: section_ s%"goal" [s.goal] :: optText s%"metric" s.metric) := by
    refine Props.takeSection_rest ?_
    intro b hb
    simp only [List.mem_cons] at hb
    rcases hb with hb | hb | hb
    · simp [section_] at hb
    · simp [section_] at hb
    · exact notin_optText (by decide) b hb
  have e4 : ∀ τ, problemInit F τ (section_ s%"init" s.init :: section_ s%"goal" [s.goal] :: optText s%"metric" s.metric) =
      (do let es ← s.init.mapM (initEl F τ); pure (es, section_ s%"goal" [s.goal] :: optText s%"metric" s.metric)) := by
    intro τ; rfl
  have e5 : problemGoal F (section_ s%"goal" [s.goal] :: optText s%"metric" s.metric) =
      (do let e ← (goalEnv F).gd s.goal; pure (e, optText s%"metric" s.metric)) := rfl
  unfold problemDef
  simp only [header_of hh, ok_bind, e1, e2, e3, e4, e5, bind_assoc, pure_bind]

theorem initTerm_congr {σ τ : List (Str × Term)} (h : SameObjects σ τ) : initTerm σ = initTerm τ := by
  funext n
  have : dictGet σ n = dictGet τ n := h n
  unfold initTerm
  rw [this]

theorem atomicName_congr {σ τ : List (Str × Term)} (h : SameObjects σ τ) (l : List Tree) : atomicName σ l = atomicName τ l := by
  unfold atomicName
  rw [initTerm_congr h]

theorem initEl_congr {F : FloatOf} {σ τ : List (Str × Term)} (h : SameObjects σ τ) : initEl F σ = initEl F τ := by
  funext t
  unfold initEl
  simp only [atomicName_congr h]

/-- The same trees in another order, or repeated, give the same results. -/
theorem mapM_members {α β ε} {f : α → Except ε β} {l l' : List α} {r : List β} (h : ∀ x, x ∈ l ↔ x ∈ l') (hr : l.mapM f = .ok r) :
    ∃ r', l'.mapM f = .ok r' ∧ ∀ y, y ∈ r ↔ y ∈ r' := by
  have H : ∀ m : List α, (∀ x ∈ m, x ∈ l) → ∃ r', m.mapM f = .ok r' := by
    intro m hm
    induction m with
    | nil => exact ⟨[], rfl⟩
    | cons x m ih =>
      obtain ⟨r', hr'⟩ := ih (fun y hy => hm y (List.mem_cons_of_mem _ hy))
      obtain ⟨y, _, hy⟩ := mapM_ok_mem hr (hm x (by simp))
      exact ⟨y :: r', by rw [List.mapM_cons, hy, ok_bind, hr', ok_bind]; rfl⟩
  obtain ⟨r', hr'⟩ := H l' (fun x hx => (h x).2 hx)
  refine ⟨r', hr', ?_⟩
  have key : ∀ {a b : List α} {u v : List β}, (∀ x ∈ a, x ∈ b) → a.mapM f = .ok u → b.mapM f = .ok v → ∀ y ∈ u, y ∈ v := by
    intro a b u v hab ha hb y hy
    have ha := mapM_ok_iff.1 ha
    obtain ⟨x, hx, hxy⟩ := forall₂_right ha y hy
    obtain ⟨z, hz, hxz⟩ := mapM_ok_mem hb (hab x hx)
    rw [hxy] at hxz
    cases hxz
    exact hz
  exact fun y => ⟨key (fun x hx => (h x).1 hx) hr hr' y, key (fun x hx => (h x).2 hx) hr' hr y⟩

theorem requirements_members {b b' : List Tree} {rs : List Req} (h : ∀ t, t ∈ b ↔ t ∈ b') (hr : parseRequirements b = .ok rs) :
    ∃ rs', parseRequirements b' = .ok rs' ∧ ∀ r, r ∈ rs ↔ r ∈ rs' := by
  obtain ⟨hb1, hb2⟩ := requirements_grammar hr
  have hb' : Requirements b' := by
    refine ⟨?_, fun t ht => hb2 t ((h t).2 ht)⟩
    obtain ⟨x, hx⟩ := List.exists_mem_of_ne_nil _ hb1
    exact List.ne_nil_of_mem ((h x).1 hx)
  obtain ⟨rs', hrs'⟩ := parseRequirements_of hb'
  refine ⟨rs', hrs', ?_⟩
  intro r
  rw [parseRequirements_written hr r, parseRequirements_written hrs' r, h]

theorem problemObjects_rearranged {b b' : List Tree} {objs : List Term} {σ : List (Str × Term)}
    (hw : ∀ w, .atom (.name w) ∈ b → nameRegex w = true) (hw' : ∀ w, .atom (.name w) ∈ b' → nameRegex w = true)
    (hs : SameConstantsText b b') (h : problemObjects b = .ok (objs, σ)) :
    ∃ objs' σ', problemObjects b' = .ok (objs', σ') ∧ objs.Perm objs' ∧ SameObjects σ σ' := by
  have hd : sectionConstants .fresh b = .ok (objs, { PState.fresh with consts := σ }) := by
    unfold problemObjects at h
    unfold sectionConstants
    obtain ⟨d, h1, h⟩ := bind_ok_iff.1 h
    obtain ⟨cs, h2, h⟩ := bind_ok_iff.1 h
    simp only [pure_ok, Except.ok.injEq, Prod.mk.injEq] at h
    obtain ⟨rfl, rfl⟩ := h
    rw [h1, ok_bind, h2, ok_bind]
    rfl
  obtain ⟨D, D', e1, e2, hp, hn, h'⟩ := sectionConstants_rearranged (τ := .fresh) hw hw' hs hd
  have e1 : σ = D := congrArg PState.consts e1
  subst e1 e2
  refine ⟨D'.map Prod.snd, D', ?_, hp.map _, fun n => dictGet_perm hp hn n⟩
  unfold sectionConstants at h'
  unfold problemObjects
  obtain ⟨d, h1, h⟩ := bind_ok_iff.1 h'
  obtain ⟨cs, h2, h⟩ := bind_ok_iff.1 h
  simp only [pure_ok, Except.ok.injEq, Prod.mk.injEq] at h
  have e : dictOf cs = D' := congrArg PState.consts h.2
  rw [h1, ok_bind, h2, ok_bind]
  simp only [e, pure_ok]

/-- The arguments of `Problem(...)`, from the sections. -/
theorem problemDef_rearranged {F : FloatOf} {σ : List (Str × Term)} {ts ts' : List Tree} {s s' : ProblemSections}
    (hw : ∀ w, Inside (.atom (.name w)) (.node ts) → nameRegex w = true)
    (hw' : ∀ w, Inside (.atom (.name w)) (.node ts') → nameRegex w = true)
    (hs : s.Of (.node ts)) (hs' : s'.Of (.node ts')) (hr : RearrangedProblem s s') {p : Problem} {σ1 : List (Str × Term)}
    (h : problemDef F σ ts = .ok (p, σ1)) :
    ∃ p' σ2, problemDef F σ ts' = .ok (p', σ2) ∧ p.pyEq p' = true ∧ SameObjects σ1 σ2 := by
  rw [problemDef_sections hs] at h
  rw [problemDef_sections hs']
  obtain ⟨reqs, h1, h⟩ := bind_ok_iff.1 h
  obtain ⟨⟨objs, σo⟩, h2, h⟩ := bind_ok_iff.1 h
  obtain ⟨init, h3, h⟩ := bind_ok_iff.1 h
  obtain ⟨goal, h4, h⟩ := bind_ok_iff.1 h
  obtain ⟨metric, h5, h⟩ := bind_ok_iff.1 h
  obtain ⟨q, h6, h⟩ := bind_ok_iff.1 h
  simp only [pure_ok, Except.ok.injEq, Prod.mk.injEq] at h
  obtain ⟨rfl, rfl⟩ := h
  have g1 : ∃ reqs', optSection s'.reqs none problemRequirements = .ok reqs' ∧
      SameOpt (fun x y : List Req => ∀ r, r ∈ x ↔ r ∈ y) reqs reqs' := by
    have := hr.reqs
    cases ha : s.reqs <;> cases hb : s'.reqs <;> rw [ha, hb] at this <;> rw [ha] at h1
    · simp only [optSection, pure_ok, Except.ok.injEq] at h1
      exact ⟨none, rfl, by rw [← h1]; trivial⟩
    · exact this.elim
    · exact this.elim
    · simp only [optSection, problemRequirements] at h1 ⊢
      obtain ⟨rs, h7, h8⟩ := bind_ok_iff.1 h1
      obtain ⟨rs', h9, h10⟩ := requirements_members this h7
      simp only [pure_ok, Except.ok.injEq] at h8
      exact ⟨some rs', by rw [h9]; rfl, by rw [← h8]; exact h10⟩
  obtain ⟨reqs', g1, k1⟩ := g1
  have g2 : ∃ objs' σo', optSection s'.objects ([], σ) problemObjects = .ok (objs', σo') ∧ objs.Perm objs' ∧ SameObjects σo σo' := by
    have := hr.objects
    have hin : ∀ {ts : List Tree} {s : ProblemSections} {b : List Tree}, (∀ w, Inside (.atom (.name w)) (.node ts) → nameRegex w = true) →
        s.Of (.node ts) → s.objects = some b → ∀ w, .atom (.name w) ∈ b → nameRegex w = true := by
      intro ts s b hw hs hb w hm
      obtain ⟨h, _, e⟩ := hs
      simp only [Tree.node.injEq] at e
      refine hw w ?_
      rw [e, hb]
      exact .node (t := section_ s%"objects" b) (by simp [optText]) (.node (by exact List.mem_cons_of_mem _ hm) .refl)
    cases ha : s.objects <;> cases hb : s'.objects <;> rw [ha, hb] at this <;> rw [ha] at h2
    · simp only [optSection, pure_ok, Except.ok.injEq, Prod.mk.injEq] at h2
      obtain ⟨rfl, rfl⟩ := h2
      exact ⟨_, _, rfl, .refl _, fun _ => rfl⟩
    · exact this.elim
    · exact this.elim
    · exact problemObjects_rearranged (hin hw hs ha) (hin hw' hs' hb) this h2
  obtain ⟨objs', σo', g2, k2, k3⟩ := g2
  obtain ⟨init', g3, k4⟩ := mapM_members hr.init h3
  rw [initEl_congr k3] at g3
  rw [hr.goal] at h4
  rw [hr.metric] at h5
  have hnd : ∀ (rs : Option (List Req)) os is,
      ∀ d, (⟨s.name, none, some s.domain, rs, os, is, some goal, metric⟩ : ProblemArgs).domain = some d → ExistsDomain d := by
    intro _ _ _ d hd; cases hd
  have hok := ((Props.mkProblem_ok (hnd _ _ _)).1 h6).1
  have hok' : ProblemArgsOk ⟨s.name, none, some s.domain, reqs', objs', init', some goal, metric⟩ :=
    ⟨hok.name, hok.domain, hok.domainName, (fun _ _ h => nomatch h), (fun _ _ h => nomatch h),
      fun e he => hok.init e ((k4 e).2 he), (fun _ h => nomatch h)⟩
  have h7 := (Props.mkProblem_ok (hnd _ _ _)).2 ⟨hok', rfl⟩
  refine ⟨Props.problemOf ⟨s.name, none, some s.domain, reqs', objs', init', some goal, metric⟩, σo', ?_, ?_, k3⟩
  rotate_left
  · refine Props.C70_problem_result _ _ (hnd _ _ _) (hnd _ _ _) ?_ _ _ h6 h7
    refine ⟨rfl, trivial, rfl, k1, sameSet_perm eqv_term k2, ?_, Expr.pyEq_refl _, ?_⟩
    · exact ⟨fun x hx => ⟨x, (k4 x).1 hx, Expr.pyEq_refl _⟩, fun x hx => ⟨x, (k4 x).2 hx, Expr.pyEq_refl _⟩⟩
    · cases metric with
      | none => trivial
      | some m => exact eqv_metric.refl m
  · simp only [g1, ok_bind, g2, g3, h4, h5]
    rw [← hr.name, ← hr.domain, h7]
    rfl

end Pddl
