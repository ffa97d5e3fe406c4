/-
Problems that have been read, and the domains they fit.
-/
import Verif.Proofs.DomainReread
import Verif.Proofs.ProblemRead
import Verif.Proofs.WrittenProblem
import Verif.Proofs.Problem
import Verif.Proofs.PlanText

namespace Pddl
open Spec

variable {F : FloatOf}

theorem goal_known_tags {t : Term} (h : Known (goalEnv F) t) : t.tags = [] := by
  cases t with
  | const n x =>
    obtain ⟨_, _, h2⟩ := mkConst_ok (show mkConst n none = .ok (.const n x) from h.2)
    simp only [Term.const.injEq, true_and] at h2
    subst h2
    rfl
  | var v =>
    rcases h.2 with ⟨w, h1, _⟩ | h1
    · simp [goalEnv, dictGet] at h1
    · exact h1.2

theorem termsAll_mem {as : List Expr} {t : Term} (h : t ∈ termsAll as) : ∃ a ∈ as, t ∈ terms a := by
  induction as with
  | nil => simp [termsAll] at h
  | cons a as ih =>
    simp only [termsAll, List.mem_append] at h
    rcases h with h | h
    · exact ⟨a, by simp, h⟩
    · obtain ⟨b, hb, h⟩ := ih h
      exact ⟨b, List.mem_cons_of_mem _ hb, h⟩

theorem ReadNum.untyped {e : Expr} (h : ReadNum (goalEnv F) e) : ∀ t ∈ terms e, t.tags = [] := by
  induction h with
  | num => simp [terms]
  | fn h => exact fun t ht => goal_known_tags (h t ht)
  | op _ _ ih =>
    intro t ht
    obtain ⟨a, ha, ht⟩ := termsAll_mem ht
    exact ih a ha t ht

/-- The terms of a goal that was read have no types. -/
theorem ReadCond.untyped {e : Expr} (h : ReadCond (goalEnv F) e) : ∀ t ∈ terms e, t.tags = [] := by
  induction h with
  | pred h => exact fun t ht => goal_known_tags (h t ht)
  | eq h1 h2 h3 => exact absurd h3 goal_no_reqs
  | and _ ih =>
    intro t ht
    obtain ⟨a, ha, ht⟩ := termsAll_mem ht
    exact ih a ha t ht
  | or _ hr ih => exact absurd hr goal_no_reqs
  | imply _ _ hr h1 h2 => exact absurd hr goal_no_reqs
  | not _ ih => exact ih
  | quant _ hr ih => exact absurd hr goal_no_reqs
  | comp _ h =>
    intro t ht
    obtain ⟨a, ha, ht⟩ := termsAll_mem ht
    exact (h a ha).untyped t ht

theorem mapM_terms {f : Str → Except Exc Term} {P : Term → Prop} (h : ∀ n t, f n = .ok t → P t)
    {ns : List Str} {ts : List Term} (e : ns.mapM f = .ok ts) : ∀ t ∈ ts, P t := by
  intro t ht
  obtain ⟨n, _, hn⟩ := mapM_from e ht
  exact h n t hn

theorem basicFunction_untyped {t : Tree} {f : NFun} (h : basicFunction t = .ok f) : ∀ t ∈ f.terms, t.tags = [] := by
  unfold basicFunction at h
  split at h
  · obtain ⟨_, rfl⟩ := mkNFun_ok.1 h
    simp
  · split at h
    · simp at h
    · obtain ⟨ts, h1, h2⟩ := bind_ok_iff.1 h
      obtain ⟨_, rfl⟩ := mkNFun_ok.1 h2
      exact mapM_terms (fun n t h => by rw [(mkConst_ok h).2.2]; rfl) h1
  · simp at h

theorem atomicName_terms {σ : List (Str × Term)} {ts : List Tree} {e : Expr} (h : atomicName σ ts = .ok e) :
    ∀ t ∈ terms e, t.tags = [] ∨ ∃ n, dictGet σ n = some t := by
  unfold atomicName at h
  split at h
  · split at h
    · simp at h
    · obtain ⟨ts, h1, h2⟩ := bind_ok_iff.1 h
      obtain ⟨q, h3, h4⟩ := bind_ok_iff.1 h2
      simp only [pure_ok, Except.ok.injEq] at h4
      subst h4
      obtain ⟨_, _, rfl⟩ := mkPred_ok.1 h3
      refine mapM_terms (fun n t h => ?_) h1
      unfold initTerm at h
      split at h
      · rename_i t' ht
        simp only [pure_ok, Except.ok.injEq] at h
        subst h
        exact .inr ⟨n, ht⟩
      · exact .inl (by rw [(mkConst_ok h).2.2]; rfl)
  · simp at h

theorem initEl_terms {σ : List (Str × Term)} {t : Tree} {e : Expr} (h : initEl F σ t = .ok e) :
    ∀ t ∈ terms e, t.tags = [] ∨ ∃ n, dictGet σ n = some t := by
  unfold initEl at h
  split at h
  · split at h
    · obtain ⟨f, h1, h2⟩ := bind_ok_iff.1 h
      obtain ⟨n, h3, h4⟩ := bind_ok_iff.1 h2
      simp only [pure_ok, Except.ok.injEq] at h4
      have he : construct (.fop .eq) [.nfun f, .num n] = .bfun .eq [.nfun f, .num n] := by
        simp [construct, simplOperands, Cls.idempotent, simplLoop, Expr.operandsIf, memBy, Expr.pyEq, Expr.ofCls]
      rw [he] at h4
      subst h4
      intro t ht
      simp only [terms, termsAll, List.append_nil] at ht
      exact .inl (basicFunction_untyped h1 t ht)
    · simp at h
  · split at h
    · split at h
      · obtain ⟨a, h1, h2⟩ := bind_ok_iff.1 h
        simp only [pure_ok, Except.ok.injEq] at h2
        subst h2
        intro t ht
        exact atomicName_terms h1 t ht
      · simp at h
    · exact atomicName_terms h
  · simp at h

theorem wellTyped_untagged {P : Str → Prop} {rs : List Req} {t : Term} (h : t.tags = []) : WellTypedTerm P rs t :=
  ⟨by simp [h], by simp [h]⟩

/-- A problem that a new parser read fits a domain of its name with its requirements if its objects have types of the
domain: the facts mention these objects, and the goal mentions no types. -/
theorem parsed_fits {text : Str} {p : Problem} {σ' : List (Str × Term)} (h : parseProblem F [] text = .ok (p, σ'))
    (d : Domain) : Fits p d ↔ SameIgnoringCase p.domainName d.name ∧ (∀ r ∈ p.reqs, r ∈ d.reqs) ∧
      ∀ t ∈ p.objects, WellTypedTerm (Declared d.types) d.reqs t := by
  obtain ⟨ts, hr, ⟨P⟩⟩ := parseProblem_ok h
  obtain ⟨_, hdom, _, hinit, hgoal, _, _⟩ := mkProblem_fields P.hproblem
  have hdom : p.domain = none := hdom
  have hreqs : (∀ rs, p.reqs_ = some rs → ∀ r ∈ rs, r ∈ d.reqs) ↔ ∀ r ∈ p.reqs, r ∈ d.reqs := by
    unfold Problem.reqs
    rw [hdom]
    cases p.reqs_ <;> simp
  constructor
  · intro hf
    exact ⟨hf.name, hreqs.1 hf.reqs, hf.objects⟩
  · rintro ⟨h1, h2, h3⟩
    refine ⟨h1, hreqs.2 h2, h3, ?_, ?_⟩
    · intro e he t ht
      rw [hinit] at he
      obtain ⟨x, _, hx⟩ := mapM_from P.hinit (dedupBy_subset he)
      rcases initEl_terms hx t ht with hn | ⟨n, hn⟩
      · exact wellTyped_untagged hn
      · obtain ⟨K, _⟩ := P.knows (by intro n t h; simp [dictGet] at h)
          (fun w hw => readText_words hr (t := .node ts) (by simp) hw)
        exact h3 t (K.type (.inl rfl) n t hn)
    · intro t ht
      have hg : p.goal = P.goal := hgoal
      rw [hg] at ht
      exact wellTyped_untagged (((gd_rel P.hgoal).read (goal_scope F)).untyped t ht)

theorem lastNamed_iff {n : Str} {as : List Action} (h : (as.map Action.name).Nodup) {a : Action} :
    lastNamed n as = some a ↔ a ∈ as ∧ a.name = n := by
  constructor
  · exact lastNamed_mem
  · rintro ⟨h1, rfl⟩
    obtain ⟨b, hb⟩ := lastNamed_isSome (List.mem_map_of_mem (f := Action.name) h1)
    obtain ⟨h2, h3⟩ := lastNamed_mem hb
    rw [hb, List.inj_on_of_nodup_map h h2 h1 h3]

theorem lastNamed_perm {n : Str} {as bs : List Action} (h : (as.map Action.name).Nodup) (hp : as.Perm bs) :
    lastNamed n as = lastNamed n bs := by
  have h' : (bs.map Action.name).Nodup := (hp.map _).nodup_iff.1 h
  apply Option.ext
  intro a
  rw [lastNamed_iff h, lastNamed_iff h', hp.mem_iff]

theorem instSteps_congr {s s' : List (Str × Action)} (h : ∀ n, dictGet s n = dictGet s' n) :
    ∀ l, instSteps s l = instSteps s' l := by
  intro l
  induction l with
  | nil => rfl
  | cons x l ih =>
    obtain ⟨n, as⟩ := x
    unfold instSteps
    rw [h n, ih]

/-- A plan that was read is exactly what its text gives again. -/
theorem plan_reread {text : Str} {π : Plan} (h : parsePlan text = .ok π) : parsePlan π.str = .ok π := by
  unfold parsePlan at h
  obtain ⟨ts, h1, h⟩ := bind_ok_iff.1 h
  obtain ⟨steps, h2, h⟩ := bind_ok_iff.1 h
  simp only [pure_ok, Except.ok.injEq] at h
  subst h
  have h2 := mapM_ok_iff.1 h2
  have hstep : ∀ s ∈ steps, StepOk s ∧ s.2.map (fun t => Term.const t.name none) = s.2 := by
    intro s hs
    obtain ⟨t, ht, hg⟩ := zipped_right h2 hs
    obtain ⟨ns, h3, h4⟩ := groundAction_written hg
    have hv := groundAction_valid hg
    refine ⟨⟨(nameRegex_iff _).1 (readText_words h1 ht (w := s.1) ?_), ?_⟩, ?_⟩
    · rw [h3]
      exact .node (List.mem_cons_self ..) .refl
    · intro c hc
      have := hv c hc
      rw [h4] at hc
      obtain ⟨n, _, rfl⟩ := List.mem_map.1 hc
      exact ⟨n, none, rfl, this⟩
    · rw [h4, List.map_map]
      rfl
  rw [parsePlan_str (fun s hs => (hstep s hs).1)]
  congr 2
  conv_rhs => rw [← List.map_id steps]
  refine List.map_congr_left (fun s hs => ?_)
  rw [(hstep s hs).2]
  rfl

end Pddl
