/-
C71 and C52: derived predicates and actions in any order.
-/
import Verif.Props.Rearranged
import Verif.Proofs.RulesDom

namespace Pddl.Props
open Pddl Spec Spec.Grammar

/-! ### Actions and derived predicates on their own -/

theorem actionDef_params (F : FloatOf) (σ : PState) (params : List (Str × Term)) (b : List Tree) :
    actionDef F { σ with params := params } b = actionDef F σ b := by
  unfold actionDef
  rfl

theorem sectionsOf_action (b S : List Tree) :
    sectionsOf s%"action" (section_ s%"action" b :: S) = b :: sectionsOf s%"action" S ∧
    sectionsOf s%"derived" (section_ s%"action" b :: S) = sectionsOf s%"derived" S := by
  unfold sectionsOf; exact ⟨rfl, rfl⟩

theorem sectionsOf_derived (b S : List Tree) :
    sectionsOf s%"derived" (section_ s%"derived" b :: S) = b :: sectionsOf s%"derived" S ∧
    sectionsOf s%"action" (section_ s%"derived" b :: S) = sectionsOf s%"action" S := by
  unfold sectionsOf; exact ⟨rfl, rfl⟩

theorem structures_actions {F : FloatOf} {σ σ' : PState} {S : List Tree} {as : List Action} {ds : List Derived}
    (h : structures F σ S = .ok (as, ds, σ')) :
    (sectionsOf s%"action" S).mapM (fun b => (actionDef F σ b).map Prod.fst) = .ok as := by
  induction S generalizing σ σ' as ds with
  | nil =>
    simp only [structures, pure_ok, Except.ok.injEq, Prod.mk.injEq] at h
    obtain ⟨rfl, _, _⟩ := h
    rfl
  | cons t S ih =>
    unfold structures at h
    split at h
    · simp at *
    · rename_i k body ts' heq
      injection heq with e1 e2
      subst e2; subst e1
      split at h
      · rename_i hk
        subst hk
        obtain ⟨⟨a, σ1⟩, hact, h⟩ := bind_ok_iff.1 h
        obtain ⟨⟨as', ds', σ2⟩, hs, h⟩ := bind_ok_iff.1 h
        simp only [pure_ok, Except.ok.injEq, Prod.mk.injEq] at h
        obtain ⟨rfl, _, _⟩ := h
        have e := (sectionsOf_action body S).1
        rw [section_] at e
        rw [e]
        obtain ⟨n, ps, t, t', params, p, _, rfl, hpar, rfl, _⟩ := actionDef_ok hact
        have := ih hs
        simp only [actionDef_params] at this
        rw [List.mapM_cons, hact, this]
        rfl
      · split at h
        · rename_i hk
          subst hk
          obtain ⟨d, hd, h⟩ := bind_ok_iff.1 h
          obtain ⟨⟨as', ds', σ2⟩, hs, h⟩ := bind_ok_iff.1 h
          simp only [pure_ok, Except.ok.injEq, Prod.mk.injEq] at h
          obtain ⟨rfl, _, _⟩ := h
          have e := (sectionsOf_derived body S).2
          rw [section_] at e
          rw [e]
          exact ih hs
        · simp at h
    · simp at h

theorem structures_of {F : FloatOf} {σ : PState} {S : List Tree} {as : List Action} {ds : List Derived}
    {R : List (Str × Term) → Prop}
    (hos : ∀ t ∈ S, (∃ b, t = section_ s%"derived" b) ∨ ∃ b, t = section_ s%"action" b)
    (hd : (sectionsOf s%"derived" S).mapM (derivedDef F { σ with params := [] }) = .ok ds)
    (hact : (sectionsOf s%"action" S).mapM (fun b => (actionDef F σ b).map Prod.fst) = .ok as) (h0 : R σ.params)
    (ha : ∀ a ps rest params, .node (.atom (.kw s%"action") :: .atom (.name a) :: .atom (.kw s%"parameters") :: .node ps :: rest) ∈ S →
      actionParameters ps = .ok params → R params)
    (H : ∀ b ∈ sectionsOf s%"derived" S, ∀ params d, R params →
      derivedDef F { σ with params := [] } b = .ok d → derivedDef F { σ with params := params } b = .ok d) :
    ∃ σ', structures F σ S = .ok (as, ds, σ') := by
  induction S generalizing σ as ds with
  | nil =>
    have hd : ([] : List Derived) = ds := Except.ok.inj hd
    have hact : ([] : List Action) = as := Except.ok.inj hact
    subst hd; subst hact
    exact ⟨σ, rfl⟩
  | cons t S ih =>
    have hos' := fun t ht => hos t (List.mem_cons_of_mem _ ht)
    have ha' := fun a ps rest params hm => ha a ps rest params (List.mem_cons_of_mem _ hm)
    rcases hos t (by simp) with ⟨b, rfl⟩ | ⟨b, rfl⟩
    · rw [(sectionsOf_derived b S).1] at hd H
      rw [(sectionsOf_derived b S).2] at hact
      rw [List.mapM_cons] at hd
      obtain ⟨d, hd1, hd⟩ := bind_ok_iff.1 hd
      obtain ⟨ds', hd2, hd⟩ := bind_ok_iff.1 hd
      simp only [pure_ok, Except.ok.injEq] at hd
      subst hd
      obtain ⟨σ', h⟩ := ih hos' hd2 hact h0 ha' (fun b hb => H b (List.mem_cons_of_mem _ hb))
      have k := H b (by simp) σ.params d h0 hd1
      refine ⟨σ', ?_⟩
      have k : derivedDef F σ b = .ok d := k
      simp [section_, structures, k, h]
    · rw [(sectionsOf_action b S).1] at hact
      rw [(sectionsOf_action b S).2] at hd H
      rw [List.mapM_cons] at hact
      obtain ⟨a, hd1, hact⟩ := bind_ok_iff.1 hact
      obtain ⟨as', hd2, hact⟩ := bind_ok_iff.1 hact
      simp only [pure_ok, Except.ok.injEq] at hact
      subst hact
      cases hab : actionDef F σ b with
      | error e => rw [hab] at hd1; simp [Except.map] at hd1
      | ok r =>
        obtain ⟨a', σ1⟩ := r
        rw [hab] at hd1
        have hd1 : a' = a := Except.ok.inj hd1
        subst hd1
        obtain ⟨n, ps, t, t', params, p, _, e, hpar, rfl, _⟩ := actionDef_ok hab
        obtain ⟨σ', h⟩ := ih (σ := { σ with params := params }) hos' hd (by simpa only [actionDef_params] using hd2)
          (ha _ _ _ _ (by rw [e]; exact List.mem_cons_self ..) hpar) ha' H
        refine ⟨σ', ?_⟩
        simp [section_, structures, hab, h]

/-! ### The domain -/

theorem only_mem {S : List Tree} (hos : ∀ t ∈ S, (∃ b, t = section_ s%"derived" b) ∨ ∃ b, t = section_ s%"action" b) {t : Tree} :
    t ∈ S ↔ (∃ b ∈ sectionsOf s%"derived" S, t = section_ s%"derived" b) ∨ ∃ b ∈ sectionsOf s%"action" S, t = section_ s%"action" b := by
  constructor
  · intro ht
    rcases hos t ht with ⟨b, rfl⟩ | ⟨b, rfl⟩
    · exact .inl ⟨b, sectionsOf_mem.2 ht, rfl⟩
    · exact .inr ⟨b, sectionsOf_mem.2 ht, rfl⟩
  · rintro (⟨b, hb, rfl⟩ | ⟨b, hb, rfl⟩)
    · exact sectionsOf_mem.1 hb
    · exact sectionsOf_mem.1 hb

/-- The same derived predicates and the same actions, each in the same order, put together in another way. -/
theorem restructured {F : FloatOf} {ts ts' : List Tree} {D : Domain} {τ : PState} (P : DomainParse F .fresh ts D τ)
    (hw : ∀ w, Inside (.atom (.name w)) (.node ts) → nameRegex w = true) {S' : List Tree}
    (hs' : ({ P.sections with structures := S' } : DomainSections).Of (.node ts'))
    (hos : OnlyStructures P.sections) (hos' : OnlyStructures { P.sections with structures := S' })
    (hd : sectionsOf s%"derived" P.ts5 = sectionsOf s%"derived" S') (ha : sectionsOf s%"action" P.ts5 = sectionsOf s%"action" S')
    (hclash : ClashFree D P.ts5) (hfree : HeadsType D P.ts5 S') : ∃ τ', domainDef F .fresh ts' = .ok (D, τ') := by
  have hmem : ∀ t, t ∈ P.ts5 ↔ t ∈ S' := by
    intro t
    rw [only_mem (S := P.ts5) hos, only_mem (S := S') hos', hd, ha]
  have hwS : ∀ t ∈ P.ts5, ∀ w, Inside (.atom (.name w)) t → nameRegex w = true := by
    intro t ht w hi
    obtain ⟨h, _, e⟩ := P.sections_of
    refine hw w ?_
    rw [e]
    exact .node (by simp [DomainParse.sections, ht]) hi
  have hp := derived_params P hw hwS (fun t ht => hwS t ((hmem t).2 ht)) P.hstruct hclash hfree
  have hR0 : LeftOver P.ts5 S' P.σ4.params := .inl (params_fresh P)
  have k1 := structures_derived (R := LeftOver P.ts5 S') P.hstruct hR0
    (fun a ps rest params hm hp => .inr ⟨_, .inl rfl, a, ps, rest, hm, hp⟩)
    (fun b hb params d hR => (hp b hb params d hR).1)
  have k2 := structures_actions P.hstruct
  rw [hd] at k1
  rw [ha] at k2
  obtain ⟨σ5, k3⟩ := structures_of (R := LeftOver P.ts5 S') hos' k1 k2 hR0
    (fun a ps rest params hm hp => .inr ⟨_, .inr rfl, a, ps, rest, hm, hp⟩)
    (fun b hb params d hR => (hp b (by rw [hd]; exact hb) params d hR).2)
  obtain ⟨t0, t1, t2, t3, t4, g0, g1, g2, g3, g4, g5⟩ := Rules.takeSections hs' hos'
  exact ⟨_, (DomainParse.mk P.n _ g0 _ _ g1 P.rs P.σ1 P.hreqs _ _ g2 P.types P.σ2 P.htypes _ _ g3 P.consts P.σ3 P.hconsts _ _ g4
    P.preds P.σ4 P.hpreds _ _ g5 P.funs P.hfuns P.as P.ds σ5 k3 P.hdomain rfl).run⟩

/-- C52, with acceptance: if the derived predicates of a text are as above, the text with the same derived predicates
and the same actions is accepted as the same domain, in whatever way the derived predicates and the actions are put
together. -/
theorem C52_interleaved_partial {F : FloatOf} {text text' : Str} {t t' : Tree} {s s' : DomainSections}
    (ht : Brackets (lex text) [t]) (ht' : Brackets (lex text') [t']) (hs : s.Of t) (hs' : s'.Of t')
    (hos : OnlyStructures s) (hos' : OnlyStructures s') (hsame : s' = { s with structures := s'.structures })
    (hd : sectionsOf s%"derived" s.structures = sectionsOf s%"derived" s'.structures)
    (ha : sectionsOf s%"action" s.structures = sectionsOf s%"action" s'.structures) {D : Domain} {τ : PState}
    (h : parseDomain F .fresh text = .ok (D, τ))
    (hclash : ClashFree D s.structures) (hfree : HeadsType D s.structures s'.structures) :
    ∃ τ', parseDomain F .fresh text' = .ok (D, τ') := by
  obtain ⟨ts, hrd, h⟩ := parseDomain_ok h
  have hrd' := readText_brackets.2 ht'
  have e : [t] = [.node ts] := by
    have := readText_brackets.2 ht
    rw [hrd] at this
    exact (Except.ok.inj this).symm
  simp only [List.cons.injEq, and_true] at e
  subst e
  obtain ⟨ts', rfl⟩ : ∃ ts', t' = .node ts' := by
    obtain ⟨h, _, e⟩ := hs'
    exact ⟨_, e⟩
  have hw : ∀ w, Inside (.atom (.name w)) (.node ts) → nameRegex w = true := fun w hw =>
    readText_words hrd (t := .node ts) (by simp) hw
  obtain ⟨P⟩ := domainDef_ok h
  obtain rfl := sections_unique P hs hos
  obtain ⟨τ', H⟩ := restructured P hw (S' := s'.structures) (by rw [← hsame]; exact hs') hos (by rw [← hsame]; exact hos')
    hd ha hclash hfree
  refine ⟨τ', ?_⟩
  unfold parseDomain
  rw [hrd', ok_bind]
  exact H

/-! ### Any order -/

/-- The derived predicates first. -/
def derivedFirst (S : List Tree) : List Tree :=
  (sectionsOf s%"derived" S).map (section_ s%"derived") ++ (sectionsOf s%"action" S).map (section_ s%"action")

theorem derivedFirst_sections (S : List Tree) :
    sectionsOf s%"derived" (derivedFirst S) = sectionsOf s%"derived" S ∧
    sectionsOf s%"action" (derivedFirst S) = sectionsOf s%"action" S := by
  have h1 : ∀ (bs : List (List Tree)), sectionsOf s%"derived" (bs.map (section_ s%"derived")) = bs ∧
      sectionsOf s%"action" (bs.map (section_ s%"derived")) = [] ∧
      sectionsOf s%"action" (bs.map (section_ s%"action")) = bs ∧ sectionsOf s%"derived" (bs.map (section_ s%"action")) = [] := by
    intro bs
    induction bs with
    | nil => exact ⟨rfl, rfl, rfl, rfl⟩
    | cons b bs ih =>
      obtain ⟨i1, i2, i3, i4⟩ := ih
      simp only [List.map_cons, sectionsOf_derived, sectionsOf_action, i1, i2, i3, i4, and_self]
  have h2 : ∀ k (a b : List Tree), sectionsOf k (a ++ b) = sectionsOf k a ++ sectionsOf k b := by
    intro k a b
    simp [sectionsOf, List.filterMap_append]
  simp [derivedFirst, h2, h1]

theorem derivedFirst_only (S : List Tree) :
    ∀ t ∈ derivedFirst S, (∃ b, t = section_ s%"derived" b) ∨ ∃ b, t = section_ s%"action" b := by
  intro t ht
  simp only [derivedFirst, List.mem_append, List.mem_map] at ht
  rcases ht with ⟨b, _, rfl⟩ | ⟨b, _, rfl⟩
  · exact .inl ⟨b, rfl⟩
  · exact .inr ⟨b, rfl⟩

theorem sameStructures_first {S S' : List Tree} (h : S.Perm S') : SameStructures (derivedFirst S) (derivedFirst S') := by
  refine ⟨_, _, _, _, rfl, rfl, (h.filterMap _).map _, (h.filterMap _).map _, ?_, ?_⟩
  · intro t ht
    obtain ⟨b, _, rfl⟩ := List.mem_map.1 ht
    exact ⟨b, rfl⟩
  · intro t ht
    obtain ⟨b, _, rfl⟩ := List.mem_map.1 ht
    exact ⟨b, rfl⟩

theorem derivedFirst_mem {S : List Tree} (hos : ∀ t ∈ S, (∃ b, t = section_ s%"derived" b) ∨ ∃ b, t = section_ s%"action" b) {t : Tree} :
    t ∈ derivedFirst S ↔ t ∈ S := by
  rw [only_mem hos]
  simp only [derivedFirst, List.mem_append, List.mem_map]
  constructor
  · rintro (⟨b, hb, rfl⟩ | ⟨b, hb, rfl⟩)
    · exact .inl ⟨b, hb, rfl⟩
    · exact .inr ⟨b, hb, rfl⟩
  · rintro (⟨b, hb, rfl⟩ | ⟨b, hb, rfl⟩)
    · exact .inl ⟨b, hb, rfl⟩
    · exact .inr ⟨b, hb, rfl⟩

theorem noParam_mem {n : Str} {S S' : List Tree} (h : ∀ t, t ∈ S ↔ t ∈ S') : NoParam n S ↔ NoParam n S' := by
  unfold NoParam
  simp only [h]

theorem setEqBy_right {α : Type} {eq : α → α → Bool} {a b : List α} (h : setEqBy eq a b = true) {y : α} (hy : y ∈ b) :
    ∃ x ∈ a, eq y x = true := by
  simp only [setEqBy, Bool.and_eq_true, List.all_eq_true] at h
  exact memBy_iff.1 (h.2 y hy)

theorem clashFree_eq {D D' : Domain} {S S' : List Tree} (h : ∀ t, t ∈ S ↔ t ∈ S') (he : D.pyEq D' = true)
    (hc : ClashFree D S) : ClashFree D' S' := by
  intro hd c hm n l hi hw k hk e
  simp only [Domain.pyEq, Bool.and_eq_true] at he
  obtain ⟨⟨⟨⟨⟨⟨⟨h1, h2⟩, h3⟩, h4⟩, h5⟩, h6⟩, h7⟩, h8⟩ := he
  obtain ⟨k', hk', e'⟩ := setEqBy_right h4 hk
  refine hc hd c ((h _).2 hm) n l hi hw k' hk' ?_
  rw [← e]
  cases k <;> cases k' <;> simp [Term.pyEq, Var.pyEq] at e' ⊢
  · exact e'.1.symm
  · exact e'.symm

theorem headsType_eq {D D' : Domain} {S S' T' : List Tree} (h : ∀ t, t ∈ S ↔ t ∈ S') (h' : ∀ t, t ∈ S ↔ t ∈ T')
    (he : D.pyEq D' = true) (hc : HeadsType D S S) : HeadsType D' S' T' := by
  intro p args c hm n hn
  simp only [Domain.pyEq, Bool.and_eq_true] at he
  obtain ⟨⟨⟨⟨⟨⟨⟨h1, h2⟩, h3⟩, h4⟩, h5⟩, h6⟩, h7⟩, h8⟩ := he
  rcases hc p args c ((h _).2 hm) n hn with hx | hx
  · left
    intro x' hx' hp
    obtain ⟨x, hxm, e⟩ := setEqBy_right h7 hx'
    simp only [Derived.pyEq, Bool.and_eq_true] at e
    have hpe := Pred.pyEq_iff.1 e.1
    simp only [Pred.norm, Prod.mk.injEq] at hpe
    obtain ⟨v, hv, rfl, hvt⟩ := hx x hxm (by rw [← hpe.1, hp])
    have : Term.norm (.var v) ∈ x'.pred.terms.map Term.norm := by
      rw [hpe.2]; exact List.mem_map_of_mem hv
    obtain ⟨u, hu, hun⟩ := List.mem_map.1 this
    have hpy := Term.pyEq_iff.2 hun
    cases u with
    | const a b => simp [Term.pyEq] at hpy
    | var u =>
      simp only [Term.pyEq, Var.pyEq, Bool.and_eq_true, decide_eq_true_eq] at hpy
      refine ⟨u, hu, hpy.1, ?_⟩
      intro hnil
      apply hvt
      have := setEq_iff.1 hpy.2
      rw [hnil] at this
      match hvv : v.tags with
      | [] => rfl
      | y :: ys => rw [hvv] at this; exact absurd ((this y).2 (by simp)) (by simp)
  · right
    exact ⟨(noParam_mem h).1 hx.1, (noParam_mem h').1 hx.1⟩

/-- Other actions and derived predicates in a text. -/
theorem of_structures {s : DomainSections} {ts : List Tree} (hs : s.Of (.node ts)) (S : List Tree)
    (hm : ∀ t, t ∈ S ↔ t ∈ s.structures) (hw : ∀ w, Inside (.atom (.name w)) (.node ts) → nameRegex w = true) :
    ∃ ts', ({ s with structures := S } : DomainSections).Of (.node ts') ∧
      ∀ w, Inside (.atom (.name w)) (.node ts') → nameRegex w = true := by
  obtain ⟨h, hh, e⟩ := hs
  refine ⟨_, ⟨h, hh, rfl⟩, ?_⟩
  intro w hi
  refine hw w ?_
  rw [e]
  cases hi with
  | node hx hi =>
    refine .node ?_ hi
    simp only [List.mem_cons, List.mem_append, hm] at hx ⊢
    exact hx

/-- C71, for derived predicates and actions in any order, if the derived predicates are as in C52: variables in their
conditions do not have the names of constants, and those that are free there have a type from the head or from the
declaration, or no action has a parameter of that name. -/
theorem C71_interleaved_partial {F : FloatOf} {text text' : Str} {t t' : Tree} {s s' : DomainSections}
    (ht : Brackets (lex text) [t]) (ht' : Brackets (lex text') [t']) (hs : s.Of t) (hs' : s'.Of t')
    (hr : SameDeclarations s s') (hperm : s.structures.Perm s'.structures) (hos : OnlyStructures s) (hd : DistinctHeads s)
    {d : Domain} {σ : PState} (h : parseDomain F .fresh text = .ok (d, σ))
    (hclash : ClashFree d s.structures) (hfree : HeadsType d s.structures s.structures) :
    ∃ d' σ', parseDomain F .fresh text' = .ok (d', σ') ∧ d.pyEq d' = true := by
  obtain ⟨ts, hrd, h⟩ := parseDomain_ok h
  have hrd' := readText_brackets.2 ht'
  have e : [t] = [.node ts] := by
    have := readText_brackets.2 ht
    rw [hrd] at this
    exact (Except.ok.inj this).symm
  simp only [List.cons.injEq, and_true] at e
  subst e
  obtain ⟨ts', rfl⟩ : ∃ ts', t' = .node ts' := by
    obtain ⟨h, _, e⟩ := hs'
    exact ⟨_, e⟩
  have hw : ∀ w, Inside (.atom (.name w)) (.node ts) → nameRegex w = true := fun w hw =>
    readText_words hrd (t := .node ts) (by simp) hw
  have hw' : ∀ w, Inside (.atom (.name w)) (.node ts') → nameRegex w = true := fun w hw =>
    readText_words hrd' (t := .node ts') (by simp) hw
  have hos' : OnlyStructures s' := fun t ht => hos t (hperm.mem_iff.2 ht)
  obtain ⟨P⟩ := domainDef_ok h
  obtain rfl := sections_unique P hs hos
  -- the derived predicates first
  have m1 : ∀ t, t ∈ derivedFirst P.ts5 ↔ t ∈ P.ts5 := fun t => derivedFirst_mem hos
  have m2 : ∀ t, t ∈ derivedFirst s'.structures ↔ t ∈ s'.structures := fun t => derivedFirst_mem hos'
  have m3 : ∀ t, t ∈ P.ts5 ↔ t ∈ s'.structures := fun t => hperm.mem_iff
  obtain ⟨ts1, hs1, hw1⟩ := of_structures hs (derivedFirst P.ts5) m1 hw
  obtain ⟨ts2, hs2, hw2⟩ := of_structures hs' (derivedFirst s'.structures) m2 hw'
  obtain ⟨τ1, k1⟩ := restructured P hw hs1 hos (derivedFirst_only _) (derivedFirst_sections _).1.symm
    (derivedFirst_sections _).2.symm hclash (fun p args c hm n hn => (hfree p args c hm n hn).imp id
      (fun hx => ⟨hx.1, (noParam_mem m1).2 hx.1⟩))
  -- another order
  have hdist : DistinctHeads { P.sections with structures := derivedFirst P.ts5 } := by
    rintro ⟨b, hb⟩
    exact hd ⟨b, (m1 _).1 hb⟩
  obtain ⟨d', τ2, k2, he⟩ := rearranged_trees .fresh hw1 hw2 hs1 hs2
    ⟨⟨hr.name, hr.reqs, hr.types, hr.constants, hr.predicates, hr.functions⟩, sameStructures_first hperm⟩ hdist k1
  -- and back
  obtain ⟨Q⟩ := domainDef_ok k2
  have eQ := sections_unique Q hs2 (derivedFirst_only _)
  have eS : derivedFirst s'.structures = Q.ts5 := congrArg DomainSections.structures eQ
  have e' : ({ Q.sections with structures := s'.structures } : DomainSections) = s' := by rw [← eQ]
  have m4 : ∀ t, t ∈ P.ts5 ↔ t ∈ Q.ts5 := fun t => by rw [← eS, m2, m3]
  obtain ⟨τ3, k3⟩ := restructured Q hw2 (S' := s'.structures) (by rw [e']; exact hs')
    (by rw [← eQ]; exact derivedFirst_only _) (by rw [e']; exact hos')
    (by rw [← eS]; exact (derivedFirst_sections _).1) (by rw [← eS]; exact (derivedFirst_sections _).2)
    (clashFree_eq m4 he hclash) (headsType_eq m4 m3 he hfree)
  refine ⟨d', τ3, ?_, he⟩
  unfold parseDomain
  rw [hrd', ok_bind]
  exact k3

/-! ### A case: a derived predicate between two actions, the first of which has a parameter of the same name as its
variable, and after both of them in the other order -/

def betweenText : Str := s%"(define (domain d) (:requirements :typing) (:types t u) (:predicates (p ?x) (q ?x - t)) (:action a :parameters (?x - u) :precondition (p ?x) :effect (p ?x)) (:derived (q ?x) (p ?x)) (:action b :parameters () :precondition () :effect ()))"
def behindText : Str := s%"(define (domain d) (:requirements :typing) (:types u t) (:predicates (q ?x - t) (p ?x)) (:action b :parameters () :precondition () :effect ()) (:action a :parameters (?x - u) :precondition (p ?x) :effect (p ?x)) (:derived (q ?x) (p ?x)))"

def betweenSections : DomainSections where
  name := s%"d"
  reqs := some [.atom (.kw s%"typing")]
  types := some ([s%"t", s%"u"].map word)
  constants := none
  predicates := some [.node [word s%"p", .atom .qmark, word s%"x"],
    .node [word s%"q", .atom .qmark, word s%"x", .atom .minus, word s%"t"]]
  functions := none
  structures := (treesOf betweenText).drop 5

def behindSections : DomainSections where
  name := s%"d"
  reqs := some [.atom (.kw s%"typing")]
  types := some ([s%"u", s%"t"].map word)
  constants := none
  predicates := some [.node [word s%"q", .atom .qmark, word s%"x", .atom .minus, word s%"t"],
    .node [word s%"p", .atom .qmark, word s%"x"]]
  functions := none
  structures := (treesOf behindText).drop 5

theorem only_test {ts : List Tree} (h : ts.all (fun
    | .node (.atom (.kw k) :: _) => decide (k = s%"action" ∨ k = s%"derived")
    | _ => false) = true) : ∀ t ∈ ts, (∃ b, t = section_ s%"derived" b) ∨ ∃ b, t = section_ s%"action" b := by
  intro t ht
  obtain ⟨b, e | e⟩ := isStructure_test h t ht
  · exact .inr ⟨b, e⟩
  · exact .inl ⟨b, e⟩

/-- The hypotheses of C71 hold, and the actions and derived predicates are in different orders. -/
example : ∃ t t' d σ, Brackets (lex betweenText) [t] ∧ Brackets (lex behindText) [t'] ∧ betweenSections.Of t ∧
    behindSections.Of t' ∧ SameDeclarations betweenSections behindSections ∧
    betweenSections.structures.Perm behindSections.structures ∧ OnlyStructures betweenSections ∧
    DistinctHeads betweenSections ∧ parseDomain (fun _ => none) .fresh betweenText = .ok (d, σ) ∧
    ClashFree d betweenSections.structures ∧ HeadsType d betweenSections.structures betweenSections.structures := by
  obtain ⟨D, τ, h1⟩ := parse_some (F := fun _ => none) (text := betweenText) (by decide +kernel)
  have hp : D.derived.map (fun x => (x.pred.name, x.pred.terms, x.cond)) =
      [(s%"q", [.var ⟨s%"x", [s%"t"]⟩], .pred ⟨s%"p", [.var ⟨s%"x", [s%"t"]⟩]⟩)] := by
    have : ((parseDomain (fun _ => none) .fresh betweenText).toOption.map (fun r => r.1.derived.map (fun x => (x.pred.name, x.pred.terms, x.cond)))) =
      some [(s%"q", [.var ⟨s%"x", [s%"t"]⟩], .pred ⟨s%"p", [.var ⟨s%"x", [s%"t"]⟩]⟩)] := by decide +kernel
    rw [h1] at this
    simpa [Except.toOption] using this
  have hc : D.constants = [] := by
    have : ((parseDomain (fun _ => none) .fresh betweenText).toOption.map (fun r => r.1.constants.length)) = some 0 := by decide +kernel
    rw [h1] at this
    simpa [Except.toOption] using this
  refine ⟨.node (treesOf betweenText), .node (treesOf behindText), D, τ, readText_brackets.1 (by decide +kernel),
    readText_brackets.1 (by decide +kernel), ⟨.node [word s%"domain", word s%"d"], ⟨_, rfl, .word _⟩, by decide +kernel⟩,
    ⟨.node [word s%"domain", word s%"d"], ⟨_, rfl, .word _⟩, by decide +kernel⟩,
    ⟨rfl, fun _ => Iff.rfl, ⟨⟨[], [s%"t", s%"u"]⟩, ⟨[], [s%"u", s%"t"]⟩, rfl, rfl, by simp [NoEmptyGroup],
      by simp [NoEmptyGroup], .inl (List.Perm.swap _ _ _)⟩, trivial, List.Perm.swap _ _ _, trivial⟩,
    by decide +kernel, only_test (by decide +kernel), fun _ => by decide +kernel, h1, ?_, ?_⟩
  · intro h c _ n l _ _ k hk
    rw [hc] at hk; simp at hk
  · intro p args c hm n hn
    left
    have hm' := sectionsOf_mem.2 hm
    have e : sectionsOf s%"derived" betweenSections.structures =
      [[.node [word s%"q", .atom .qmark, word s%"x"], .node [word s%"p", .atom .qmark, word s%"x"]]] := by decide +kernel
    rw [e] at hm'
    simp only [List.mem_singleton, List.cons.injEq, Tree.node.injEq, and_true] at hm'
    obtain ⟨⟨_, rfl⟩, rfl⟩ := hm'
    have hx : n = s%"x" := by
      cases hn with
      | here h =>
        obtain ⟨a, b, e⟩ := h
        match a, e with
        | [], e => simp [varTrees, word] at e
        | [_], e => simp [varTrees, word] at e; exact e.2.1.symm
        | [_, _], e => simp [varTrees, word] at e
        | _ :: _ :: _ :: _, e => simp [varTrees, word] at e
      | part hm _ h =>
        simp only [List.mem_cons, List.not_mem_nil, or_false, word] at hm
        rcases hm with rfl | rfl | rfl <;> exact absurd h free_atom
      | under hq _ _ =>
        obtain ⟨w, _, e⟩ := hq
        simp [word] at e
    subst hx
    intro x hx _
    have := List.mem_map_of_mem (f := fun x : Derived => (x.pred.name, x.pred.terms, x.cond)) hx
    rw [hp] at this
    simp only [List.mem_singleton, Prod.mk.injEq] at this
    exact ⟨⟨s%"x", [s%"t"]⟩, by rw [this.2.1]; simp, rfl, by simp⟩

end Pddl.Props
