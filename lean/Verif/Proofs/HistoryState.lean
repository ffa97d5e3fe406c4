/-
The state that a failing call leaves behind.
-/
import Verif.Model.History
import Verif.Proofs.ParseDom
import Verif.Proofs.ParseProb

namespace Pddl

variable {F : FloatOf} {σ : PState}

/-- Reading a domain is reading everything and then calling `Domain(...)`. -/
theorem domainDef_kwargs (F : FloatOf) (σ : PState) (ts : List Tree) :
    domainDef F σ ts = (do
      let (a, σ') ← domainKwargs F σ ts
      let d ← mkDomain a
      pure (d, { σ' with types := none })) := by
  simp only [domainDef, domainKwargs, bind_assoc, pure_bind]

theorem structuresLeft_types (ts : List Tree) (σ : PState) : (structuresLeft F σ ts).types = σ.types := by
  induction ts generalizing σ with
  | nil => rfl
  | cons t ts ih =>
    unfold structuresLeft
    split
    · rename_i k body ts' he
      cases he
      split
      · split
        · rename_i a σ' h
          rw [ih]
          exact (actionDef_same h).2.2.2
        · split
          · split
            · rfl
            · rfl
          · rfl
      · split
        · split
          · exact ih _
          · rfl
        · rfl
    · rfl

theorem optSection_state {sec : Option (List Tree)} {α : Type} {dflt x : α} {σ σ' : PState}
    {f : List Tree → Except Exc (α × PState)} (hf : ∀ b y τ, f b = .ok (y, τ) → τ.types = σ.types)
    (h : optSection sec (dflt, σ) f = .ok (x, σ')) : σ'.types = σ.types := by
  cases sec with
  | none => simp only [optSection, pure_ok, Except.ok.injEq, Prod.mk.injEq] at h; rw [h.2]
  | some b => exact hf b x σ' h

theorem sectionRequirements_types {b : List Tree} {x τ} (h : sectionRequirements σ b = .ok (x, τ)) : τ.types = σ.types := by
  unfold sectionRequirements at h
  obtain ⟨_, _, h⟩ := bind_ok_iff.1 h
  simp only [pure_ok, Except.ok.injEq, Prod.mk.injEq] at h
  rw [← h.2]

theorem sectionConstants_types {b : List Tree} {x τ} (h : sectionConstants σ b = .ok (x, τ)) : τ.types = σ.types := by
  unfold sectionConstants at h
  obtain ⟨_, _, h⟩ := bind_ok_iff.1 h
  obtain ⟨_, _, h⟩ := bind_ok_iff.1 h
  simp only [pure_ok, Except.ok.injEq, Prod.mk.injEq] at h
  rw [← h.2]

theorem sectionPredicates_types {b : List Tree} {x τ} (h : sectionPredicates σ b = .ok (x, τ)) : τ.types = σ.types := by
  unfold sectionPredicates at h
  obtain ⟨_, _, h⟩ := bind_ok_iff.1 h
  obtain ⟨_, _, h⟩ := bind_ok_iff.1 h
  simp only [pure_ok, Except.ok.injEq, Prod.mk.injEq] at h
  rw [← h.2]

/-- Without a section `:types` a failing call leaves the types as they were, or resets them. -/
theorem domainLeft_types (ts : List Tree) (hn : ∀ b, .node (.atom (.kw s%"types") :: b) ∉ ts) (σ : PState)
    (hσ : σ.types = none) : (domainLeft F σ ts).types = none := by
  unfold domainLeft
  split
  · exact hσ
  rename_i n ts0 hh
  obtain ⟨_, _, hts, _⟩ := header_ok hh
  have hn0 : ∀ b, .node (.atom (.kw s%"types") :: b) ∉ ts0 := fun b hb => hn b (by rw [hts]; simp [hb])
  simp only
  split
  · exact hσ
  rename_i r1 σ1 h1
  have e1 := (optSection_state (fun _ _ _ h => sectionRequirements_types h) h1).trans hσ
  have h2n : (takeSection s%"types" (takeSection s%"requirements" ts0).2).1 = none := by
    cases hc : takeSection s%"types" (takeSection s%"requirements" ts0).2 with
    | mk o rest =>
      cases o with
      | none => rfl
      | some b =>
        have hm : Tree.node (.atom (.kw s%"types") :: b) ∈ (takeSection s%"requirements" ts0).2 := by
          rw [takeSection_some hc]; simp
        exact absurd (takeSection_sub (b := (takeSection s%"requirements" ts0).1) rfl hm) (hn0 b)
  rw [h2n]
  simp only [optSection, pure_ok]
  split
  · exact e1
  rename_i r3 σ3 h3
  have e3 := (optSection_state (fun _ _ _ h => sectionConstants_types h) h3).trans e1
  split
  · exact e3
  rename_i r4 σ4 h4
  have e4 := (optSection_state (fun _ _ _ h => sectionPredicates_types h) h4).trans e3
  split
  · exact e4
  split
  · rw [structuresLeft_types]; exact e4
  · rfl

/-- If everything was read, the types are reset, whatever `Domain(...)` does. -/
theorem domainLeft_kwargs {ts : List Tree} {a : DomainArgs} {τ : PState} (h : domainKwargs F σ ts = .ok (a, τ)) :
    domainLeft F σ ts = { τ with types := none } := by
  unfold domainKwargs at h
  obtain ⟨⟨n, ts0⟩, hh, h⟩ := bind_ok_iff.1 h
  obtain ⟨⟨x1, σ1⟩, h1, h⟩ := bind_ok_iff.1 h
  obtain ⟨⟨x2, σ2⟩, h2, h⟩ := bind_ok_iff.1 h
  obtain ⟨⟨x3, σ3⟩, h3, h⟩ := bind_ok_iff.1 h
  obtain ⟨⟨x4, σ4⟩, h4, h⟩ := bind_ok_iff.1 h
  obtain ⟨x5, h5, h⟩ := bind_ok_iff.1 h
  obtain ⟨⟨x6, x7, σ6⟩, h6, h⟩ := bind_ok_iff.1 h
  simp only [pure_ok, Except.ok.injEq, Prod.mk.injEq] at h
  simp only [domainLeft, hh, h1, h2, h3, h4, h5, h6, ← h.2]

end Pddl
