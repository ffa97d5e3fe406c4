/-
Renaming variables: what formulas say.
-/
import Verif.Proofs.RenameVars
import Verif.Proofs.Declared
import Verif.Spec.Execute

namespace Pddl
open Spec

section
variable {D : Type} {I : Interp D}

/-! ### Only the free variables matter -/

theorem denote_agree {ν μ : Str → D} {ts : List Term} (h : ∀ v ∈ ts.flatMap varOf, ν v.name = μ v.name) :
    ts.map (denote I ν) = ts.map (denote I μ) := by
  apply List.map_congr_left
  intro t ht
  cases t with
  | const n tag => rfl
  | var v => exact h v (List.mem_flatMap.2 ⟨_, ht, by simp [varOf]⟩)

theorem value_agree {ν μ : Str → D} {e : Expr} (h : ∀ v ∈ freeVars e, ν v.name = μ v.name) :
    value I ν e = value I μ e := by
  induction e using Expr.ind with
  | hnfun f => simp only [value]; rw [denote_agree (by simpa [freeVars] using h)]
  | hbfun o as ih =>
    have : values I ν as = values I μ as := by
      simp only [freeVars, mem_freeVarsAll] at h
      clear o
      induction as with
      | nil => rfl
      | cons a as ihl =>
        simp only [values]
        rw [ih a (by simp) (fun v hv => h v ⟨a, by simp, hv⟩),
          ihl (fun x hx => ih x (List.mem_cons_of_mem _ hx)) (fun v ⟨x, hx, hv⟩ => h v ⟨x, List.mem_cons_of_mem _ hx, hv⟩)]
    simp only [value, this]
  | _ => rfl

theorem values_agree {ν μ : Str → D} {as : List Expr} (h : ∀ v ∈ freeVarsAll as, ν v.name = μ v.name) :
    values I ν as = values I μ as := by
  simp only [mem_freeVarsAll] at h
  induction as with
  | nil => rfl
  | cons a as ihl =>
    simp only [values]
    rw [value_agree (fun v hv => h v ⟨a, by simp, hv⟩),
      ihl (fun v ⟨x, hx, hv⟩ => h v ⟨x, List.mem_cons_of_mem _ hx, hv⟩)]

open Classical in
/-- The same values for the bound variables. -/
theorem rebind_agree {vs : List Var} {ν μ ν' : Str → D} {fv : List Var} (h : Rebind I vs ν ν')
    (ha : ∀ v ∈ fv.filter (fun v => decide (v.name ∉ vs.map Var.name)), ν v.name = μ v.name) :
    ∃ μ', Rebind I vs μ μ' ∧ ∀ v ∈ fv, ν' v.name = μ' v.name := by
  refine ⟨fun n => if n ∈ vs.map Var.name then ν' n else μ n, ⟨?_, ?_⟩, ?_⟩
  · intro n hn
    have : n ∉ vs.map Var.name := by
      intro hm
      obtain ⟨v, hv, e⟩ := List.mem_map.1 hm
      exact hn v hv e
    simp [this]
  · intro v hv
    have : v.name ∈ vs.map Var.name := List.mem_map_of_mem hv
    simp only [this, if_true]
    exact h.2 v hv
  · intro v hv
    by_cases hm : v.name ∈ vs.map Var.name
    · simp [hm]
    · simp only [hm, if_false]
      rw [← ha v (List.mem_filter.2 ⟨hv, by simpa using hm⟩)]
      exact h.1 _ (fun w hw e => hm (e ▸ List.mem_map_of_mem hw))

theorem holds_agree {ν μ : Str → D} {e : Expr} (h : ∀ v ∈ freeVars e, ν v.name = μ v.name) :
    holds I e ν ↔ holds I e μ := by
  induction e using Expr.ind generalizing ν μ with
  | hpred p => simp only [holds]; rw [denote_agree (by simpa [freeVars] using h)]
  | heq l r =>
    simp only [holds]
    have := denote_agree (I := I) (ts := [l, r]) (ν := ν) (μ := μ) (by simpa [freeVars] using h)
    simp only [List.map_cons, List.map_nil, List.cons.injEq, and_true] at this
    rw [this.1, this.2]
  | hbfun o as ih => simp only [holds]; rw [values_agree (by simpa [freeVars] using h)]
  | hbin o as ih =>
    have ih' : ∀ a ∈ as, (holds I a ν ↔ holds I a μ) := fun a ha => ih a ha (fun v hv => h v (by
      simp only [freeVars, mem_freeVarsAll]; exact ⟨a, ha, hv⟩))
    cases o with
    | and =>
      simp only [holds, holdsAll_iff]
      exact ⟨fun h a ha => (ih' a ha).1 (h a ha), fun h a ha => (ih' a ha).2 (h a ha)⟩
    | or =>
      simp only [holds, holdsSome_iff]
      exact ⟨fun ⟨a, ha, h⟩ => ⟨a, ha, (ih' a ha).1 h⟩, fun ⟨a, ha, h⟩ => ⟨a, ha, (ih' a ha).2 h⟩⟩
    | imply =>
      simp only [holds]
      match as with
      | [] => simp [holdsImply]
      | [_] => simp [holdsImply]
      | [a, b] => simp only [holdsImply, ih' a (by simp), ih' b (by simp)]
      | _ :: _ :: _ :: _ => simp [holdsImply]
    | oneof => simp [holds]
  | hnot a ih => simp only [holds, ih h]
  | hquant q vs c ih =>
    cases q with
    | all =>
      simp only [holds]
      constructor
      · intro H μ' hr
        obtain ⟨ν', hr', e⟩ := rebind_agree (fv := freeVars c) hr (fun v hv => (h v hv).symm)
        exact (ih e).2 (H ν' hr')
      · intro H ν' hr
        obtain ⟨μ', hr', e⟩ := rebind_agree (fv := freeVars c) hr h
        exact (ih e).2 (H μ' hr')
    | ex =>
      simp only [holds]
      constructor
      · rintro ⟨ν', hr, H⟩
        obtain ⟨μ', hr', e⟩ := rebind_agree (fv := freeVars c) hr h
        exact ⟨μ', hr', (ih e).1 H⟩
      · rintro ⟨μ', hr, H⟩
        obtain ⟨ν', hr', e⟩ := rebind_agree (fv := freeVars c) hr (fun v hv => (h v hv).symm)
        exact ⟨ν', hr', (ih e).1 H⟩
  | _ => simp [holds]

theorem makesSome_iff' {c : Change D} {as : List Expr} {ν : Str → D} : makesSome I c as ν ↔ ∃ a ∈ as, makes I c a ν := by
  induction as with
  | nil => simp [makesSome]
  | cons a as ih => simp [makesSome, ih]

theorem makes_agree {c : Change D} {ν μ : Str → D} {e : Expr} (h : ∀ v ∈ freeVars e, ν v.name = μ v.name) :
    makes I c e ν ↔ makes I c e μ := by
  induction e using Expr.ind generalizing ν μ with
  | hpred p => simp only [makes]; rw [denote_agree (by simpa [freeVars] using h)]
  | hbfun o as ih =>
    simp only [makes]
    match as with
    | [] => simp [updated]
    | [_] => simp [updated]
    | [a, e] =>
      cases a with
      | nfun f =>
        simp only [freeVars, freeVarsAll, List.mem_append, List.not_mem_nil, or_false] at h
        simp only [updated, value_agree (fun v hv => h v (.inr hv)), denote_agree (fun v hv => h v (.inl hv))]
      | _ => simp [updated]
    | _ :: _ :: _ :: _ => simp [updated]
  | hbin o as ih =>
    cases o with
    | and =>
      have ih' : ∀ a ∈ as, (makes I c a ν ↔ makes I c a μ) := fun a ha => ih a ha (fun v hv => h v (by
        simp only [freeVars, mem_freeVarsAll]; exact ⟨a, ha, hv⟩))
      simp only [makes, makesSome_iff']
      exact ⟨fun ⟨a, ha, h⟩ => ⟨a, ha, (ih' a ha).1 h⟩, fun ⟨a, ha, h⟩ => ⟨a, ha, (ih' a ha).2 h⟩⟩
    | _ => simp [makes]
  | hnot a ih =>
    simp only [makes]
    cases a with
    | pred p => simp only [deletes]; rw [denote_agree (by simpa [freeVars] using h)]
    | _ => simp [deletes]
  | hwhen a e iha ihe =>
    simp only [freeVars, List.mem_append] at h
    simp only [makes, holds_agree (fun v hv => h v (.inl hv)), ihe (fun v hv => h v (.inr hv))]
  | hfall vs e ih =>
    simp only [makes]
    constructor
    · rintro ⟨ν', hr, H⟩
      obtain ⟨μ', hr', e⟩ := rebind_agree (fv := freeVars e) hr h
      exact ⟨μ', hr', (ih e).1 H⟩
    · rintro ⟨μ', hr, H⟩
      obtain ⟨ν', hr', e⟩ := rebind_agree (fv := freeVars e) hr (fun v hv => (h v hv).symm)
      exact ⟨ν', hr', (ih e).1 H⟩
  | _ => simp [makes]

/-! ### Renaming -/

variable {ρ : Str → Str} {K : Str → Prop}

theorem exists_mem_map' {α β : Type} {f : α → β} {l : List α} {P : β → Prop} :
    (∃ b ∈ l.map f, P b) ↔ ∃ a ∈ l, P (f a) := by simp

theorem denote_renVar (ν : Str → D) (ts : List Term) :
    (ts.map (Term.renVar ρ)).map (denote I ν) = ts.map (denote I (ν ∘ ρ)) := by
  rw [List.map_map]
  apply List.map_congr_left
  intro t _
  cases t <;> rfl

theorem value_renVar (ν : Str → D) (e : Expr) : value I ν (e.renVar ρ) = value I (ν ∘ ρ) e := by
  induction e using Expr.ind with
  | hnfun f => simp only [Expr.renVar, value, NFun.renVar, denote_renVar]
  | hbfun o as ih =>
    have : values I ν (Expr.renVars ρ as) = values I (ν ∘ ρ) as := by
      clear o
      induction as with
      | nil => rfl
      | cons a as ihl =>
        simp only [Expr.renVars, values, ih a (by simp), ihl (fun x hx => ih x (List.mem_cons_of_mem _ hx))]
    simp only [Expr.renVar, value, this]
  | _ => simp [Expr.renVar, value]

theorem values_renVar (ν : Str → D) (as : List Expr) : values I ν (Expr.renVars ρ as) = values I (ν ∘ ρ) as := by
  induction as with
  | nil => rfl
  | cons a as ihl => simp only [Expr.renVars, values, value_renVar, ihl]

theorem rebind_renVar {vs : List Var} {ν ν' : Str → D} (hi : ∀ a b, ρ a = ρ b → a = b)
    (h : Rebind I (vs.map (Var.renVar ρ)) ν ν') : Rebind I vs (ν ∘ ρ) (ν' ∘ ρ) := by
  refine ⟨fun n hn => h.1 (ρ n) ?_, fun v hv => ?_⟩
  · intro v hv e
    obtain ⟨w, hw, rfl⟩ := List.mem_map.1 hv
    exact hn w hw (hi _ _ e)
  · exact h.2 (v.renVar ρ) (List.mem_map_of_mem hv)

open Classical in
theorem rebind_renVar_back {vs : List Var} {ν μ : Str → D} (hi : ∀ a b, ρ a = ρ b → a = b)
    (h : Rebind I vs (ν ∘ ρ) μ) : ∃ ν', Rebind I (vs.map (Var.renVar ρ)) ν ν' ∧ ν' ∘ ρ = μ := by
  have key : ∀ x, (if h : ∃ y, ρ y = ρ x then μ h.choose else ν (ρ x)) = μ x := by
    intro x
    have hx : ∃ y, ρ y = ρ x := ⟨x, rfl⟩
    rw [dif_pos hx, hi _ _ hx.choose_spec]
  refine ⟨fun n => if h : ∃ y, ρ y = n then μ h.choose else ν n, ⟨?_, ?_⟩, ?_⟩
  · intro n hn
    by_cases hx : ∃ y, ρ y = n
    · obtain ⟨x, rfl⟩ := hx
      show (if h : ∃ y, ρ y = ρ x then μ h.choose else ν (ρ x)) = _
      rw [key]
      exact h.1 x (fun v hv e => hn (v.renVar ρ) (List.mem_map_of_mem hv) (by rw [← e]; rfl))
    · simp only [hx, dif_neg, not_false_eq_true]
  · intro v hv
    obtain ⟨w, hw, rfl⟩ := List.mem_map.1 hv
    show InRange I _ (if h : ∃ y, ρ y = ρ w.name then μ h.choose else ν (ρ w.name))
    rw [key]
    exact h.2 w hw
  · funext x
    exact key x

theorem holds_renVar (hi : ∀ a b, ρ a = ρ b → a = b) (ν : Str → D) (e : Expr) :
    holds I (e.renVar ρ) ν ↔ holds I e (ν ∘ ρ) := by
  induction e using Expr.ind generalizing ν with
  | hpred p => simp only [Expr.renVar, holds, Pred.renVar, denote_renVar]
  | heq l r =>
    have := denote_renVar (I := I) (ρ := ρ) ν [l, r]
    simp only [List.map_cons, List.map_nil, List.cons.injEq, and_true] at this
    simp only [Expr.renVar, holds, this.1, this.2]
  | hbfun o as ih => simp only [Expr.renVar, holds, values_renVar]
  | hbin o as ih =>
    simp only [Expr.renVar, Expr.renVars_eq]
    cases o with
    | and =>
      simp only [holds, holdsAll_iff, List.forall_mem_map]
      exact ⟨fun h a ha => (ih a ha ν).1 (h a ha), fun h a ha => (ih a ha ν).2 (h a ha)⟩
    | or =>
      simp only [holds, holdsSome_iff, exists_mem_map']
      exact ⟨fun ⟨a, ha, h⟩ => ⟨a, ha, (ih a ha ν).1 h⟩, fun ⟨a, ha, h⟩ => ⟨a, ha, (ih a ha ν).2 h⟩⟩
    | imply =>
      simp only [holds]
      match as with
      | [] => simp [holdsImply]
      | [_] => simp [holdsImply]
      | [a, b] => simp only [List.map_cons, List.map_nil, holdsImply, ih a (by simp), ih b (by simp)]
      | _ :: _ :: _ :: _ => simp [holdsImply]
    | oneof => simp [holds]
  | hnot a ih => simp only [Expr.renVar, holds, ih]
  | hquant q vs c ih =>
    cases q with
    | all =>
      simp only [Expr.renVar, holds]
      constructor
      · intro H μ hr
        obtain ⟨ν', hr', rfl⟩ := rebind_renVar_back hi hr
        exact (ih ν').1 (H ν' hr')
      · intro H ν' hr
        exact (ih ν').2 (H _ (rebind_renVar hi hr))
    | ex =>
      simp only [Expr.renVar, holds]
      constructor
      · rintro ⟨ν', hr, H⟩
        exact ⟨_, rebind_renVar hi hr, (ih ν').1 H⟩
      · rintro ⟨μ, hr, H⟩
        obtain ⟨ν', hr', rfl⟩ := rebind_renVar_back hi hr
        exact ⟨ν', hr', (ih ν').2 H⟩
  | _ => simp [Expr.renVar, holds]

theorem makes_renVar (hi : ∀ a b, ρ a = ρ b → a = b) {c : Change D} (ν : Str → D) (e : Expr) :
    makes I c (e.renVar ρ) ν ↔ makes I c e (ν ∘ ρ) := by
  induction e using Expr.ind generalizing ν with
  | hpred p => simp only [Expr.renVar, makes, Pred.renVar, denote_renVar]
  | hbfun o as ih =>
    simp only [Expr.renVar, Expr.renVars_eq, makes]
    match as with
    | [] => simp [updated]
    | [_] => simp [updated]
    | [a, e] =>
      cases a with
      | nfun f => simp only [List.map_cons, List.map_nil, Expr.renVar, NFun.renVar, updated, value_renVar, denote_renVar]
      | _ => simp [updated, Expr.renVar]
    | _ :: _ :: _ :: _ => simp [updated]
  | hbin o as ih =>
    simp only [Expr.renVar, Expr.renVars_eq]
    cases o with
    | and =>
      simp only [makes, makesSome_iff', exists_mem_map']
      exact ⟨fun ⟨a, ha, h⟩ => ⟨a, ha, (ih a ha ν).1 h⟩, fun ⟨a, ha, h⟩ => ⟨a, ha, (ih a ha ν).2 h⟩⟩
    | _ => simp [makes]
  | hnot a ih =>
    simp only [Expr.renVar, makes]
    cases a with
    | pred p => simp only [Expr.renVar, Pred.renVar, deletes, denote_renVar]
    | _ => simp [deletes, Expr.renVar]
  | hwhen a e iha ihe => simp only [Expr.renVar, makes, holds_renVar hi, ihe]
  | hfall vs e ih =>
    simp only [Expr.renVar, makes]
    constructor
    · rintro ⟨ν', hr, H⟩
      exact ⟨_, rebind_renVar hi hr, (ih ν').1 H⟩
    · rintro ⟨μ, hr, H⟩
      obtain ⟨ν', hr', rfl⟩ := rebind_renVar_back hi hr
      exact ⟨ν', hr', (ih ν').2 H⟩
  | _ => simp [Expr.renVar, makes]

/-- What an action does with its variables renamed. -/
theorem acts_renVar (hi : ∀ a b, ρ a = ρ b → a = b) {ν : Str → D} {a : Action} {J : Interp D} :
    Acts ν (a.renVar ρ) I J ↔ Acts (ν ∘ ρ) a I J := by
  have h1 : ∀ e, (a.renVar ρ).pre = some e ↔ ∃ f, a.pre = some f ∧ e = f.renVar ρ := by
    intro e; simp [Action.renVar, eq_comm]
  have h2 : ∀ e, (a.renVar ρ).eff = some e ↔ ∃ f, a.eff = some f ∧ e = f.renVar ρ := by
    intro e; simp [Action.renVar, eq_comm]
  have h3 : (fun c => ∃ e, (a.renVar ρ).eff = some e ∧ makes I c e ν) = fun c => ∃ e, a.eff = some e ∧ makes I c e (ν ∘ ρ) := by
    funext c
    simp only [eq_iff_iff]
    constructor
    · rintro ⟨e, he, h⟩
      obtain ⟨f, hf, rfl⟩ := (h2 e).1 he
      exact ⟨f, hf, (makes_renVar hi ν f).1 h⟩
    · rintro ⟨f, hf, h⟩
      exact ⟨_, (h2 _).2 ⟨f, hf, rfl⟩, (makes_renVar hi ν f).2 h⟩
  unfold Acts
  rw [h3]
  refine and_congr_left (fun _ => ?_)
  constructor
  · intro h f hf
    exact (holds_renVar hi ν f).1 (h _ ((h1 _).2 ⟨f, hf, rfl⟩))
  · intro h e he
    obtain ⟨f, hf, rfl⟩ := (h1 e).1 he
    exact (holds_renVar hi ν f).2 (h f hf)

/-- A ground action without free variables does the same whatever variables stand for. -/
theorem acts_closed {ν μ : Str → D} {a : Action} {J : Interp D} (h : ∀ e, PartOf a e → freeVars e = []) :
    Acts ν a I J ↔ Acts μ a I J := by
  have h3 : (fun c => ∃ e, a.eff = some e ∧ makes I c e ν) = fun c => ∃ e, a.eff = some e ∧ makes I c e μ := by
    funext c
    simp only [eq_iff_iff]
    exact exists_congr (fun e => and_congr_right (fun he => makes_agree (by rw [h e (.inr he)]; simp)))
  unfold Acts
  rw [h3]
  exact and_congr_left (fun _ => forall_congr' (fun e => forall_congr' (fun he => holds_agree (by rw [h e (.inl he)]; simp))))
end
end Pddl
