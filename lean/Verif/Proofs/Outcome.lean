/-
What effects with choices can do, and what is read.
-/
import Verif.Spec.Outcome
import Verif.Proofs.EffectSem

namespace Pddl
open Spec

variable {D : Type} (I : Interp D) (lit : Str → Option Rat)

theorem outcomeSome_iff {as : List Expr} {ρ : Str → D} {C : Change D → Prop} :
    outcomeSome I as ρ C ↔ ∃ a ∈ as, outcome I a ρ C := by
  induction as with
  | nil => simp [outcomeSome]
  | cons a as ih => simp [outcomeSome, ih]

theorem treeOutcomeSome_iff {ts : List Tree} {ρ : Str → D} {C : Change D → Prop} :
    treeOutcomeSome I lit ts ρ C ↔ ∃ t ∈ ts, treeOutcome I lit t ρ C := by
  induction ts with
  | nil => simp [treeOutcomeSome]
  | cons a as ih => simp [treeOutcomeSome, ih]

theorem change_ext {A B : Change D → Prop} (h : ∀ c, A c ↔ B c) : A = B := funext fun c => propext (h c)

/-- What several effects can do together. -/
theorem outcomeAll_perm {as bs : List Expr} (h : as.Perm bs) {ρ : Str → D} {C : Change D → Prop}
    (ho : outcomeAll I as ρ C) : outcomeAll I bs ρ C := by
  induction h generalizing C with
  | nil => exact ho
  | cons a _ ih =>
    obtain ⟨A, B, h1, h2, h3⟩ := ho
    exact ⟨A, B, h1, ih h2, h3⟩
  | swap a b l =>
    obtain ⟨A, B, h1, ⟨A', B', h2, h3, h4⟩, h5⟩ := ho
    exact ⟨A', fun c => A c ∨ B' c, h2, ⟨A, B', h1, h3, fun c => Iff.rfl⟩, fun c => by rw [h5, h4]; tauto⟩
  | trans _ _ ih1 ih2 => exact ih2 (ih1 ho)

theorem outcomeAll_mem {as : List Expr} {ρ : Str → D} {C : Change D → Prop} (ho : outcomeAll I as ρ C) {a : Expr}
    (ha : a ∈ as) : ∃ A, outcome I a ρ A ∧ ∀ c, A c → C c := by
  induction as generalizing C with
  | nil => simp at ha
  | cons b as ih =>
    obtain ⟨A, B, h1, h2, h3⟩ := ho
    rcases List.mem_cons.1 ha with rfl | ha
    · exact ⟨A, h1, fun c h => (h3 c).2 (.inl h)⟩
    · obtain ⟨A', h4, h5⟩ := ih h2 ha
      exact ⟨A', h4, fun c h => (h3 c).2 (.inr (h5 c h))⟩

/-- Lists of effects that can do the same, one by one. -/
theorem outcomeAll_imp {as bs : List Expr} {ρ : Str → D}
    (h : List.Forall₂ (fun a b => ∀ A, outcome I a ρ A → outcome I b ρ A) as bs) {C : Change D → Prop}
    (ho : outcomeAll I as ρ C) : outcomeAll I bs ρ C := by
  induction h generalizing C with
  | nil => exact ho
  | cons h _ ih =>
    obtain ⟨A, B, h1, h2, h3⟩ := ho
    exact ⟨A, B, h _ h1, ih h2, h3⟩

theorem norms_forall2 {as bs : List Expr} (h : Expr.norms as = Expr.norms bs) :
    List.Forall₂ (fun a b : Expr => a.norm = b.norm) as bs := by
  induction as generalizing bs with
  | nil => cases bs <;> simp_all [Expr.norms]
  | cons a as ih =>
    cases bs with
    | nil => simp [Expr.norms] at h
    | cons b bs =>
      simp only [Expr.norms, List.cons.injEq] at h
      exact .cons h.1 (ih h.2)

/-- Equal effects can do the same. -/
theorem outcome_congr {a b : Expr} (h : a.norm = b.norm) {ρ : Str → D} {C : Change D → Prop} (ho : outcome I a ρ C) :
    outcome I b ρ C := by
  have hm : ∀ c, makes I c a ρ ↔ makes I c b ρ := fun c => makes_congr I c h ρ
  induction a using Expr.ind generalizing b ρ C with
  | hpred p => cases b <;> simp [Expr.norm] at h; simpa only [outcome, hm] using ho
  | heq l r => cases b <;> simp [Expr.norm] at h; simpa only [outcome, hm] using ho
  | hnfun f => cases b <;> simp [Expr.norm] at h; simpa only [outcome, hm] using ho
  | hnum n => cases b <;> simp [Expr.norm] at h <;> simpa only [outcome, hm] using ho
  | hbfun o as ih => cases b <;> simp [Expr.norm] at h; simpa only [outcome, hm] using ho
  | hbin o as ih =>
    cases b with
    | bin o' bs =>
      simp [Expr.norm] at h
      obtain ⟨rfl, h⟩ := h
      have h2 := norms_forall2 h
      have h3 : List.Forall₂ (fun a b => ∀ A, outcome I a ρ A → outcome I b ρ A) as bs := by
        have : ∀ a ∈ as, ∀ b : Expr, a.norm = b.norm → ∀ A, outcome I a ρ A → outcome I b ρ A :=
          fun a ha b h A ho => ih a ha h ho (fun c => makes_congr I c h ρ)
        clear ho hm ih h
        induction h2 with
        | nil => exact .nil
        | cons h _ ih' =>
          exact .cons (this _ (by simp) _ h) (ih' (fun a ha => this a (List.mem_cons_of_mem _ ha)))
      cases o with
      | and => simp only [outcome] at ho ⊢; exact outcomeAll_imp I h3 ho
      | oneof =>
        simp only [outcome, outcomeSome_iff] at ho ⊢
        obtain ⟨a, ha, ho⟩ := ho
        obtain ⟨b, hb, h⟩ := forall2_mem' h3 a ha
        exact ⟨b, hb, h _ ho⟩
      | or => simpa only [outcome, hm] using ho
      | imply => simpa only [outcome, hm] using ho
    | _ => simp [Expr.norm] at h
  | hnot a ih => cases b <;> simp [Expr.norm] at h; simpa only [outcome, hm] using ho
  | hquant q vs c ih => cases b <;> simp [Expr.norm] at h; simpa only [outcome, hm] using ho
  | hwhen c e _ ih =>
    cases b <;> simp [Expr.norm] at h
    simp only [outcome] at ho ⊢
    rw [← holds_congr_norm I h.1 ρ]
    rcases ho with ⟨h1, h2⟩ | h1
    · exact .inl ⟨h1, ih h.2 h2 (fun c => makes_congr I c h.2 ρ)⟩
    · exact .inr h1
  | hfall vs e ih =>
    cases b <;> simp [Expr.norm] at h
    simp only [outcome] at ho ⊢
    obtain ⟨S, h1, h2⟩ := ho
    simp only [rebind_congr I h.1] at h1 h2
    exact ⟨S, fun ρ' hr => ih h.2 (h1 ρ' hr) (fun c => makes_congr I c h.2 ρ'), h2⟩

theorem choicesFree_iff {as : List Expr} : choicesFree as ↔ ∀ a ∈ as, choiceFree a := by
  induction as with
  | nil => simp [choicesFree]
  | cons a as ih => simp [choicesFree, ih]

theorem choiceFree_congr {a b : Expr} (h : a.norm = b.norm) (ha : choiceFree a) : choiceFree b := by
  induction a using Expr.ind generalizing b with
  | hbin o as ih =>
    cases b with
    | bin o' bs =>
      simp [Expr.norm] at h
      obtain ⟨rfl, h⟩ := h
      cases o with
      | and =>
        simp only [choiceFree, choicesFree_iff] at ha ⊢
        intro b hb
        obtain ⟨a, hm, hab⟩ := forall2_mem (norms_forall2 h) b hb
        exact ih a hm hab (ha a hm)
      | oneof => simp [choiceFree] at ha
      | or => simp [choiceFree]
      | imply => simp [choiceFree]
    | _ => simp [Expr.norm] at h
  | hwhen c e _ ih =>
    cases b <;> simp [Expr.norm] at h
    simp only [choiceFree] at ha ⊢
    exact ih h.2 ha
  | hfall vs e ih =>
    cases b <;> simp [Expr.norm] at h
    simp only [choiceFree] at ha ⊢
    exact ih h.2 ha
  | _ => cases b <;> simp [Expr.norm] at h <;> simp [choiceFree]

/-- An effect without choices makes its changes. -/
theorem outcome_free {e : Expr} (h : choiceFree e) {ρ : Str → D} {C : Change D → Prop} :
    outcome I e ρ C ↔ ∀ c, C c ↔ makes I c e ρ := by
  induction e using Expr.ind generalizing ρ C with
  | hbin o as ih =>
    cases o with
    | and =>
      simp only [choiceFree, choicesFree_iff] at h
      simp only [outcome, makes]
      induction as generalizing C with
      | nil => simp [outcomeAll, makesSome]
      | cons a as ihl =>
        simp only [outcomeAll, makesSome]
        have ihl := fun B => ihl (C := B) (fun b hb => ih b (List.mem_cons_of_mem _ hb))
          (fun b hb => h b (List.mem_cons_of_mem _ hb))
        simp only [ihl, ih a (by simp) (h a (by simp))]
        constructor
        · rintro ⟨A, B, h1, h2, h3⟩ c
          rw [h3, h1, h2]
        · intro h'
          exact ⟨_, _, fun c => Iff.rfl, fun c => Iff.rfl, h'⟩
    | oneof => simp [choiceFree] at h
    | or => simp only [outcome]
    | imply => simp only [outcome]
  | hwhen cond e _ ih =>
    simp only [outcome, makes, ih h]
    by_cases hc : holds I cond ρ <;> simp [hc]
  | hfall vs e ih =>
    simp only [outcome, makes, ih h]
    constructor
    · rintro ⟨S, h1, h2⟩ c
      rw [h2]
      constructor
      · rintro ⟨ρ', hr, hs⟩; exact ⟨ρ', hr, (h1 ρ' hr c).1 hs⟩
      · rintro ⟨ρ', hr, hs⟩; exact ⟨ρ', hr, (h1 ρ' hr c).2 hs⟩
    · intro h'
      exact ⟨fun ρ' c => makes I c e ρ', fun ρ' _ c => Iff.rfl, h'⟩
  | _ => simp only [outcome]

/-! ### Repeated operands -/

/-- Leaving out repetitions makes some choices alike. -/
theorem outcomeAll_dedupAux {seen l : List Expr} {ρ : Str → D} {C : Change D → Prop}
    (h : outcomeAll I (seen ++ dedupAux Expr.pyEq seen l) ρ C) : outcomeAll I (seen ++ l) ρ C := by
  induction l generalizing seen with
  | nil => simpa [dedupAux] using h
  | cons x l ih =>
    rw [dedupAux] at h
    split at h
    · next hm =>
      obtain ⟨y, hy, e⟩ := memBy_iff.1 hm
      have h' := ih h
      obtain ⟨A, h1, h2⟩ := outcomeAll_mem I h' (List.mem_append_left l hy)
      refine outcomeAll_perm I (List.perm_middle.symm) ?_
      exact ⟨A, C, outcome_congr I ((Expr.pyEq_iff _ _).1 e).symm h1, h', fun c => by have := h2 c; tauto⟩
    · have := ih (seen := seen ++ [x]) (by simpa using h)
      simpa using this

theorem outcomeAll_dedup {l : List Expr} {ρ : Str → D} {C : Change D → Prop}
    (h : outcomeAll I (dedupBy Expr.pyEq l) ρ C) : outcomeAll I l ρ C :=
  outcomeAll_dedupAux I (seen := []) h

/-- No choice occurs twice. -/
def OnceEach (l : List Expr) : Prop := l.Pairwise (fun a b => a.pyEq b = true → choiceFree a)

theorem outcomeAll_to_dedupAux {seen l : List Expr} {ρ : Str → D} {C : Change D → Prop}
    (ho : OnceEach (seen ++ l)) (h : outcomeAll I (seen ++ l) ρ C) :
    outcomeAll I (seen ++ dedupAux Expr.pyEq seen l) ρ C := by
  induction l generalizing seen with
  | nil => simpa [dedupAux] using h
  | cons x l ih =>
    rw [dedupAux]
    split
    · next hm =>
      obtain ⟨y, hy, e⟩ := memBy_iff.1 hm
      have e := (Expr.pyEq_iff _ _).1 e
      have hyf : choiceFree y :=
        (List.pairwise_append.1 ho).2.2 y hy x (by simp) ((Expr.pyEq_iff _ _).2 e.symm)
      obtain ⟨A, B, h1, h2, h3⟩ := outcomeAll_perm I List.perm_middle h
      obtain ⟨A', h4, h5⟩ := outcomeAll_mem I h2 (List.mem_append_left l hy)
      have hxf := choiceFree_congr e.symm hyf
      rw [outcome_free I hxf] at h1
      rw [outcome_free I hyf] at h4
      have : C = B := change_ext fun c => by
        have := h5 c
        rw [h4, ← makes_congr I c e, ← h1] at this
        rw [h3]; tauto
      subst this
      refine ih ?_ h2
      exact ho.sublist (List.Sublist.append (List.Sublist.refl seen) (List.sublist_cons_self x l))
    · have := ih (seen := seen ++ [x]) (by simpa using ho) (by simpa using h)
      simpa using this

theorem outcomeAll_to_dedup {l : List Expr} {ρ : Str → D} {C : Change D → Prop} (ho : OnceEach l)
    (h : outcomeAll I l ρ C) : outcomeAll I (dedupBy Expr.pyEq l) ρ C :=
  outcomeAll_to_dedupAux I (seen := []) ho h

/-- `And(*l)` when no operand is a conjunction. -/
theorem mkAnd_flat {l : List Expr} (h : ∀ e ∈ l, ∀ bs, e ≠ .bin .and bs) :
    (∃ x, dedupBy Expr.pyEq l = [x] ∧ mkAnd l = x) ∨ mkAnd l = .bin .and (dedupBy Expr.pyEq l) := by
  have hs : simplOperands (.bop .and) l = dedupBy Expr.pyEq l := by
    by_cases h2 : 2 ≤ (dedupBy Expr.pyEq l).length
    · rw [simplOperands_loop (by simpa [Cls.idempotent] using h2)]
      simp only [Cls.idempotent, if_true]
      rw [flattenEs_flat, dedupBy_idem]
      intro e he
      have := h e (dedupBy_subset he)
      cases ho : e.operandsIf (.bop .and) with
      | none => rfl
      | some as => rw [ofCls_operandsIf] at ho; exact absurd ho (this as)
    · simp only [simplOperands, Cls.idempotent, if_true]
      match hd : dedupBy Expr.pyEq l, h2 with
      | [], _ => rfl
      | [x], _ => rfl
      | _ :: _ :: _, h => simp at h
  simp only [mkAnd, construct, Cls.isMeta, Cls.idempotent, if_true, hs]
  split
  · next x hx => exact .inl ⟨x, hx, rfl⟩
  · exact .inr rfl

theorem outcomeAll_singleton {x : Expr} {ρ : Str → D} {C : Change D → Prop} :
    outcomeAll I [x] ρ C ↔ outcome I x ρ C := by
  simp only [outcomeAll]
  constructor
  · rintro ⟨A, B, h1, h2, h3⟩
    have : C = A := change_ext fun c => by rw [h3]; have := h2 c; tauto
    rw [this]; exact h1
  · intro h
    exact ⟨C, fun _ => False, h, fun _ h => h, fun c => by simp⟩

theorem outcome_mkAnd_eq {l : List Expr} (h : ∀ e ∈ l, ∀ bs, e ≠ .bin .and bs) {ρ : Str → D} {C : Change D → Prop} :
    outcome I (mkAnd l) ρ C ↔ outcomeAll I (dedupBy Expr.pyEq l) ρ C := by
  rcases mkAnd_flat h with ⟨x, h1, h2⟩ | h1
  · rw [h1, h2, outcomeAll_singleton]
  · rw [h1]; simp only [outcome]

end Pddl
