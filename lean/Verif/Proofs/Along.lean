/-
What renamed conditions, effects, plans and problems mean.
-/
import Verif.Spec.Along
import Verif.Proofs.RenameExpr
import Verif.Proofs.RenameVarsSem

namespace Pddl
open Spec
section
variable {D : Type} {I : Interp D} {ρ : Str → Str}

theorem denote_along (ν : Str → D) (ts : List Term) :
    (ts.map (Term.rename ρ)).map (denote I ν) = ts.map (denote (I.along ρ) (ν ∘ ρ)) := by
  rw [List.map_map]
  apply List.map_congr_left
  intro t _
  cases t <;> rfl

theorem value_along (ν : Str → D) (e : Expr) : value I ν (e.rename ρ) = value (I.along ρ) (ν ∘ ρ) e := by
  induction e using Expr.ind with
  | hnfun f => simp only [Expr.rename, value, NFun.rename, denote_along]; rfl
  | hbfun o as ih =>
    have : values I ν (Expr.renames ρ as) = values (I.along ρ) (ν ∘ ρ) as := by
      clear o
      induction as with
      | nil => rfl
      | cons a as ihl =>
        simp only [Expr.renames, values, ih a (by simp), ihl (fun x hx => ih x (List.mem_cons_of_mem _ hx))]
    simp only [Expr.rename, value, this]
  | _ => simp [Expr.rename, value]

theorem values_along (ν : Str → D) (as : List Expr) : values I ν (Expr.renames ρ as) = values (I.along ρ) (ν ∘ ρ) as := by
  induction as with
  | nil => rfl
  | cons a as ihl => simp only [Expr.renames, values, value_along, ihl]

theorem inRange_along {v : Var} {d : D} : InRange I (v.rename ρ) d ↔ InRange (I.along ρ) v d := by
  simp [InRange, Var.rename, Interp.along]

theorem rebind_along {vs : List Var} {ν ν' : Str → D} (hi : ∀ a b, ρ a = ρ b → a = b)
    (h : Rebind I (vs.map (Var.rename ρ)) ν ν') : Rebind (I.along ρ) vs (ν ∘ ρ) (ν' ∘ ρ) := by
  refine ⟨fun n hn => h.1 (ρ n) ?_, fun v hv => ?_⟩
  · intro v hv e
    obtain ⟨w, hw, rfl⟩ := List.mem_map.1 hv
    exact hn w hw (hi _ _ e)
  · exact inRange_along.1 (h.2 (v.rename ρ) (List.mem_map_of_mem hv))

open Classical in
theorem rebind_along_back {vs : List Var} {ν μ : Str → D} (hi : ∀ a b, ρ a = ρ b → a = b)
    (h : Rebind (I.along ρ) vs (ν ∘ ρ) μ) : ∃ ν', Rebind I (vs.map (Var.rename ρ)) ν ν' ∧ ν' ∘ ρ = μ := by
  have key : ∀ x, (if h : ∃ y, ρ y = ρ x then μ h.choose else ν (ρ x)) = μ x := by
    intro x
    have hx : ∃ y, ρ y = ρ x := ⟨x, rfl⟩
    rw [dif_pos hx, hi _ _ hx.choose_spec]
  refine ⟨fun n => if h : ∃ y, ρ y = n then μ h.choose else ν n, ⟨?_, ?_⟩, ?_⟩
  · intro n hn
    by_cases hx : ∃ y, ρ y = n
    · obtain ⟨x, rfl⟩ := hx
      show (if h : ∃ y, ρ y = ρ x then μ h.choose else ν (ρ x)) = _
      rw [key]
      exact h.1 x (fun v hv e => hn (v.rename ρ) (List.mem_map_of_mem hv) (by rw [← e]; rfl))
    · simp only [hx, dif_neg, not_false_eq_true]
  · intro v hv
    obtain ⟨w, hw, rfl⟩ := List.mem_map.1 hv
    show InRange I _ (if h : ∃ y, ρ y = ρ w.name then μ h.choose else ν (ρ w.name))
    rw [key]
    exact inRange_along.2 (h.2 w hw)
  · funext x
    exact key x

theorem holds_along (hi : ∀ a b, ρ a = ρ b → a = b) (ν : Str → D) (e : Expr) :
    holds I (e.rename ρ) ν ↔ holds (I.along ρ) e (ν ∘ ρ) := by
  induction e using Expr.ind generalizing ν with
  | hpred p => simp only [Expr.rename, holds, Pred.rename, denote_along]; rfl
  | heq l r =>
    have := denote_along (I := I) (ρ := ρ) ν [l, r]
    simp only [List.map_cons, List.map_nil, List.cons.injEq, and_true] at this
    simp only [Expr.rename, holds, this.1, this.2]
  | hbfun o as ih => simp only [Expr.rename, holds, values_along]
  | hbin o as ih =>
    simp only [Expr.rename, Expr.renames_eq]
    cases o with
    | and =>
      simp only [holds, holdsAll_iff, List.forall_mem_map]
      exact ⟨fun h a ha => (ih a ha ν).1 (h a ha), fun h a ha => (ih a ha ν).2 (h a ha)⟩
    | or =>
      simp only [holds, holdsSome_iff, exists_mem_map']
      exact ⟨fun ⟨a, ha, h⟩ => ⟨a, ha, (ih a ha ν).1 h⟩, fun ⟨a, ha, h⟩ => ⟨a, ha, (ih a ha ν).2 h⟩⟩
    | imply =>
      simp only [holds]
      match as with
      | [] => simp [holdsImply]
      | [_] => simp [holdsImply]
      | [a, b] => simp only [List.map_cons, List.map_nil, holdsImply, ih a (by simp), ih b (by simp)]
      | _ :: _ :: _ :: _ => simp [holdsImply]
    | oneof => simp [holds]
  | hnot a ih => simp only [Expr.rename, holds, ih]
  | hquant q vs c ih =>
    cases q with
    | all =>
      simp only [Expr.rename, holds]
      constructor
      · intro H μ hr
        obtain ⟨ν', hr', rfl⟩ := rebind_along_back hi hr
        exact (ih ν').1 (H ν' hr')
      · intro H ν' hr
        exact (ih ν').2 (H _ (rebind_along hi hr))
    | ex =>
      simp only [Expr.rename, holds]
      constructor
      · rintro ⟨ν', hr, H⟩
        exact ⟨_, rebind_along hi hr, (ih ν').1 H⟩
      · rintro ⟨μ, hr, H⟩
        obtain ⟨ν', hr', rfl⟩ := rebind_along_back hi hr
        exact ⟨ν', hr', (ih ν').2 H⟩
  | _ => simp [Expr.rename, holds]

theorem Change.rename_inj (hi : ∀ a b, ρ a = ρ b → a = b) {c c' : Change D} (h : c.rename ρ = c'.rename ρ) : c = c' := by
  cases c <;> cases c' <;> simp only [Change.rename, Change.add.injEq, Change.del.injEq, Change.num.injEq, reduceCtorEq] at h
  · rw [hi _ _ h.1, h.2]
  · rw [hi _ _ h.1, h.2]
  · rw [h.1, hi _ _ h.2.1, h.2.2.1, h.2.2.2]

theorem makes_along (hi : ∀ a b, ρ a = ρ b → a = b) {c : Change D} (ν : Str → D) (e : Expr) :
    makes I c (e.rename ρ) ν ↔ ∃ c', c = c'.rename ρ ∧ makes (I.along ρ) c' e (ν ∘ ρ) := by
  induction e using Expr.ind generalizing ν with
  | hpred p =>
    simp only [Expr.rename, makes, Pred.rename, denote_along]
    exact ⟨fun h => ⟨.add p.name _, h, rfl⟩, fun ⟨c', h, h'⟩ => by rw [h, h']; rfl⟩
  | hbfun o as ih =>
    simp only [Expr.rename, Expr.renames_eq, makes]
    match as with
    | [] => simp [updated]
    | [_] => simp [updated]
    | [a, e] =>
      cases a with
      | nfun f =>
        simp only [List.map_cons, List.map_nil, Expr.rename, NFun.rename, updated, value_along, denote_along]
        constructor
        · rintro ⟨h1, v, h2, h3⟩
          exact ⟨.num o f.name _ v, h3, h1, v, h2, rfl⟩
        · rintro ⟨c', h, h1, v, h2, h3⟩
          exact ⟨h1, v, h2, by rw [h, h3]; rfl⟩
      | _ => simp [updated, Expr.rename]
    | _ :: _ :: _ :: _ => simp [updated]
  | hbin o as ih =>
    simp only [Expr.rename, Expr.renames_eq]
    cases o with
    | and =>
      simp only [makes, makesSome_iff', exists_mem_map']
      constructor
      · rintro ⟨a, ha, h⟩
        obtain ⟨c', h1, h2⟩ := (ih a ha ν).1 h
        exact ⟨c', h1, a, ha, h2⟩
      · rintro ⟨c', h1, a, ha, h2⟩
        exact ⟨a, ha, (ih a ha ν).2 ⟨c', h1, h2⟩⟩
    | _ => simp [makes]
  | hnot a ih =>
    simp only [Expr.rename, makes]
    cases a with
    | pred p =>
      simp only [Expr.rename, Pred.rename, deletes, denote_along]
      exact ⟨fun h => ⟨.del p.name _, h, rfl⟩, fun ⟨c', h, h'⟩ => by rw [h, h']; rfl⟩
    | _ => simp [deletes, Expr.rename]
  | hwhen a e iha ihe =>
    simp only [Expr.rename, makes, holds_along hi, ihe]
    exact ⟨fun ⟨h, c', h1, h2⟩ => ⟨c', h1, h, h2⟩, fun ⟨c', h1, h, h2⟩ => ⟨h, c', h1, h2⟩⟩
  | hfall vs e ih =>
    simp only [Expr.rename, makes]
    constructor
    · rintro ⟨ν', hr, H⟩
      obtain ⟨c', h1, h2⟩ := (ih ν').1 H
      exact ⟨c', h1, _, rebind_along hi hr, h2⟩
    · rintro ⟨c', h1, μ, hr, H⟩
      obtain ⟨ν', hr', rfl⟩ := rebind_along_back hi hr
      exact ⟨ν', hr', (ih ν').2 ⟨c', h1, H⟩⟩
  | _ => simp [Expr.rename, makes]

/-! ### Steps -/

/-- The changes made through a renaming. -/
def Through (ρ : Str → Str) (C : Change D → Prop) (c : Change D) : Prop := ∃ c', c = c'.rename ρ ∧ C c'

theorem through_rename (hi : ∀ a b, ρ a = ρ b → a = b) {C : Change D → Prop} {c : Change D} :
    Through ρ C (c.rename ρ) ↔ C c :=
  ⟨fun ⟨_, h, h'⟩ => Change.rename_inj hi h ▸ h', fun h => ⟨c, rfl, h⟩⟩

theorem through_add {C : Change D → Prop} {p : Str} {ds : List D} (h : Through ρ C (.add p ds)) : ∃ q, ρ q = p := by
  obtain ⟨c', h, _⟩ := h
  cases c' <;> simp only [Change.rename, Change.add.injEq, reduceCtorEq] at h
  exact ⟨_, h.1.symm⟩

theorem through_del {C : Change D → Prop} {p : Str} {ds : List D} (h : Through ρ C (.del p ds)) : ∃ q, ρ q = p := by
  obtain ⟨c', h, _⟩ := h
  cases c' <;> simp only [Change.rename, Change.del.injEq, reduceCtorEq] at h
  exact ⟨_, h.1.symm⟩

theorem through_num {C : Change D → Prop} {o : FOp} {p : Str} {ds : List D} {v : Rat} (h : Through ρ C (.num o p ds v)) :
    ∃ q, ρ q = p := by
  obtain ⟨c', h, _⟩ := h
  cases c' <;> simp only [Change.rename, Change.num.injEq, reduceCtorEq] at h
  exact ⟨_, h.2.1.symm⟩

theorem next_along (hi : ∀ a b, ρ a = ρ b → a = b) {C : Change D → Prop} {J : Interp D} (h : Next (Through ρ C) I J) :
    Next C (I.along ρ) (J.along ρ) := by
  have e1 : ∀ p ds, Through ρ C (.add (ρ p) ds) ↔ C (.add p ds) := fun p ds => through_rename (c := .add p ds) hi
  have e2 : ∀ p ds, Through ρ C (.del (ρ p) ds) ↔ C (.del p ds) := fun p ds => through_rename (c := .del p ds) hi
  have e3 : ∀ o f ds v, Through ρ C (.num o (ρ f) ds v) ↔ C (.num o f ds v) :=
    fun o f ds v => through_rename (c := .num o f ds v) hi
  refine ⟨?_, ?_, fun p ds => ?_, fun f ds hn => ?_, fun f ds op v hc hu => ?_⟩
  · simp only [Interp.along, h.const]
  · simp only [Interp.along, h.ty]
  · rw [← e1, ← e2]; exact h.pred (ρ p) ds
  · exact h.same (ρ f) ds (fun op v hc => hn op v ((e3 op f ds v).1 hc))
  · exact h.updated (ρ f) ds op v ((e3 _ _ _ _).2 hc) (fun op' v' hc' => hu op' v' ((e3 _ _ _ _).1 hc'))

open Classical in
theorem next_along_back (hi : ∀ a b, ρ a = ρ b → a = b) {C : Change D → Prop} {J' : Interp D}
    (h : Next C (I.along ρ) J') : ∃ J, Next (Through ρ C) I J ∧ J.along ρ = J' := by
  have e1 : ∀ p ds, Through ρ C (.add (ρ p) ds) ↔ C (.add p ds) := fun p ds => through_rename (c := .add p ds) hi
  have e2 : ∀ p ds, Through ρ C (.del (ρ p) ds) ↔ C (.del p ds) := fun p ds => through_rename (c := .del p ds) hi
  have e3 : ∀ o f ds v, Through ρ C (.num o (ρ f) ds v) ↔ C (.num o f ds v) :=
    fun o f ds v => through_rename (c := .num o f ds v) hi
  have kp : ∀ x, (if h : ∃ y, ρ y = ρ x then J'.pred h.choose else I.pred (ρ x)) = J'.pred x := by
    intro x
    have hx : ∃ y, ρ y = ρ x := ⟨x, rfl⟩
    rw [dif_pos hx, hi _ _ hx.choose_spec]
  have kf : ∀ x, (if h : ∃ y, ρ y = ρ x then J'.fn h.choose else I.fn (ρ x)) = J'.fn x := by
    intro x
    have hx : ∃ y, ρ y = ρ x := ⟨x, rfl⟩
    rw [dif_pos hx, hi _ _ hx.choose_spec]
  refine ⟨⟨I.const, I.ty, fun p => if h : ∃ y, ρ y = p then J'.pred h.choose else I.pred p,
    fun p => if h : ∃ y, ρ y = p then J'.fn h.choose else I.fn p⟩, ⟨rfl, rfl, fun p ds => ?_, fun f ds hn => ?_,
    fun f ds op v hc hu => ?_⟩, ?_⟩
  · by_cases hx : ∃ y, ρ y = p
    · obtain ⟨x, rfl⟩ := hx
      show (if h : ∃ y, ρ y = ρ x then J'.pred h.choose else I.pred (ρ x)) ds ↔ _
      rw [kp, e1, e2]
      exact h.pred x ds
    · simp only [hx, dif_neg, not_false_eq_true]
      exact ⟨fun h => .inr ⟨h, fun hd => hx (through_del hd)⟩, fun h => h.elim (fun ha => absurd (through_add ha) hx) And.left⟩
  · by_cases hx : ∃ y, ρ y = f
    · obtain ⟨x, rfl⟩ := hx
      show (if h : ∃ y, ρ y = ρ x then J'.fn h.choose else I.fn (ρ x)) ds = _
      rw [kf]
      exact h.same x ds (fun op v hc => hn op v ((e3 _ _ _ _).2 hc))
    · simp only [hx, dif_neg, not_false_eq_true]
  · obtain ⟨x, rfl⟩ := through_num hc
    show (if h : ∃ y, ρ y = ρ x then J'.fn h.choose else I.fn (ρ x)) ds = _
    rw [kf]
    exact h.updated x ds op v ((e3 _ _ _ _).1 hc) (fun op' v' hc' => hu op' v' ((e3 _ _ _ _).2 hc'))
  · have hc := h.const
    have ht := h.ty
    cases J' with
    | mk c t p f =>
      simp only at hc ht
      subst hc ht
      simp only [Interp.along, Interp.mk.injEq, true_and]
      exact ⟨funext kp, funext kf⟩

theorem changes_along (hi : ∀ a b, ρ a = ρ b → a = b) {ν : Str → D} {a : Action} :
    (fun c => ∃ e, (a.rename ρ).eff = some e ∧ makes I c e ν) =
      Through ρ (fun c => ∃ e, a.eff = some e ∧ makes (I.along ρ) c e (ν ∘ ρ)) := by
  funext c
  simp only [eq_iff_iff, Through]
  constructor
  · rintro ⟨e, he, h⟩
    simp only [Action.rename, Option.map_eq_some_iff] at he
    obtain ⟨f, hf, rfl⟩ := he
    obtain ⟨c', h1, h2⟩ := (makes_along hi ν f).1 h
    exact ⟨c', h1, f, hf, h2⟩
  · rintro ⟨c', h1, f, hf, h2⟩
    exact ⟨f.rename ρ, by simp [Action.rename, hf], (makes_along hi ν f).2 ⟨c', h1, h2⟩⟩

theorem pre_along (hi : ∀ a b, ρ a = ρ b → a = b) {ν : Str → D} {a : Action} :
    (∀ e, (a.rename ρ).pre = some e → holds I e ν) ↔ ∀ e, a.pre = some e → holds (I.along ρ) e (ν ∘ ρ) := by
  constructor
  · intro h f hf
    exact (holds_along hi ν f).1 (h _ (by simp [Action.rename, hf]))
  · intro h e he
    simp only [Action.rename, Option.map_eq_some_iff] at he
    obtain ⟨f, hf, rfl⟩ := he
    exact (holds_along hi ν f).2 (h f hf)

theorem acts_along (hi : ∀ a b, ρ a = ρ b → a = b) {ν : Str → D} {a : Action} {J : Interp D}
    (h : Acts ν (a.rename ρ) I J) : Acts (ν ∘ ρ) a (I.along ρ) (J.along ρ) := by
  refine ⟨(pre_along hi).1 h.1, next_along hi ?_⟩
  rw [← changes_along hi]
  exact h.2

theorem acts_along_back (hi : ∀ a b, ρ a = ρ b → a = b) {ν : Str → D} {a : Action} {J' : Interp D}
    (h : Acts (ν ∘ ρ) a (I.along ρ) J') : ∃ J, Acts ν (a.rename ρ) I J ∧ J.along ρ = J' := by
  obtain ⟨J, h1, h2⟩ := next_along_back hi h.2
  refine ⟨J, ⟨(pre_along hi).2 h.1, ?_⟩, h2⟩
  rw [changes_along hi]
  exact h1
end

section
variable {D : Type} {ρ : Str → Str}

theorem runs_along (hi : ∀ a b, ρ a = ρ b → a = b) {ν : Str → D} {gs : List Action} {I J : Interp D}
    (h : Runs ν (gs.map (Action.rename ρ)) I J) : Runs (ν ∘ ρ) gs (I.along ρ) (J.along ρ) := by
  induction gs generalizing I with
  | nil => cases h; exact .nil
  | cons g gs ih =>
    rw [List.map_cons] at h
    cases h with
    | cons h1 h2 => exact .cons (acts_along hi h1) (ih h2)

theorem runs_along_back (hi : ∀ a b, ρ a = ρ b → a = b) {ν : Str → D} {gs : List Action} {I J' : Interp D}
    (h : Runs (ν ∘ ρ) gs (I.along ρ) J') : ∃ J, Runs ν (gs.map (Action.rename ρ)) I J ∧ J.along ρ = J' := by
  induction gs generalizing I with
  | nil => cases h; exact ⟨I, .nil, rfl⟩
  | cons g gs ih =>
    cases h with
    | cons h1 h2 =>
      obtain ⟨K, k1, rfl⟩ := acts_along_back hi h1
      obtain ⟨J, j1, j2⟩ := ih h2
      exact ⟨J, .cons k1 j1, j2⟩

/-! ### Starts -/

theorem rename_pred_iff {e : Expr} {n : Str} {ts : List Term} :
    e.rename ρ = .pred ⟨n, ts⟩ ↔ ∃ m us, e = .pred ⟨m, us⟩ ∧ ρ m = n ∧ us.map (Term.rename ρ) = ts := by
  cases e with
  | pred p =>
    obtain ⟨m, us⟩ := p
    simp [Expr.rename, Pred.rename]
  | _ => simp [Expr.rename]

theorem rename_notPred_iff {e : Expr} {p : Pred} :
    e.rename ρ = .not (.pred p) ↔ ∃ q : Pred, e = .not (.pred q) ∧ q.rename ρ = p := by
  cases e with
  | not a =>
    cases a with
    | pred q => simp [Expr.rename]
    | _ => simp [Expr.rename]
  | _ => simp [Expr.rename]

theorem rename_value_iff {e : Expr} {f : NFun} {v : Num} :
    e.rename ρ = .bfun .eq [.nfun f, .num v] ↔ ∃ g : NFun, e = .bfun .eq [.nfun g, .num v] ∧ g.rename ρ = f := by
  constructor
  · intro h
    match e with
    | .bfun o [a, b] =>
      simp only [Expr.rename, Expr.renames, Expr.bfun.injEq, List.cons.injEq, and_true] at h
      obtain ⟨rfl, h1, h2⟩ := h
      cases a <;> simp only [Expr.rename, Expr.nfun.injEq, reduceCtorEq] at h1
      cases b <;> simp only [Expr.rename, Expr.num.injEq, reduceCtorEq] at h2
      subst h2
      exact ⟨_, rfl, h1⟩
    | .bfun o [] => simp [Expr.rename, Expr.renames] at h
    | .bfun o [_] => simp [Expr.rename, Expr.renames] at h
    | .bfun o (_ :: _ :: _ :: _) => simp [Expr.rename, Expr.renames] at h
    | .pred _ | .eq _ _ | .nfun _ | .num _ | .bin _ _ | .not _ | .quant _ _ _ | .when _ _ | .fall _ _ =>
      simp [Expr.rename] at h
  · rintro ⟨g, rfl, rfl⟩
    rfl

theorem starts_along (hi : ∀ a b, ρ a = ρ b → a = b) {ν : Str → D} {init : List Expr} {I : Interp D}
    (h : StartsIn ν (init.map (Expr.rename ρ)) I) : StartsIn (ν ∘ ρ) init (I.along ρ) := by
  refine ⟨fun n ds => ?_, fun p hp => ?_, fun f v hf => ?_, fun n ds hn => ?_⟩
  · refine (h.pred (ρ n) ds).trans ⟨?_, ?_⟩
    · rintro ⟨ts, hm, rfl⟩
      obtain ⟨e, he, e'⟩ := List.mem_map.1 hm
      obtain ⟨m, us, rfl, hm', rfl⟩ := rename_pred_iff.1 e'
      cases hi _ _ hm'
      exact ⟨us, he, denote_along ν us⟩
    · rintro ⟨ts, hm, rfl⟩
      exact ⟨ts.map (Term.rename ρ), List.mem_map.2 ⟨_, hm, rfl⟩, (denote_along ν ts).symm⟩
  · have := h.not (p.rename ρ) (List.mem_map.2 ⟨_, hp, rfl⟩)
    simp only [Pred.rename, denote_along] at this
    exact this
  · have := h.value (f.rename ρ) v (List.mem_map.2 ⟨_, hf, rfl⟩)
    simp only [NFun.rename, denote_along] at this
    exact this
  · obtain ⟨ts, v, hm, rfl⟩ := h.other (ρ n) ds hn
    obtain ⟨e, he, e'⟩ := List.mem_map.1 hm
    obtain ⟨⟨m, us⟩, rfl, hg⟩ := rename_value_iff.1 e'
    simp only [NFun.rename, NFun.mk.injEq] at hg
    obtain ⟨hm', rfl⟩ := hg
    cases hi _ _ hm'
    exact ⟨us, v, he, denote_along ν us⟩

open Classical in
/-- Every state is another one seen through the renaming, in which nothing is the case for the names that the renaming does not
give. -/
theorem along_exists (hi : ∀ a b, ρ a = ρ b → a = b) (ν : Str → D) (I' : Interp D) : ∃ I : Interp D, I.along ρ = I' ∧
    (∀ p ds, I.pred p ds → ∃ q, ρ q = p) ∧ ∀ f ds, I.fn f ds ≠ none → ∃ q, ρ q = f := by
  refine ⟨⟨fun n => if h : ∃ y, ρ y = n then I'.const h.choose else ν n,
    fun n d => if h : ∃ y, ρ y = n then I'.ty h.choose d else False,
    fun n d => if h : ∃ y, ρ y = n then I'.pred h.choose d else False,
    fun n d => if h : ∃ y, ρ y = n then I'.fn h.choose d else none⟩, ?_, ?_, ?_⟩
  · have hc : ∀ x (h : ∃ y, ρ y = ρ x), h.choose = x := fun x h => hi _ _ h.choose_spec
    have hx : ∀ x, ∃ y, ρ y = ρ x := fun x => ⟨x, rfl⟩
    cases I' with
    | mk c t p f =>
      simp only [Interp.along, Interp.mk.injEq]
      refine ⟨funext fun x => ?_, funext fun x => funext fun d => ?_, funext fun x => funext fun d => ?_,
        funext fun x => funext fun d => ?_⟩ <;> rw [dif_pos (hx x), hc]
  · intro p ds h
    by_contra hx
    simp only [hx, dif_neg, not_false_eq_true] at h
  · intro p ds h
    by_contra hx
    simp only [hx, dif_neg, not_false_eq_true, ne_eq, not_true_eq_false] at h

theorem starts_along_back {ν : Str → D} {init : List Expr} {I : Interp D}
    (hp : ∀ p ds, I.pred p ds → ∃ q, ρ q = p) (hf : ∀ f ds, I.fn f ds ≠ none → ∃ q, ρ q = f)
    (h : StartsIn (ν ∘ ρ) init (I.along ρ)) : StartsIn ν (init.map (Expr.rename ρ)) I := by
  refine ⟨fun n ds => ⟨?_, ?_⟩, fun p hm => ?_, fun f v hm => ?_, fun n ds hn => ?_⟩
  · intro hI
    obtain ⟨q, rfl⟩ := hp _ _ hI
    obtain ⟨ts, hm, rfl⟩ := (h.pred q ds).1 hI
    exact ⟨ts.map (Term.rename ρ), List.mem_map.2 ⟨_, hm, rfl⟩, (denote_along ν ts).symm⟩
  · rintro ⟨ts, hm, rfl⟩
    obtain ⟨e, he, e'⟩ := List.mem_map.1 hm
    obtain ⟨m, us, rfl, rfl, rfl⟩ := rename_pred_iff.1 e'
    rw [denote_along]
    exact (h.pred m _).2 ⟨us, he, rfl⟩
  · obtain ⟨e, he, e'⟩ := List.mem_map.1 hm
    obtain ⟨q, rfl, rfl⟩ := rename_notPred_iff.1 e'
    have := h.not q he
    simp only [Pred.rename, denote_along]
    exact this
  · obtain ⟨e, he, e'⟩ := List.mem_map.1 hm
    obtain ⟨g, rfl, rfl⟩ := rename_value_iff.1 e'
    have := h.value g v he
    simp only [NFun.rename, denote_along]
    exact this
  · obtain ⟨q, rfl⟩ := hf _ _ hn
    obtain ⟨ts, v, hm, rfl⟩ := h.other q ds hn
    exact ⟨ts.map (Term.rename ρ), v, List.mem_map.2 ⟨_, hm, rfl⟩, (denote_along ν ts).symm⟩

theorem solves_along (hi : ∀ a b, ρ a = ρ b → a = b) {ν : Str → D} {p : Problem} {gs : List Action} {I : Interp D}
    (h : Solves ν (p.rename ρ) (gs.map (Action.rename ρ)) I) : Solves (ν ∘ ρ) p gs (I.along ρ) := by
  obtain ⟨hs, J, hr, hg⟩ := h
  exact ⟨starts_along hi hs, _, runs_along hi hr, (holds_along hi ν _).1 hg⟩

theorem solves_along_of (hi : ∀ a b, ρ a = ρ b → a = b) {ν : Str → D} {p : Problem} {gs : List Action} {I : Interp D}
    (hs : StartsIn ν (p.rename ρ).init I) (h : Solves (ν ∘ ρ) p gs (I.along ρ)) :
    Solves ν (p.rename ρ) (gs.map (Action.rename ρ)) I := by
  obtain ⟨_, J', hr, hg⟩ := h
  obtain ⟨J, hr', rfl⟩ := runs_along_back hi hr
  exact ⟨hs, J, hr', (holds_along hi ν _).2 hg⟩

theorem solves_along_back (hi : ∀ a b, ρ a = ρ b → a = b) {ν : Str → D} {p : Problem} {gs : List Action} {I' : Interp D}
    (h : Solves (ν ∘ ρ) p gs I') : ∃ I, I.along ρ = I' ∧ Solves ν (p.rename ρ) (gs.map (Action.rename ρ)) I := by
  obtain ⟨I, rfl, h1, h2⟩ := along_exists hi ν I'
  exact ⟨I, rfl, solves_along_of hi (starts_along_back h1 h2 h.1) h⟩
end
end Pddl
