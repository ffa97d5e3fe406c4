/-
Ground actions that do not get in each other's way can change places.
-/
import Verif.Spec.Interfere
import Verif.Proofs.Swap

namespace Pddl
open Spec

variable {D : Type} {I I' : Interp D}

/-! ### What an expression sees of a state -/

/-- Objects that the terms may stand for. -/
def Stands (I : Interp D) (ts : List Term) (ds : List D) : Prop :=
  List.Forall₂ (fun t d => ∀ n x, t = .const n x → d = I.const n) ts ds

theorem stands_denote (ts : List Term) (ρ : Str → D) : Stands I ts (ts.map (denote I ρ)) := by
  unfold Stands
  induction ts with
  | nil => exact .nil
  | cons t ts ih => exact .cons (by rintro n x rfl; rfl) ih

theorem stands_meet (hu : UniqueNames I) {ts us : List Term} {ds : List D} (h : Stands I ts ds) (h' : Stands I us ds) : MayMeet ts us := by
  unfold MayMeet
  unfold Stands at h h'
  induction h generalizing us with
  | nil => cases h'; exact .nil
  | cons h1 _ ih =>
    cases h' with
    | cons h2 h3 =>
      refine .cons ?_ (ih h3)
      intro n m x y e1 e2
      exact hu n m ((h1 n x e1).symm.trans (h2 m y e2))

/-- The states agree on the atoms and fluents of the two lists. -/
structure AgreeAt (P : Pred → Prop) (Q : NFun → Prop) (I I' : Interp D) : Prop where
  const : I'.const = I.const
  ty : I'.ty = I.ty
  pred : ∀ p, P p → ∀ ds, Stands I p.terms ds → (I'.pred p.name ds ↔ I.pred p.name ds)
  fn : ∀ f, Q f → ∀ ds, Stands I f.terms ds → I'.fn f.name ds = I.fn f.name ds

theorem AgreeAt.sub {P P' : Pred → Prop} {Q Q' : NFun → Prop} (h : AgreeAt P Q I I') (hP : ∀ p, P' p → P p) (hQ : ∀ f, Q' f → Q f) :
    AgreeAt P' Q' I I' :=
  ⟨h.const, h.ty, fun p hp => h.pred p (hP p hp), fun f hf => h.fn f (hQ f hf)⟩

theorem value_at {P : Pred → Prop} {e : Expr} (h : AgreeAt P (· ∈ funsIn e) I I') (ρ : Str → D) : value I' ρ e = value I ρ e := by
  induction e using Expr.ind with
  | hnfun f => simp only [value, denote_same h.const, h.fn f (by simp [funsIn]) _ (stands_denote _ _)]
  | hbfun o as ih =>
    have : ∀ l : List Expr, (∀ a ∈ l, value I' ρ a = value I ρ a) → values I' ρ l = values I ρ l := by
      intro l hl
      induction l with
      | nil => rfl
      | cons a l ih => simp only [values, hl a (by simp), ih (fun x hx => hl x (List.mem_cons_of_mem _ hx))]
    simp only [value, this as (fun a ha => ih a ha (h.sub (fun _ hp => hp) (fun f hf => mem_funsInAll.2 ⟨a, ha, hf⟩)))]
  | _ => simp only [value]

theorem values_at {P : Pred → Prop} {as : List Expr} (h : AgreeAt P (· ∈ funsInAll as) I I') (ρ : Str → D) : values I' ρ as = values I ρ as := by
  induction as with
  | nil => rfl
  | cons a as ih =>
    simp only [values, value_at (e := a) (h.sub (fun _ hp => hp) (fun f hf => by simp [funsInAll, hf])) ρ,
      ih (h.sub (fun _ hp => hp) (fun f hf => by simp [funsInAll, hf]))]

theorem holds_at {e : Expr} (h : AgreeAt (· ∈ predsIn e) (· ∈ funsIn e) I I') (ρ : Str → D) : holds I' e ρ ↔ holds I e ρ := by
  induction e using Expr.ind generalizing ρ with
  | hpred p => simp only [holds, denote_same h.const, h.pred p (by simp [predsIn]) _ (stands_denote _ _)]
  | heq l r => simp only [holds, denote_same h.const]
  | hnfun f => rfl
  | hnum _ => rfl
  | hbfun o as ih =>
    simp only [holds]
    rw [values_at (P := fun _ => False) (h.sub (fun _ hp => hp.elim) (fun f hf => hf))]
  | hbin o as ih =>
    have key : ∀ a ∈ as, (holds I' a ρ ↔ holds I a ρ) := fun a ha =>
      ih a ha (h.sub (fun p hp => mem_predsInAll.2 ⟨a, ha, hp⟩) (fun f hf => mem_funsInAll.2 ⟨a, ha, hf⟩)) ρ
    cases o with
    | and => simp only [holds, holdsAll_iff]; exact forall₂_congr key
    | or => simp only [holds, holdsSome_iff]; exact exists_congr fun a => and_congr_right fun ha => key a ha
    | imply =>
      simp only [holds]
      match as, key with
      | [], _ => rfl
      | [_], _ => rfl
      | [a, b], key => simp only [holdsImply, key a (by simp), key b (by simp)]
      | _ :: _ :: _ :: _, _ => rfl
    | oneof => rfl
  | hnot a ih => simp only [holds]; exact not_congr (ih h ρ)
  | hquant q vs c ih =>
    have key := ih h
    cases q with
    | all => simp only [holds, rebind_same h.ty, key]
    | ex => simp only [holds, rebind_same h.ty, key]
  | hwhen c e _ _ => rfl
  | hfall vs e _ => rfl

theorem makes_at {e : Expr} (h : AgreeAt (AsksPred e) (AsksFun e) I I') (c : Change D) (ρ : Str → D) : makes I' c e ρ ↔ makes I c e ρ := by
  have hs : ∀ (as : List Expr) (ρ : Str → D), (∀ a ∈ as, makes I' c a ρ ↔ makes I c a ρ) → (makesSome I' c as ρ ↔ makesSome I c as ρ) := by
    intro as ρ h
    induction as with
    | nil => rfl
    | cons a as ih => simp only [makesSome, h a (by simp), ih (fun x hx => h x (List.mem_cons_of_mem _ hx))]
  induction e using Expr.ind generalizing ρ with
  | hpred p => simp only [makes, denote_same h.const]
  | hbfun o as ih =>
    simp only [makes]
    unfold updated
    split
    · rename_i f x
      rw [denote_same h.const, value_at (P := fun _ => False) (e := x) (h.sub (fun _ hp => hp.elim) (fun f hf => .num hf))]
    · rfl
  | hbin o as ih =>
    cases o <;> simp only [makes]
    exact hs as ρ (fun a ha => ih a ha (h.sub (fun _ => .part ha) (fun _ => .part ha)) ρ)
  | hnot a ih => simp only [makes]; unfold deletes; split <;> simp only [denote_same h.const]
  | hwhen c e _ ih =>
    simp only [makes, ih (h.sub (fun _ => .when) (fun _ => .when)) ρ, holds_at (h.sub (fun _ => .cond) (fun _ => .cond)) ρ]
  | hfall vs e ih => simp only [makes, rebind_same h.ty, ih (h.sub (fun _ => .fall) (fun _ => .fall))]
  | _ => simp only [makes]

/-! ### What an effect changes -/

/-- The change is one of those that are possible for what is written. -/
def Is (I : Interp D) : Touch → Change D → Prop
  | .add p, .add n ds => p.name = n ∧ Stands I p.terms ds
  | .del p, .del n ds => p.name = n ∧ Stands I p.terms ds
  | .num o f, .num o' n ds _ => o = o' ∧ f.name = n ∧ Stands I f.terms ds
  | _, _ => False

theorem makes_changes {e : Expr} {c : Change D} {ρ : Str → D} (h : makes I c e ρ) : ∃ t, Changes e t ∧ Is I t c := by
  have hs : ∀ (as : List Expr) (ρ : Str → D), makesSome I c as ρ → ∃ a ∈ as, makes I c a ρ := by
    intro as ρ h
    induction as with
    | nil => simp [makesSome] at h
    | cons a as ih =>
      rcases h with h | h
      · exact ⟨a, by simp, h⟩
      · obtain ⟨b, hb, h⟩ := ih h; exact ⟨b, List.mem_cons_of_mem _ hb, h⟩
  induction e using Expr.ind generalizing ρ with
  | hpred p => simp only [makes] at h; subst h; exact ⟨_, .add, rfl, stands_denote _ _⟩
  | hbfun o as ih =>
    simp only [makes] at h
    unfold updated at h
    split at h
    · obtain ⟨hu, v, _, rfl⟩ := h
      exact ⟨_, .num hu, rfl, rfl, stands_denote _ _⟩
    · exact h.elim
  | hbin o as ih =>
    cases o <;> simp only [makes] at h
    obtain ⟨a, ha, h⟩ := hs _ _ h
    obtain ⟨t, h1, h2⟩ := ih a ha h
    exact ⟨t, .part ha h1, h2⟩
  | hnot a ih =>
    simp only [makes] at h
    unfold deletes at h
    split at h
    · subst h; exact ⟨_, .del, rfl, stands_denote _ _⟩
    · exact h.elim
  | hwhen c e _ ih =>
    simp only [makes] at h
    obtain ⟨t, h1, h2⟩ := ih h.2
    exact ⟨t, .when h1, h2⟩
  | hfall vs e ih =>
    simp only [makes] at h
    obtain ⟨ρ', _, h⟩ := h
    obtain ⟨t, h1, h2⟩ := ih h
    exact ⟨t, .fall h1, h2⟩
  | _ => simp only [makes] at h

/-- The changes an action makes in a state. -/
def Does (ρ : Str → D) (g : Action) (I : Interp D) (c : Change D) : Prop := ∃ e, g.eff = some e ∧ makes I c e ρ

theorem does_add {ρ : Str → D} {g : Action} {n : Str} {ds : List D} (h : Does ρ g I (.add n ds)) :
    ∃ p, MayChange g (.add p) ∧ p.name = n ∧ Stands I p.terms ds := by
  obtain ⟨e, he, h⟩ := h
  obtain ⟨t, h1, h2⟩ := makes_changes h
  cases t with
  | add p => exact ⟨p, ⟨e, he, h1⟩, h2⟩
  | del p => exact h2.elim
  | num o f => exact h2.elim

theorem does_del {ρ : Str → D} {g : Action} {n : Str} {ds : List D} (h : Does ρ g I (.del n ds)) :
    ∃ p, MayChange g (.del p) ∧ p.name = n ∧ Stands I p.terms ds := by
  obtain ⟨e, he, h⟩ := h
  obtain ⟨t, h1, h2⟩ := makes_changes h
  cases t with
  | add p => exact h2.elim
  | del p => exact ⟨p, ⟨e, he, h1⟩, h2⟩
  | num o f => exact h2.elim

theorem does_num {ρ : Str → D} {g : Action} {o : FOp} {n : Str} {ds : List D} {v : Rat} (h : Does ρ g I (.num o n ds v)) :
    ∃ f, MayChange g (.num o f) ∧ f.name = n ∧ Stands I f.terms ds := by
  obtain ⟨e, he, h⟩ := h
  obtain ⟨t, h1, h2⟩ := makes_changes h
  cases t with
  | add p => exact h2.elim
  | del p => exact h2.elim
  | num o' f => obtain ⟨rfl, h2⟩ := h2; exact ⟨f, ⟨e, he, h1⟩, h2⟩

/-- A state after what `g` does looks the same to `h`. -/
theorem undisturbed {ρ : Str → D} {g h : Action} (hd : ¬ Disturbs g h) {I0 J : Interp D} (hu : UniqueNames I) (hc : I0.const = I.const)
    (hn : Next (Does ρ g I) I0 J) : AgreeAt (UsesPred h) (UsesFun h) I0 J := by
  have hst : ∀ ts (ds : List D), Stands I0 ts ds → Stands I ts ds := by
    intro ts ds h; unfold Stands at h ⊢; rw [← hc]; exact h
  refine ⟨hn.const, hn.ty, fun p hp ds hs => ?_, fun f hf ds hs => ?_⟩
  · rw [hn.pred]
    have h1 : ¬ Does ρ g I (.add p.name ds) := by
      intro h
      obtain ⟨q, h1, h2, h3⟩ := does_add h
      exact hd (.added h1 hp h2 (stands_meet hu h3 (hst _ _ hs)))
    have h2 : ¬ Does ρ g I (.del p.name ds) := by
      intro h
      obtain ⟨q, h1, h2, h3⟩ := does_del h
      exact hd (.deleted h1 hp h2 (stands_meet hu h3 (hst _ _ hs)))
    simp only [h1, h2, false_or, not_false_eq_true, and_true]
  · refine hn.same _ _ fun op v h => ?_
    obtain ⟨q, h1, h2, h3⟩ := does_num h
    exact hd (.updated h1 hf h2 (stands_meet hu h3 (hst _ _ hs)))

theorem does_same {ρ : Str → D} {h : Action} (ha : AgreeAt (UsesPred h) (UsesFun h) I I') (c : Change D) : Does ρ h I' c ↔ Does ρ h I c :=
  exists_congr fun e => and_congr_right fun he =>
    makes_at (ha.sub (fun _ hp => .inr ⟨e, he, hp⟩) (fun _ hf => .inr ⟨e, he, hf⟩)) c ρ

theorem applies_same {ρ : Str → D} {h : Action} (ha : AgreeAt (UsesPred h) (UsesFun h) I I') :
    (∀ e, h.pre = some e → holds I' e ρ) ↔ ∀ e, h.pre = some e → holds I e ρ :=
  forall₂_congr fun e he => holds_at (ha.sub (fun _ hp => .inl ⟨e, he, hp⟩) (fun _ hf => .inl ⟨e, he, hf⟩)) ρ

/-! ### Increasing and decreasing -/

theorem update_swap {o o' : FOp} (h : additive o) (h' : additive o') (x : Option Rat) (v v' : Rat) :
    update o (update o' x v') v = update o' (update o x v) v' := by
  rcases h with rfl | rfl <;> rcases h' with rfl | rfl <;> cases x <;> simp only [update, Option.some.injEq] <;> ring

theorem update_back {o : FOp} (h : additive o) (x : Option Rat) (v : Rat) : ∃ y, update o y v = x := by
  cases x with
  | none => exact ⟨none, by rcases h with rfl | rfl <;> rfl⟩
  | some x =>
    rcases h with rfl | rfl
    · exact ⟨some (x - v), by simp [update]⟩
    · exact ⟨some (x + v), by simp [update]⟩

/-- Two actions that do not disturb each other can change places. -/
theorem acts_commute {ρ : Str → D} {g h : Action} (h1 : ¬ Disturbs g h) (h2 : ¬ Disturbs h g) {I J K : Interp D} (hu : UniqueNames I)
    (hg : Acts ρ g I J) (hh : Acts ρ h J K) : ∃ J', Acts ρ h I J' ∧ Acts ρ g J' K := by
  classical
  obtain ⟨pg, ng⟩ := hg
  obtain ⟨ph, nh⟩ := hh
  change Next (Does ρ g I) I J at ng
  change Next (Does ρ h J) J K at nh
  have hIJ := undisturbed h1 hu rfl ng
  have hC : ∀ c, Does ρ h J c ↔ Does ρ h I c := does_same hIJ
  have nh' : Next (Does ρ h I) J K := by
    rw [show Does ρ h J = Does ρ h I from funext fun c => propext (hC c)] at nh; exact nh
  -- what the fluents are in between
  have hf : ∀ f ds, ∃ y : Option Rat,
      ((∀ op v, ¬ Does ρ h I (.num op f ds v)) → y = I.fn f ds) ∧
      (∀ op v, Does ρ h I (.num op f ds v) → (∀ op' v', Does ρ h I (.num op' f ds v') → op' = op ∧ v' = v) → y = update op (I.fn f ds) v) ∧
      ((∀ op v, ¬ Does ρ g I (.num op f ds v)) → K.fn f ds = y) ∧
      (∀ op v, Does ρ g I (.num op f ds v) → (∀ op' v', Does ρ g I (.num op' f ds v') → op' = op ∧ v' = v) → K.fn f ds = update op y v) := by
    intro f ds
    have hadd : ∀ op v op' v', Does ρ g I (.num op f ds v) → Does ρ h I (.num op' f ds v') → additive op ∧ additive op' := by
      intro op v op' v' k1 k2
      obtain ⟨q, a1, a2, a3⟩ := does_num k1
      obtain ⟨q', b1, b2, b3⟩ := does_num k2
      by_contra hc
      exact h1 (.both a1 b1 (a2.trans b2.symm) (stands_meet hu a3 b3) hc)
    by_cases hno : ∀ op v, ¬ Does ρ h I (.num op f ds v)
    · refine ⟨I.fn f ds, fun _ => rfl, fun op v k => absurd k (hno op v), fun k => ?_, fun op v k k' => ?_⟩
      · rw [nh'.same _ _ hno, ng.same _ _ k]
      · rw [nh'.same _ _ hno, ng.updated _ _ _ _ k k']
    · have hno' := hno
      push Not at hno
      obtain ⟨op, v, k⟩ := hno
      by_cases hun : ∀ op' v', Does ρ h I (.num op' f ds v') → op' = op ∧ v' = v
      · refine ⟨update op (I.fn f ds) v, fun k' => absurd k (k' op v), fun op' v' k' _ => ?_, fun k' => ?_, fun op' v' k' k'' => ?_⟩
        · obtain ⟨rfl, rfl⟩ := hun _ _ k'; rfl
        · rw [nh'.updated _ _ _ _ k hun, ng.same _ _ k']
        · rw [nh'.updated _ _ _ _ k hun, ng.updated _ _ _ _ k' k'']
          obtain ⟨a1, a2⟩ := hadd _ _ _ _ k' k
          exact update_swap a2 a1 _ _ _
      · have hcon : ∀ op v, Does ρ h I (.num op f ds v) → ¬ ∀ op' v', Does ρ h I (.num op' f ds v') → op' = op ∧ v' = v := by
          intro op1 v1 k1 hall
          apply hun
          intro op' v' k'
          obtain ⟨rfl, rfl⟩ := hall _ _ k
          exact hall _ _ k'
        by_cases hgu : ∃ op' v', Does ρ g I (.num op' f ds v') ∧ ∀ op1 v1, Does ρ g I (.num op1 f ds v1) → op1 = op' ∧ v1 = v'
        · obtain ⟨op', v', k', kun⟩ := hgu
          obtain ⟨y, hy⟩ := update_back (hadd _ _ _ _ k' k).1 (K.fn f ds) v'
          refine ⟨y, fun k1 => absurd k (k1 op v), fun op1 v1 k1 k2 => absurd k2 (hcon _ _ k1), fun k1 => absurd k' (k1 _ _),
            fun op1 v1 k1 k2 => ?_⟩
          obtain ⟨rfl, rfl⟩ := kun _ _ k1
          exact hy.symm
        · refine ⟨K.fn f ds, fun k1 => absurd k (k1 op v), fun op1 v1 k1 k2 => absurd k2 (hcon _ _ k1), fun _ => rfl, fun op1 v1 k1 k2 => ?_⟩
          exact absurd ⟨op1, v1, k1, k2⟩ hgu
  choose Y hY1 hY2 hY3 hY4 using hf
  let J' : Interp D := ⟨I.const, I.ty, fun n ds => Does ρ h I (.add n ds) ∨ I.pred n ds ∧ ¬ Does ρ h I (.del n ds), Y⟩
  have nJ' : Next (Does ρ h I) I J' := ⟨rfl, rfl, fun _ _ => Iff.rfl, hY1, hY2⟩
  have hIJ' := undisturbed h2 hu rfl nJ'
  have gC : Does ρ g J' = Does ρ g I := funext fun c => propext (does_same hIJ' c)
  refine ⟨J', ⟨(applies_same hIJ).1 ph, nJ'⟩, (applies_same hIJ').2 pg, ?_⟩
  change Next (Does ρ g J') J' K
  rw [gC]
  refine ⟨nh'.const.trans ng.const, nh'.ty.trans ng.ty, fun n ds => ?_, hY3, hY4⟩
  rw [nh'.pred, ng.pred]
  change _ ↔ _ ∨ (Does ρ h I (.add n ds) ∨ I.pred n ds ∧ ¬ Does ρ h I (.del n ds)) ∧ _
  have c1 : ¬ (Does ρ g I (.add n ds) ∧ Does ρ h I (.del n ds)) := by
    rintro ⟨k1, k2⟩
    obtain ⟨q, a1, a2, a3⟩ := does_add k1
    obtain ⟨q', b1, b2, b3⟩ := does_del k2
    exact h1 (.opposed a1 b1 (a2.trans b2.symm) (stands_meet hu a3 b3))
  have c2 : ¬ (Does ρ h I (.add n ds) ∧ Does ρ g I (.del n ds)) := by
    rintro ⟨k1, k2⟩
    obtain ⟨q, a1, a2, a3⟩ := does_add k1
    obtain ⟨q', b1, b2, b3⟩ := does_del k2
    exact h2 (.opposed a1 b1 (a2.trans b2.symm) (stands_meet hu a3 b3))
  tauto

end Pddl
