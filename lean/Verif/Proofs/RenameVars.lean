/-
Renaming variables: equality, construction and instances of formulas.
-/
import Verif.Spec.RenameVars
import Verif.Spec.Declared
import Verif.Spec.Subst
import Verif.Proofs.RenameBasic
import Verif.Proofs.Eq
import Verif.Proofs.InstAtoms
import Verif.Props.Problem

namespace Pddl
open Spec

theorem Expr.renVars_eq (ρ : Str → Str) (l : List Expr) : Expr.renVars ρ l = l.map (Expr.renVar ρ) := by
  induction l with
  | nil => rfl
  | cons a l ih => rw [Expr.renVars, ih]; rfl

/-- The constants of the list are in `K`. -/
def ConstsIn (K : Str → Prop) (ts : List Term) : Prop := ∀ n tag, Term.const n tag ∈ ts → K n

section
variable {ρ : Str → Str} {K : Str → Prop} (R : VarRenaming ρ K)
include R

theorem Spec.VarRenaming.eq_iff (a b : Str) : ρ a = ρ b ↔ a = b := ⟨R.inj a b, fun e => e ▸ rfl⟩

theorem Spec.VarRenaming.varEq (a b : Var) : (a.renVar ρ).pyEq (b.renVar ρ) = a.pyEq b := by
  simp [Var.pyEq, Var.renVar, R.eq_iff]

theorem Spec.VarRenaming.termEq (a b : Term) : (a.renVar ρ).pyEq (b.renVar ρ) = a.pyEq b := by
  cases a <;> cases b <;> simp [Term.pyEq, Term.renVar, R.varEq]

theorem Spec.VarRenaming.termsEq (a b : List Term) :
    Pddl.termsEq (a.map (Term.renVar ρ)) (b.map (Term.renVar ρ)) = Pddl.termsEq a b := by
  induction a generalizing b with
  | nil => cases b <;> rfl
  | cons x a ih => cases b with
    | nil => rfl
    | cons y b => simp [Pddl.termsEq, R.termEq, ih]

theorem Spec.VarRenaming.predEq (a b : Pred) : (a.renVar ρ).pyEq (b.renVar ρ) = a.pyEq b := by
  simp only [Pred.pyEq, Pred.renVar, R.termsEq]; rfl
theorem Spec.VarRenaming.nfunEq (a b : NFun) : (a.renVar ρ).pyEq (b.renVar ρ) = a.pyEq b := by
  simp only [NFun.pyEq, NFun.renVar, R.termsEq]; rfl

theorem Spec.VarRenaming.varsEq (a b : List Var) :
    Pddl.varsEq (a.map (Var.renVar ρ)) (b.map (Var.renVar ρ)) = Pddl.varsEq a b :=
  setEqBy_ren (fun a b => R.varEq a b) a b

omit R in
theorem Term.renVar_tags (t : Term) : (t.renVar ρ).tags = t.tags := by cases t <;> rfl

theorem Spec.VarRenaming.termName {t : Term} (h : ConstsIn K [t]) : (t.renVar ρ).name = ρ t.name := by
  cases t with
  | var v => rfl
  | const n tag => exact (R.fixed n (h n tag (by simp))).symm

theorem Spec.VarRenaming.termsConsistent (seen : List (Str × List Str)) {ts : List Term} (h : ConstsIn K ts) :
    Pddl.termsConsistent (seen.map (fun p => (ρ p.1, p.2))) (ts.map (Term.renVar ρ)) =
      Pddl.termsConsistent seen ts := by
  induction ts generalizing seen with
  | nil => rfl
  | cons t ts ih =>
    have ht : (t.renVar ρ).name = ρ t.name := R.termName (fun n tag hm => h n tag (by
      rw [List.mem_singleton] at hm; rw [hm]; simp))
    have ih := fun seen => ih seen (fun n tag hm => h n tag (List.mem_cons_of_mem _ hm))
    simp only [List.map_cons, Pddl.termsConsistent, ht, Term.renVar_tags]
    have := dictGet_ren (g := fun x : List Str => x) R.inj seen t.name
    rw [this]
    cases h : dictGet seen t.name with
    | none =>
      simp only [Option.map_none]
      rw [← ih]; simp
    | some tags => simp only [Option.map_some, ih]

theorem Spec.VarRenaming.mkPred (n : Str) {ts : List Term} (h : ConstsIn K ts) :
    Pddl.mkPred n (ts.map (Term.renVar ρ)) = (Pddl.mkPred n ts).map (Pred.renVar ρ) := by
  unfold Pddl.mkPred
  refine map_bind_map (g := id) (by cases Pddl.parseName n <;> rfl) (fun n' _ => ?_)
  exact check_bind_map (R.termsConsistent [] h) (fun _ => rfl)

omit R in
theorem mkNFun_renVar (n : Str) (ts : List Term) :
    Pddl.mkNFun n (ts.map (Term.renVar ρ)) = (Pddl.mkNFun n ts).map (NFun.renVar ρ) := by
  unfold Pddl.mkNFun
  exact map_bind_map (g := id) (by cases Pddl.parseFunction n <;> rfl) (fun n' _ => rfl)

theorem Spec.VarRenaming.mkEq {l r : Term} (h : ConstsIn K [l, r]) :
    Pddl.mkEq (l.renVar ρ) (r.renVar ρ) = (Pddl.mkEq l r).map (Expr.renVar ρ) := by
  unfold Pddl.mkEq
  exact check_bind_map (R.termsConsistent [] h) (fun _ => by simp [Expr.renVar])

omit R in
theorem exprsEq_renVar_of {as : List Expr}
    (ih : ∀ a ∈ as, ∀ b : Expr, (a.renVar ρ).pyEq (b.renVar ρ) = a.pyEq b) (bs : List Expr) :
    Expr.pyEqs (Expr.renVars ρ as) (Expr.renVars ρ bs) = Expr.pyEqs as bs := by
  induction as generalizing bs with
  | nil => cases bs <;> simp [Expr.renVars, Expr.pyEqs]
  | cons a as ihl =>
    cases bs with
    | nil => simp [Expr.renVars, Expr.pyEqs]
    | cons b bs =>
      simp [Expr.renVars, Expr.pyEqs, ih a (by simp), ihl (fun x hx => ih x (List.mem_cons_of_mem _ hx))]

theorem Spec.VarRenaming.exprEq (a b : Expr) : (a.renVar ρ).pyEq (b.renVar ρ) = a.pyEq b := by
  induction a using Expr.ind generalizing b with
  | hpred p => cases b <;> simp [Expr.renVar, Expr.pyEq, R.predEq]
  | heq l r => cases b <;> simp [Expr.renVar, Expr.pyEq, R.termEq]
  | hnfun f => cases b <;> simp [Expr.renVar, Expr.pyEq, R.nfunEq]
  | hnum n => cases b <;> simp [Expr.renVar, Expr.pyEq]
  | hbfun o as ih => cases b <;> simp [Expr.renVar, Expr.pyEq, exprsEq_renVar_of ih]
  | hbin o as ih => cases b <;> simp [Expr.renVar, Expr.pyEq, exprsEq_renVar_of ih]
  | hnot a ih => cases b <;> simp [Expr.renVar, Expr.pyEq, ih]
  | hquant q vs c ih => cases b <;> simp [Expr.renVar, Expr.pyEq, ih, R.varsEq]
  | hwhen c e ihc ihe => cases b <;> simp [Expr.renVar, Expr.pyEq, ihc, ihe]
  | hfall vs e ih => cases b <;> simp [Expr.renVar, Expr.pyEq, ih, R.varsEq]

omit R in
theorem operandsIf_renVar (c : Cls) (e : Expr) :
    (e.renVar ρ).operandsIf c = (e.operandsIf c).map (List.map (Expr.renVar ρ)) := by
  cases c <;> cases e <;> simp only [Expr.renVar, Expr.operandsIf, Option.map_none] <;>
    (split <;> simp [Expr.renVars_eq])

omit R in
theorem ofCls_renVar (c : Cls) (l : List Expr) :
    (Expr.ofCls c l).renVar ρ = Expr.ofCls c (l.map (Expr.renVar ρ)) := by
  cases c <;> simp [Expr.ofCls, Expr.renVar, Expr.renVars_eq]

theorem Spec.VarRenaming.simplLoop (c : Cls) (stack out : List Expr) :
    Pddl.simplLoop c (stack.map (Expr.renVar ρ)) (out.map (Expr.renVar ρ)) =
      (Pddl.simplLoop c stack out).map (Expr.renVar ρ) := by
  induction stack, out using Pddl.simplLoop.induct c with
  | case1 out => simp [Pddl.simplLoop]
  | case2 out e rest h hm ih =>
    rw [List.map_cons, Pddl.simplLoop, Pddl.simplLoop.eq_def c (e :: rest)]
    have h' : (e.renVar ρ).operandsIf c = none := by rw [operandsIf_renVar, h]; rfl
    simp only
    split
    · rw [memBy_ren R.exprEq, if_pos hm]
      split
      · rw [if_pos hm, ih]
      · rename_i as has; rw [h] at has; simp at has
    · rename_i as has; rw [h'] at has; simp at has
  | case3 out e rest h hm ih =>
    rw [List.map_cons, Pddl.simplLoop, Pddl.simplLoop.eq_def c (e :: rest)]
    have h' : (e.renVar ρ).operandsIf c = none := by rw [operandsIf_renVar, h]; rfl
    simp only
    split
    · rw [memBy_ren R.exprEq, if_neg hm]
      split
      · rw [if_neg hm, ← ih]; simp
      · rename_i as has; rw [h] at has; simp at has
    · rename_i as has; rw [h'] at has; simp at has
  | case4 out e rest as h ih =>
    rw [List.map_cons, Pddl.simplLoop, Pddl.simplLoop.eq_def c (e :: rest)]
    have h' : (e.renVar ρ).operandsIf c = some (as.map (Expr.renVar ρ)) := by rw [operandsIf_renVar, h]; rfl
    simp only
    split
    · rename_i has; rw [h'] at has; simp at has
    · rename_i bs has
      rw [h'] at has
      cases has
      split
      · rename_i has; rw [h] at has; simp at has
      · rename_i bs has
        rw [h] at has
        cases has
        rw [← ih]; simp

theorem Spec.VarRenaming.simplOperands (c : Cls) (l : List Expr) :
    Pddl.simplOperands c (l.map (Expr.renVar ρ)) = (Pddl.simplOperands c l).map (Expr.renVar ρ) := by
  unfold Pddl.simplOperands
  have : (if c.idempotent then dedupBy Expr.pyEq (l.map (Expr.renVar ρ)) else l.map (Expr.renVar ρ)) =
      (if c.idempotent then dedupBy Expr.pyEq l else l).map (Expr.renVar ρ) := by
    split
    · exact dedupBy_ren R.exprEq l
    · rfl
  simp only [this]
  rcases (if c.idempotent then dedupBy Expr.pyEq l else l) with _ | ⟨a, _ | ⟨b, t⟩⟩
  · rfl
  · rfl
  · exact R.simplLoop c (a :: b :: t) []

theorem Spec.VarRenaming.construct (c : Cls) (l : List Expr) :
    Pddl.construct c (l.map (Expr.renVar ρ)) = (Pddl.construct c l).renVar ρ := by
  unfold Pddl.construct
  split
  · simp only [R.simplOperands]
    rcases Pddl.simplOperands c l with _ | ⟨a, _ | ⟨b, t⟩⟩
    · simp [ofCls_renVar]
    · simp only [List.map_cons, List.map_nil]
      split
      · rfl
      · simp [ofCls_renVar]
    · simp [ofCls_renVar]
  · rw [ofCls_renVar]

theorem Spec.VarRenaming.mkAnd (l : List Expr) :
    Pddl.mkAnd (l.map (Expr.renVar ρ)) = (Pddl.mkAnd l).renVar ρ := R.construct _ l
theorem Spec.VarRenaming.mkOr (l : List Expr) :
    Pddl.mkOr (l.map (Expr.renVar ρ)) = (Pddl.mkOr l).renVar ρ := R.construct _ l

theorem Spec.VarRenaming.dedupVars (vs : List Var) :
    dedupBy Var.pyEq (vs.map (Var.renVar ρ)) = (dedupBy Var.pyEq vs).map (Var.renVar ρ) := dedupBy_ren R.varEq vs

theorem Spec.VarRenaming.mkQuant (q : QOp) (c : Expr) (vs : List Var) :
    Pddl.mkQuant q (c.renVar ρ) (vs.map (Var.renVar ρ)) = (Pddl.mkQuant q c vs).renVar ρ := by
  simp [Pddl.mkQuant, Expr.renVar, R.dedupVars]
theorem Spec.VarRenaming.mkForall (e : Expr) (vs : List Var) :
    Pddl.mkForall (e.renVar ρ) (vs.map (Var.renVar ρ)) = (Pddl.mkForall e vs).renVar ρ := by
  simp [Pddl.mkForall, Expr.renVar, R.dedupVars]

theorem Spec.VarRenaming.optEq (a b : Option Expr) :
    Pddl.optEq (a.map (Expr.renVar ρ)) (b.map (Expr.renVar ρ)) = Pddl.optEq a b := by
  cases a <;> cases b <;> simp [Pddl.optEq, R.exprEq]

theorem Spec.VarRenaming.actionEq (a b : Action) : (a.renVar ρ).pyEq (b.renVar ρ) = a.pyEq b := by
  simp only [Action.pyEq, Action.renVar, R.termsEq, R.optEq]; rfl

/-! ### Instances -/

omit R in
/-- The mapping with its terms renamed. -/
def Mapping.renVar (ρ : Str → Str) (m : Mapping) : Mapping := m.map (fun p => (p.1.renVar ρ, p.2.renVar ρ))

theorem Spec.VarRenaming.mapGet (m : Mapping) (t : Term) :
    (m.renVar ρ).get (t.renVar ρ) = (m.get t).map (Term.renVar ρ) := by
  induction m with
  | nil => rfl
  | cons p m ih =>
    unfold Mapping.get Mapping.renVar at ih ⊢
    simp only [List.map_cons, List.find?_cons, R.termEq]
    cases h : t.pyEq p.1 with
    | true => rfl
    | false => exact ih

theorem Spec.VarRenaming.mapSet (m : Mapping) (k v : Term) :
    (m.renVar ρ).set (k.renVar ρ) (v.renVar ρ) = (m.set k v).renVar ρ := by
  simp only [Mapping.set, Mapping.renVar, List.any_map, Function.comp_def, R.termEq]
  split
  · simp only [List.map_map, Function.comp_def, R.termEq]
    apply List.map_congr_left
    intro p _
    split <;> rfl
  · simp

theorem Spec.VarRenaming.mapZip (ps as : List Term) :
    Mapping.ofZip (ps.map (Term.renVar ρ)) (as.map (Term.renVar ρ)) = (Mapping.ofZip ps as).renVar ρ := by
  unfold Mapping.ofZip
  rw [List.zip_map]
  have : ∀ (l : List (Term × Term)) (acc : Mapping),
      (l.map (Prod.map (Term.renVar ρ) (Term.renVar ρ))).foldl (fun m p => m.set p.1 p.2) (acc.renVar ρ) =
        (l.foldl (fun m p => m.set p.1 p.2) acc).renVar ρ := by
    intro l
    induction l with
    | nil => intro acc; rfl
    | cons a l ih =>
      intro acc
      simp only [List.map_cons, List.foldl_cons, Prod.map]
      rw [R.mapSet, ih]
  exact this _ []

theorem Spec.VarRenaming.termInst (m : Mapping) (t : Term) :
    (t.renVar ρ).inst (m.renVar ρ) = (t.inst m).renVar ρ := by
  cases t with
  | const n t => rfl
  | var v =>
    have := R.mapGet m (.var v)
    simp only [Term.renVar] at this
    simp only [Term.renVar, Term.inst, this]
    cases m.get (.var v) <;> rfl

theorem Spec.VarRenaming.termsInst (m : Mapping) (ts : List Term) :
    (ts.map (Term.renVar ρ)).map (Term.inst (m.renVar ρ)) = (ts.map (Term.inst m)).map (Term.renVar ρ) := by
  simp [List.map_map, Function.comp_def, R.termInst]

omit R in
theorem constsIn_inst {m : Mapping} {ts : List Term} (hm : ConstsIn K (m.map Prod.snd)) (h : ConstsIn K ts) :
    ConstsIn K (ts.map (Term.inst m)) := by
  intro n tag hn
  obtain ⟨t, ht, e⟩ := List.mem_map.1 hn
  cases t with
  | const k tg => cases e; exact h n tag ht
  | var v =>
    simp only [Term.inst] at e
    cases hg : m.get (.var v) with
    | none => rw [hg] at e; cases e
    | some t =>
      rw [hg] at e
      simp only at e
      subst e
      unfold Mapping.get at hg
      split at hg
      · next p hp =>
        injection hg with hg
        exact hm n tag (by rw [← hg]; exact List.mem_map_of_mem (List.mem_of_find?_eq_some hp))
      · cases hg

omit R in
theorem exprsInst_renVar_of (m : Mapping) {as : List Expr}
    (ih : ∀ a ∈ as, (a.renVar ρ).inst (m.renVar ρ) = (a.inst m).map (Expr.renVar ρ)) :
    Expr.insts (m.renVar ρ) (Expr.renVars ρ as) = (Expr.insts m as).map (List.map (Expr.renVar ρ)) := by
  induction as with
  | nil => rfl
  | cons a as ihl =>
    simp only [Expr.renVars, Expr.insts]
    refine map_bind_map (ih a (by simp)) (fun a' _ => ?_)
    exact map_bind_map (ihl (fun x hx => ih x (List.mem_cons_of_mem _ hx))) (fun _ _ => rfl)

theorem Spec.VarRenaming.exprInst {m : Mapping} (hm : ConstsIn K (m.map Prod.snd)) {a : Expr}
    (ha : ∀ n tag, UsesConst n tag a → K n) :
    (a.renVar ρ).inst (m.renVar ρ) = (a.inst m).map (Expr.renVar ρ) := by
  have hall : ∀ {as : List Expr}, (∀ n tag, (∃ x ∈ atomsAll as, Term.const n tag ∈ x.2) → K n) →
      ∀ a ∈ as, ∀ n tag, UsesConst n tag a → K n := by
    rintro as h a ha n tag ⟨x, hx, ht⟩
    exact h n tag ⟨x, mem_atomsAll.2 ⟨a, ha, hx⟩, ht⟩
  induction a using Expr.ind with
  | hpred p =>
    simp only [Expr.renVar, Expr.inst, Pred.inst, Pred.renVar, R.termsInst]
    refine map_bind_map (R.mkPred _ (constsIn_inst hm (fun n tag hn => ha n tag ⟨_, List.mem_singleton.2 rfl, hn⟩)))
      (fun p' _ => by simp [Expr.renVar])
  | heq l r =>
    simp only [Expr.renVar, Expr.inst, R.termInst]
    exact R.mkEq (constsIn_inst (ts := [l, r]) hm (fun n tag hn => ha n tag ⟨_, List.mem_singleton.2 rfl, hn⟩))
  | hnfun f =>
    simp only [Expr.renVar, Expr.inst, NFun.inst, NFun.renVar, R.termsInst]
    exact map_bind_map (mkNFun_renVar _ _) (fun p' _ => by simp [Expr.renVar])
  | hnum n => rfl
  | hbfun o as ih =>
    simp only [Expr.renVar, Expr.inst]
    exact map_bind_map (exprsInst_renVar_of m (fun a h => ih a h (hall ha a h))) (fun as' _ => by simp [R.construct])
  | hbin o as ih =>
    simp only [Expr.renVar, Expr.inst]
    exact map_bind_map (exprsInst_renVar_of m (fun a h => ih a h (hall ha a h))) (fun as' _ => by simp [R.construct])
  | hnot a ih =>
    simp only [Expr.renVar, Expr.inst]
    exact map_bind_map (ih ha) (fun a' _ => by simp [Expr.renVar])
  | hquant q vs c ih =>
    simp only [Expr.renVar, Expr.inst]
    exact map_bind_map (ih ha) (fun a' _ => by simp [R.mkQuant])
  | hwhen c e _ _ => rfl
  | hfall vs e _ => rfl

theorem Spec.VarRenaming.instOpt {m : Mapping} (hm : ConstsIn K (m.map Prod.snd)) {a : Option Expr}
    (ha : ∀ e, a = some e → ∀ n tag, UsesConst n tag e → K n) :
    Pddl.instOpt (m.renVar ρ) (a.map (Expr.renVar ρ)) = (Pddl.instOpt m a).map (Option.map (Expr.renVar ρ)) := by
  cases a with
  | none => rfl
  | some e =>
    simp only [Option.map_some, Pddl.instOpt]
    exact map_bind_map (R.exprInst hm (ha e rfl)) (fun _ _ => rfl)

omit R in
theorem mkAction_renVar (n : Str) (ps : List Term) (p e : Option Expr) :
    Pddl.mkAction n (ps.map (Term.renVar ρ)) (p.map (Expr.renVar ρ)) (e.map (Expr.renVar ρ)) =
      (Pddl.mkAction n ps p e).map (Action.renVar ρ) := by
  unfold Pddl.mkAction
  exact map_bind_map (g := id) (by cases Pddl.parseName n <;> rfl) (fun _ _ => rfl)

omit R in
theorem renVar_consts {ts : List Term} (h : ∀ t ∈ ts, ∃ n tag, t = .const n tag) : ts.map (Term.renVar ρ) = ts := by
  conv_rhs => rw [← List.map_id ts]
  apply List.map_congr_left
  intro t ht
  obtain ⟨n, tag, rfl⟩ := h t ht
  rfl

/-- Instances, for arguments whose names are not moved. -/
theorem Spec.VarRenaming.actionInst {a : Action} {args : List Term} (hc : ∀ t ∈ args, ∃ n tag, t = .const n tag)
    (hk : ConstsIn K args) (ha : ∀ e, PartOf a e → ∀ n tag, UsesConst n tag e → K n) :
    (a.renVar ρ).inst args = (a.inst args).map (Action.renVar ρ) := by
  have hm : ConstsIn K ((Mapping.ofZip a.params args).map Prod.snd) := by
    intro n tag h
    obtain ⟨p, hp, e⟩ := List.mem_map.1 h
    exact hk n tag (e ▸ Props.ofZip_values _ _ p hp)
  simp only [Action.inst, Action.renVar, List.length_map]
  split
  · rfl
  · have := R.mapZip a.params args
    rw [renVar_consts hc] at this
    rw [this]
    refine map_bind_map (R.instOpt hm (fun e he => ha e (.inl he))) (fun p _ => ?_)
    refine map_bind_map (R.instOpt hm (fun e he => ha e (.inr he))) (fun e _ => ?_)
    have := mkAction_renVar (ρ := ρ) a.name args p e
    rwa [renVar_consts hc] at this

end
end Pddl
