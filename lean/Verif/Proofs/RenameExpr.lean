/-
Renaming: equality and construction of formulas.
-/
import Verif.Proofs.RenameBasic
import Verif.Proofs.Eq

namespace Pddl
open Spec

theorem Expr.renames_eq (ρ : Str → Str) (l : List Expr) : Expr.renames ρ l = l.map (Expr.rename ρ) := by
  induction l with
  | nil => rfl
  | cons a l ih => rw [Expr.renames, ih]; rfl

section
variable {ρ : Str → Str} (R : Renaming ρ)
include R

omit R in
theorem exprsEq_rename_of {as : List Expr}
    (ih : ∀ a ∈ as, ∀ b : Expr, (a.rename ρ).pyEq (b.rename ρ) = a.pyEq b) (bs : List Expr) :
    Expr.pyEqs (Expr.renames ρ as) (Expr.renames ρ bs) = Expr.pyEqs as bs := by
  induction as generalizing bs with
  | nil => cases bs <;> simp [Expr.renames, Expr.pyEqs]
  | cons a as ihl =>
    cases bs with
    | nil => simp [Expr.renames, Expr.pyEqs]
    | cons b bs =>
      simp [Expr.renames, Expr.pyEqs, ih a (by simp), ihl (fun x hx => ih x (List.mem_cons_of_mem _ hx))]

theorem Spec.Renaming.exprEq (a b : Expr) : (a.rename ρ).pyEq (b.rename ρ) = a.pyEq b := by
  induction a using Expr.ind generalizing b with
  | hpred p => cases b <;> simp [Expr.rename, Expr.pyEq, R.predEq]
  | heq l r => cases b <;> simp [Expr.rename, Expr.pyEq, R.termEq]
  | hnfun f => cases b <;> simp [Expr.rename, Expr.pyEq, R.nfunEq]
  | hnum n => cases b <;> simp [Expr.rename, Expr.pyEq]
  | hbfun o as ih => cases b <;> simp [Expr.rename, Expr.pyEq, exprsEq_rename_of ih]
  | hbin o as ih => cases b <;> simp [Expr.rename, Expr.pyEq, exprsEq_rename_of ih]
  | hnot a ih => cases b <;> simp [Expr.rename, Expr.pyEq, ih]
  | hquant q vs c ih => cases b <;> simp [Expr.rename, Expr.pyEq, ih, R.varsEq]
  | hwhen c e ihc ihe => cases b <;> simp [Expr.rename, Expr.pyEq, ihc, ihe]
  | hfall vs e ih => cases b <;> simp [Expr.rename, Expr.pyEq, ih, R.varsEq]

omit R in
theorem operandsIf_rename (c : Cls) (e : Expr) :
    (e.rename ρ).operandsIf c = (e.operandsIf c).map (List.map (Expr.rename ρ)) := by
  cases c <;> cases e <;> simp only [Expr.rename, Expr.operandsIf, Option.map_none] <;>
    (split <;> simp [Expr.renames_eq])

omit R in
theorem ofCls_rename (c : Cls) (l : List Expr) :
    (Expr.ofCls c l).rename ρ = Expr.ofCls c (l.map (Expr.rename ρ)) := by
  cases c <;> simp [Expr.ofCls, Expr.rename, Expr.renames_eq]

theorem Spec.Renaming.simplLoop (c : Cls) (stack out : List Expr) :
    Pddl.simplLoop c (stack.map (Expr.rename ρ)) (out.map (Expr.rename ρ)) =
      (Pddl.simplLoop c stack out).map (Expr.rename ρ) := by
  induction stack, out using Pddl.simplLoop.induct c with
  | case1 out => simp [Pddl.simplLoop]
  | case2 out e rest h hm ih =>
    rw [List.map_cons, Pddl.simplLoop, Pddl.simplLoop.eq_def c (e :: rest)]
    have h' : (e.rename ρ).operandsIf c = none := by rw [operandsIf_rename, h]; rfl
    simp only
    split
    · rw [memBy_ren R.exprEq, if_pos hm]
      split
      · rw [if_pos hm, ih]
      · rename_i as has; rw [h] at has; simp at has
    · rename_i as has; rw [h'] at has; simp at has
  | case3 out e rest h hm ih =>
    rw [List.map_cons, Pddl.simplLoop, Pddl.simplLoop.eq_def c (e :: rest)]
    have h' : (e.rename ρ).operandsIf c = none := by rw [operandsIf_rename, h]; rfl
    simp only
    split
    · rw [memBy_ren R.exprEq, if_neg hm]
      split
      · rw [if_neg hm, ← ih]; simp
      · rename_i as has; rw [h] at has; simp at has
    · rename_i as has; rw [h'] at has; simp at has
  | case4 out e rest as h ih =>
    rw [List.map_cons, Pddl.simplLoop, Pddl.simplLoop.eq_def c (e :: rest)]
    have h' : (e.rename ρ).operandsIf c = some (as.map (Expr.rename ρ)) := by rw [operandsIf_rename, h]; rfl
    simp only
    split
    · rename_i has; rw [h'] at has; simp at has
    · rename_i bs has
      rw [h'] at has
      cases has
      split
      · rename_i has; rw [h] at has; simp at has
      · rename_i bs has
        rw [h] at has
        cases has
        rw [← ih]; simp

theorem Spec.Renaming.simplOperands (c : Cls) (l : List Expr) :
    Pddl.simplOperands c (l.map (Expr.rename ρ)) = (Pddl.simplOperands c l).map (Expr.rename ρ) := by
  unfold Pddl.simplOperands
  have : (if c.idempotent then dedupBy Expr.pyEq (l.map (Expr.rename ρ)) else l.map (Expr.rename ρ)) =
      (if c.idempotent then dedupBy Expr.pyEq l else l).map (Expr.rename ρ) := by
    split
    · exact dedupBy_ren R.exprEq l
    · rfl
  simp only [this]
  rcases (if c.idempotent then dedupBy Expr.pyEq l else l) with _ | ⟨a, _ | ⟨b, t⟩⟩
  · rfl
  · rfl
  · exact R.simplLoop c (a :: b :: t) []

theorem Spec.Renaming.construct (c : Cls) (l : List Expr) :
    Pddl.construct c (l.map (Expr.rename ρ)) = (Pddl.construct c l).rename ρ := by
  unfold Pddl.construct
  split
  · simp only [R.simplOperands]
    rcases Pddl.simplOperands c l with _ | ⟨a, _ | ⟨b, t⟩⟩
    · simp [ofCls_rename]
    · simp only [List.map_cons, List.map_nil]
      split
      · rfl
      · simp [ofCls_rename]
    · simp [ofCls_rename]
  · rw [ofCls_rename]

theorem Spec.Renaming.mkAnd (l : List Expr) :
    Pddl.mkAnd (l.map (Expr.rename ρ)) = (Pddl.mkAnd l).rename ρ := R.construct _ l
theorem Spec.Renaming.mkOr (l : List Expr) :
    Pddl.mkOr (l.map (Expr.rename ρ)) = (Pddl.mkOr l).rename ρ := R.construct _ l

theorem Spec.Renaming.dedupVars (vs : List Var) :
    dedupBy Var.pyEq (vs.map (Var.rename ρ)) = (dedupBy Var.pyEq vs).map (Var.rename ρ) := dedupBy_ren R.varEq vs

theorem Spec.Renaming.mkQuant (q : QOp) (c : Expr) (vs : List Var) :
    Pddl.mkQuant q (c.rename ρ) (vs.map (Var.rename ρ)) = (Pddl.mkQuant q c vs).rename ρ := by
  simp [Pddl.mkQuant, Expr.rename, R.dedupVars]
theorem Spec.Renaming.mkForall (e : Expr) (vs : List Var) :
    Pddl.mkForall (e.rename ρ) (vs.map (Var.rename ρ)) = (Pddl.mkForall e vs).rename ρ := by
  simp [Pddl.mkForall, Expr.rename, R.dedupVars]

theorem Spec.Renaming.optEq (a b : Option Expr) :
    Pddl.optEq (a.map (Expr.rename ρ)) (b.map (Expr.rename ρ)) = Pddl.optEq a b := by
  cases a <;> cases b <;> simp [Pddl.optEq, R.exprEq]

theorem Spec.Renaming.actionEq (a b : Action) : (a.rename ρ).pyEq (b.rename ρ) = a.pyEq b := by
  simp [Action.pyEq, Action.rename, R.eq_iff, R.termsEq, R.optEq]

theorem Spec.Renaming.derivedEq (a b : Derived) : (a.rename ρ).pyEq (b.rename ρ) = a.pyEq b := by
  simp [Derived.pyEq, Derived.rename, R.predEq, R.exprEq]

/-! ### Instances -/

omit R in
/-- The mapping with its terms renamed. -/
def Mapping.rename (ρ : Str → Str) (m : Mapping) : Mapping := m.map (fun p => (p.1.rename ρ, p.2.rename ρ))

theorem Spec.Renaming.mapGet (m : Mapping) (t : Term) :
    (m.rename ρ).get (t.rename ρ) = (m.get t).map (Term.rename ρ) := by
  induction m with
  | nil => rfl
  | cons p m ih =>
    unfold Mapping.get Mapping.rename at ih ⊢
    simp only [List.map_cons, List.find?_cons, R.termEq]
    cases h : t.pyEq p.1 with
    | true => rfl
    | false => exact ih

theorem Spec.Renaming.mapSet (m : Mapping) (k v : Term) :
    (m.rename ρ).set (k.rename ρ) (v.rename ρ) = (m.set k v).rename ρ := by
  simp only [Mapping.set, Mapping.rename, List.any_map, Function.comp_def, R.termEq]
  split
  · simp only [List.map_map, Function.comp_def, R.termEq]
    apply List.map_congr_left
    intro p _
    split <;> rfl
  · simp

theorem Spec.Renaming.mapZip (ps as : List Term) :
    Mapping.ofZip (ps.map (Term.rename ρ)) (as.map (Term.rename ρ)) = (Mapping.ofZip ps as).rename ρ := by
  unfold Mapping.ofZip
  rw [List.zip_map]
  have : ∀ (l : List (Term × Term)) (acc : Mapping),
      (l.map (Prod.map (Term.rename ρ) (Term.rename ρ))).foldl (fun m p => m.set p.1 p.2) (acc.rename ρ) =
        (l.foldl (fun m p => m.set p.1 p.2) acc).rename ρ := by
    intro l
    induction l with
    | nil => intro acc; rfl
    | cons a l ih =>
      intro acc
      simp only [List.map_cons, List.foldl_cons, Prod.map]
      rw [R.mapSet, ih]
  exact this _ []

theorem Spec.Renaming.termInst (m : Mapping) (t : Term) :
    (t.rename ρ).inst (m.rename ρ) = (t.inst m).rename ρ := by
  cases t with
  | const n t => rfl
  | var v =>
    have := R.mapGet m (.var v)
    simp only [Term.rename] at this
    simp only [Term.rename, Term.inst, this]
    cases m.get (.var v) <;> rfl

theorem Spec.Renaming.termsInst (m : Mapping) (ts : List Term) :
    (ts.map (Term.rename ρ)).map (Term.inst (m.rename ρ)) = (ts.map (Term.inst m)).map (Term.rename ρ) := by
  simp [List.map_map, Function.comp_def, R.termInst]

omit R in
theorem exprsInst_rename_of (m : Mapping) {as : List Expr}
    (ih : ∀ a ∈ as, (a.rename ρ).inst (m.rename ρ) = (a.inst m).map (Expr.rename ρ)) :
    Expr.insts (m.rename ρ) (Expr.renames ρ as) = (Expr.insts m as).map (List.map (Expr.rename ρ)) := by
  induction as with
  | nil => rfl
  | cons a as ihl =>
    simp only [Expr.renames, Expr.insts]
    refine map_bind_map (ih a (by simp)) (fun a' _ => ?_)
    exact map_bind_map (ihl (fun x hx => ih x (List.mem_cons_of_mem _ hx))) (fun _ _ => rfl)

theorem Spec.Renaming.exprInst (m : Mapping) (a : Expr) :
    (a.rename ρ).inst (m.rename ρ) = (a.inst m).map (Expr.rename ρ) := by
  induction a using Expr.ind with
  | hpred p =>
    simp only [Expr.rename, Expr.inst, Pred.inst, Pred.rename, R.termsInst]
    exact map_bind_map (R.mkPred _ _) (fun p' _ => by simp [Expr.rename])
  | heq l r =>
    simp only [Expr.rename, Expr.inst, R.termInst]
    exact R.mkEq _ _
  | hnfun f =>
    simp only [Expr.rename, Expr.inst, NFun.inst, NFun.rename, R.termsInst]
    exact map_bind_map (R.mkNFun _ _) (fun p' _ => by simp [Expr.rename])
  | hnum n => rfl
  | hbfun o as ih =>
    simp only [Expr.rename, Expr.inst]
    exact map_bind_map (exprsInst_rename_of m ih) (fun as' _ => by simp [R.construct])
  | hbin o as ih =>
    simp only [Expr.rename, Expr.inst]
    exact map_bind_map (exprsInst_rename_of m ih) (fun as' _ => by simp [R.construct])
  | hnot a ih =>
    simp only [Expr.rename, Expr.inst]
    exact map_bind_map ih (fun a' _ => by simp [Expr.rename])
  | hquant q vs c ih =>
    simp only [Expr.rename, Expr.inst]
    exact map_bind_map ih (fun a' _ => by simp [R.mkQuant])
  | hwhen c e _ _ => rfl
  | hfall vs e _ => rfl

theorem Spec.Renaming.instOpt (m : Mapping) (a : Option Expr) :
    Pddl.instOpt (m.rename ρ) (a.map (Expr.rename ρ)) = (Pddl.instOpt m a).map (Option.map (Expr.rename ρ)) := by
  cases a with
  | none => rfl
  | some e =>
    simp only [Option.map_some, Pddl.instOpt]
    exact map_bind_map (R.exprInst m e) (fun _ _ => rfl)

theorem Spec.Renaming.mkAction (n : Str) (ps : List Term) (p e : Option Expr) :
    Pddl.mkAction (ρ n) (ps.map (Term.rename ρ)) (p.map (Expr.rename ρ)) (e.map (Expr.rename ρ)) =
      (Pddl.mkAction n ps p e).map (Action.rename ρ) := by
  unfold Pddl.mkAction
  exact map_bind_map (R.parseName n) (fun _ _ => rfl)

theorem Spec.Renaming.actionInst (a : Action) (args : List Term) :
    (a.rename ρ).inst (args.map (Term.rename ρ)) = (a.inst args).map (Action.rename ρ) := by
  simp only [Action.inst, Action.rename, List.length_map]
  split
  · rfl
  · rw [R.mapZip]
    refine map_bind_map (R.instOpt _ _) (fun p _ => ?_)
    refine map_bind_map (R.instOpt _ _) (fun e _ => ?_)
    exact R.mkAction _ _ _ _

end
end Pddl
