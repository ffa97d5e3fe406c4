/-
Renaming: type tags, checks and the construction of domains.
-/
import Verif.Proofs.RenameExpr
import Verif.Model.UpdateTags
import Verif.Model.Core

namespace Pddl
open Spec

/-- A dictionary of names to sets of names, renamed. -/
def renameTags (ρ : Str → Str) (env : VarTypes) : VarTypes := env.map (fun p => (ρ p.1, p.2.map ρ))
/-- A types dictionary, renamed. -/
def renameTypes (ρ : Str → Str) (d : TypeDict) : TypeDict := d.map (fun p => (ρ p.1, p.2.map ρ))
/-- A functions dictionary, renamed. -/
def renameFuns (ρ : Str → Str) (d : FunDict) : FunDict := d.map (fun p => (p.1.rename ρ, p.2.map ρ))

section
variable {ρ : Str → Str} (R : Renaming ρ)
include R

/-! ### Type tags -/

theorem Spec.Renaming.retag (env : VarTypes) (t : Term) :
    (t.rename ρ).retag (renameTags ρ env) = (t.retag env).map (Term.rename ρ) := by
  cases t with
  | const n t => rfl
  | var v =>
    simp only [Term.rename, Term.retag, Var.rename, renameTags, dictGet_ren R.inj]
    cases dictGet env v.name with
    | none => rfl
    | some tags => exact map_bind_map (R.mkVar v.name tags) (fun _ _ => rfl)

theorem Spec.Renaming.retags (env : VarTypes) (ts : List Term) :
    (ts.map (Term.rename ρ)).mapM (Term.retag (renameTags ρ env)) =
      (ts.mapM (Term.retag env)).map (List.map (Term.rename ρ)) :=
  mapM_rename ts (fun t _ => R.retag env t)

theorem Spec.Renaming.bindTypes (env : VarTypes) (vs : List Var) :
    Pddl.bindTypes (renameTags ρ env) (vs.map (Var.rename ρ)) = renameTags ρ (Pddl.bindTypes env vs) := by
  unfold Pddl.bindTypes
  induction vs generalizing env with
  | nil => rfl
  | cons v vs ih =>
    simp only [List.map_cons, List.foldl_cons]
    rw [← ih]
    congr 1
    exact dictSet_ren R.inj env v.name v.tags

omit R in
theorem updateTagss_rename_of {env : VarTypes} {as : List Expr}
    (ih : ∀ a ∈ as, ∀ env, (a.rename ρ).updateTags (renameTags ρ env) = (a.updateTags env).map (Expr.rename ρ)) :
    Expr.updateTagss (renameTags ρ env) (Expr.renames ρ as) =
      (Expr.updateTagss env as).map (List.map (Expr.rename ρ)) := by
  induction as with
  | nil => simp [Expr.renames, Expr.updateTagss]
  | cons a as ihl =>
    simp only [Expr.renames, Expr.updateTagss]
    exact map_bind_map (ih a (by simp) env) (fun a' _ =>
      map_bind_map (ihl (fun x hx => ih x (List.mem_cons_of_mem _ hx))) (fun _ _ => rfl))

theorem Spec.Renaming.updateTags (env : VarTypes) (a : Expr) :
    (a.rename ρ).updateTags (renameTags ρ env) = (a.updateTags env).map (Expr.rename ρ) := by
  induction a using Expr.ind generalizing env with
  | hpred p =>
    simp only [Expr.rename, Expr.updateTags, Pred.rename]
    exact map_bind_map (R.retags env _) (fun ts _ => map_bind_map (R.mkPred _ ts) (fun p' _ => by simp [Expr.rename]))
  | heq l r =>
    simp only [Expr.rename, Expr.updateTags]
    exact map_bind_map (R.retag env l) (fun l' _ => map_bind_map (R.retag env r) (fun r' _ => R.mkEq l' r'))
  | hnfun f =>
    simp only [Expr.rename, Expr.updateTags, NFun.rename]
    exact map_bind_map (R.retags env _) (fun ts _ => map_bind_map (R.mkNFun _ ts) (fun p' _ => by simp [Expr.rename]))
  | hnum n => simp [Expr.rename, Expr.updateTags]
  | hbfun o as ih =>
    simp only [Expr.rename, Expr.updateTags]
    exact map_bind_map (updateTagss_rename_of ih) (fun as' _ => by simp [R.construct])
  | hbin o as ih =>
    simp only [Expr.rename, Expr.updateTags]
    exact map_bind_map (updateTagss_rename_of ih) (fun as' _ => by simp [R.construct])
  | hnot a ih =>
    simp only [Expr.rename, Expr.updateTags]
    exact map_bind_map (ih env) (fun a' _ => by simp [Expr.rename])
  | hquant q vs c ih =>
    simp only [Expr.rename, Expr.updateTags, R.bindTypes]
    exact map_bind_map (ih _) (fun a' _ => by simp [R.mkQuant])
  | hwhen c e _ _ => simp [Expr.rename, Expr.updateTags]
  | hfall vs e _ => simp [Expr.rename, Expr.updateTags]

theorem Spec.Renaming.checkSubtypes (types : Option TypeDict) (l r : List Str) :
    Pddl.checkSubtypes (types.map (renameTypes ρ)) (l.map ρ) (r.map ρ) = Pddl.checkSubtypes types l r := by
  induction l with
  | nil => rfl
  | cons t ts ih =>
    simp only [List.map_cons, Pddl.checkSubtypes, List.length_map, R.mem_map, ih]
    split
    · rfl
    split
    · rfl
    cases types with
    | none => rfl
    | some d =>
      simp only [Option.map_some, renameTypes, dictGet_ren R.inj]
      rcases dictGet d t with _ | _ | p
      · rfl
      · rfl
      · simp only [Option.map_some, Option.join_some, R.mem_map]

theorem Spec.Renaming.derivedEnv (types : Option TypeDict) (l : List (Term × Term)) (env : VarTypes) :
    Pddl.derivedEnv (types.map (renameTypes ρ)) (l.map (Prod.map (Term.rename ρ) (Term.rename ρ))) (renameTags ρ env) =
      (Pddl.derivedEnv types l env).map (renameTags ρ) := by
  have hset : ∀ env : VarTypes, ∀ n tags,
      dictSet (renameTags ρ env) (ρ n) (tags.map ρ) = renameTags ρ (dictSet env n tags) :=
    fun env n tags => dictSet_ren R.inj env n tags
  induction l generalizing env with
  | nil => rfl
  | cons p l ih =>
    obtain ⟨v | n, d⟩ := p
    · show Pddl.derivedEnv _ ((Term.var (v.rename ρ), d.rename ρ) :: _) _ = _
      simp only [Pddl.derivedEnv, Var.rename, List.length_map, Term.rename_tags, hset, ih]
      split
      · split <;> rfl
      · have hc := R.checkSubtypes types v.tags d.tags
        refine map_bind_map (g := id) ?_ (fun _ _ => rfl)
        rw [hc]; cases Pddl.checkSubtypes types v.tags d.tags <;> rfl
    · rfl

theorem Spec.Renaming.derivedPredicate (types : Option TypeDict) (preds : List (Str × Pred)) (head : Pred) (c : Expr) :
    Pddl.derivedPredicate (types.map (renameTypes ρ)) (preds.map (fun p => (ρ p.1, p.2.rename ρ))) (head.rename ρ)
      (c.rename ρ) = (Pddl.derivedPredicate types preds head c).map (Derived.rename ρ) := by
  have hn : (head.rename ρ).name = ρ head.name := rfl
  have ht : (head.rename ρ).terms = head.terms.map (Term.rename ρ) := rfl
  simp only [Pddl.derivedPredicate, hn, ht, dictGet_ren R.inj]
  cases dictGet preds head.name with
  | none => rfl
  | some p =>
    simp only [Option.map_some, Pred.rename, List.length_map]
    split
    · rfl
    · rw [List.zip_map]
      refine map_bind_map (R.derivedEnv types _ []) (fun env _ => ?_)
      refine map_bind_map (R.retags env head.terms) (fun ts _ => ?_)
      refine map_bind_map (R.mkPred head.name ts) (fun h' _ => ?_)
      exact map_bind_map (R.updateTags env c) (fun c' _ => rfl)

/-! ### Cycles -/

omit R in
def Graph.rename (ρ : Str → Str) (g : Graph) : Graph := g.map (fun p => (ρ p.1, p.2.map (List.map ρ)))
omit R in
def CycleState.rename (ρ : Str → Str) (s : CycleState) : CycleState :=
  ⟨s.todo.map ρ, s.visited.map ρ, s.stack.map (fun p => (ρ p.1, p.2.map ρ))⟩

theorem Spec.Renaming.nbrs (g : Graph) (v : Str) : (g.rename ρ).nbrs (ρ v) = (g.nbrs v).map ρ := by
  simp only [Graph.nbrs, Graph.rename, dictGet_ren R.inj]
  rcases dictGet g v with _ | _ | l <;> rfl

theorem Spec.Renaming.cycleStep (g : Graph) (s : CycleState) :
    Pddl.cycleStep (g.rename ρ) (s.rename ρ) =
      (Pddl.cycleStep g s).map (CycleState.rename ρ) (Option.map (List.map ρ)) := by
  obtain ⟨todo, visited, _ | ⟨⟨cur, path⟩, rest⟩⟩ := s
  · cases todo with
    | nil => rfl
    | cons v todo =>
      simp only [Pddl.cycleStep, CycleState.rename, List.map_cons, List.map_nil, R.mem_map]
      split <;> rfl
  · simp only [Pddl.cycleStep, CycleState.rename, List.map_cons, R.mem_map, R.nbrs]
    split
    · rfl
    · simp [CycleState.rename, List.map_reverse, Function.comp_def]

theorem Spec.Renaming.cycleRun (g : Graph) (n : Nat) (s : CycleState) :
    Pddl.cycleRun (g.rename ρ) n (s.rename ρ) = (Pddl.cycleRun g n s).map (Option.map (List.map ρ)) := by
  induction n generalizing s with
  | zero => rfl
  | succ n ih =>
    simp only [Pddl.cycleRun, R.cycleStep]
    cases Pddl.cycleStep g s with
    | inl s' => exact ih s'
    | inr r => rfl

theorem Spec.Renaming.findCycle (g : Graph) :
    Pddl.findCycle (g.rename ρ) = (Pddl.findCycle g).map (List.map ρ) := by
  have hf : cycleFuel (g.rename ρ) = cycleFuel g := by
    have : ((g.rename ρ).map (fun p => (p.2.getD []).length)) = g.map (fun p => (p.2.getD []).length) := by
      simp only [Graph.rename, List.map_map]
      apply List.map_congr_left
      rintro ⟨k, _ | l⟩ _ <;> simp
    simp only [cycleFuel, this]
    simp [Graph.rename]
  have hi : cycleInit (g.rename ρ) = (cycleInit g).rename ρ := by
    simp [cycleInit, CycleState.rename, Graph.rename, Function.comp_def]
  simp only [Pddl.findCycle, hf, hi, R.cycleRun]
  cases Pddl.cycleRun g (cycleFuel g) (cycleInit g) <;> rfl

/-! ### Checks -/

theorem Spec.Renaming.typesAll (d : TypeDict) : Pddl.typesAll (renameTypes ρ d) = (Pddl.typesAll d).map ρ := by
  unfold Pddl.typesAll
  rw [← R.dedup]
  congr 1
  rw [List.map_append]
  congr 1
  · simp [renameTypes, Function.comp_def]
  · rw [renameTypes, List.filterMap_map, List.map_filterMap]; rfl

theorem Spec.Renaming.checkTypeDict (d : TypeDict) (rs : List Req) :
    Pddl.checkTypeDict (renameTypes ρ d) rs = Pddl.checkTypeDict d rs := by
  have h1 : (renameTypes ρ d).length = d.length := by simp [renameTypes]
  have h2 : ((renameTypes ρ d).filterMap Prod.snd).length = (d.filterMap Prod.snd).length := by
    have : (renameTypes ρ d).filterMap Prod.snd = (d.filterMap Prod.snd).map ρ := by
      rw [renameTypes, List.filterMap_map, List.map_filterMap]; rfl
    rw [this, List.length_map]
  have h3 : dictGet (renameTypes ρ d) s%"object" = (dictGet d s%"object").map (Option.map ρ) := by
    have := dictGet_ren (g := Option.map ρ) R.inj d s%"object"
    rwa [R.symbol (w := s%"object") (by simp [allSymbols])] at this
  have h4 : typeGraph (renameTypes ρ d) = (typeGraph d).rename ρ := by
    simp only [typeGraph, renameTypes, Graph.rename, List.map_map]
    apply List.map_congr_left
    rintro ⟨k, _ | v⟩ _ <;> rfl
  unfold Pddl.checkTypeDict
  rw [h1, h2, h3, h4, R.findCycle]
  rcases dictGet d s%"object" with _ | _ | v <;> simp

theorem Spec.Renaming.mkTypes (d : TypeDict) (rs : List Req) :
    Pddl.mkTypes (renameTypes ρ d) rs = (Pddl.mkTypes d rs).map (renameTypes ρ) := by
  unfold Pddl.mkTypes
  refine map_bind_map (R.toTypes d) (fun d' _ => ?_)
  have := R.checkTypeDict d' rs
  refine map_bind_map (g := id) ?_ (fun _ _ => rfl)
  rw [show List.map (fun p => (ρ p.1, Option.map ρ p.2)) d' = renameTypes ρ d' from rfl, this]
  cases Pddl.checkTypeDict d' rs <;> rfl

omit R in
def TCtx.rename (ρ : Str → Str) (c : TCtx) : TCtx := ⟨c.all.map ρ, c.reqs⟩

theorem Spec.Renaming.checkTerm (c : TCtx) (t : Term) : (c.rename ρ).checkTerm (t.rename ρ) = c.checkTerm t := by
  have h : (c.rename ρ).checkAvail (t.tags.map ρ) = c.checkAvail t.tags := by
    unfold TCtx.checkAvail
    congr 1
    simp [TCtx.rename, R.eq_iff]
  have h' : (c.rename ρ).checkReq (t.tags.map ρ) = c.checkReq t.tags := by
    unfold TCtx.checkReq
    rw [List.length_map]
    rfl
  rw [TCtx.checkTerm, Term.rename_tags, h, h']
  rfl

omit R in
theorem checkEach_rename {α β : Type} {f : α → Except Exc Unit} {f' : β → Except Exc Unit} {g : α → β} (l : List α)
    (h : ∀ a ∈ l, f' (g a) = f a) : checkEach f' (l.map g) = checkEach f l := by
  induction l with
  | nil => rfl
  | cons a l ih =>
    simp only [List.map_cons, checkEach, h a (by simp), ih (fun x hx => h x (List.mem_cons_of_mem _ hx))]

theorem Spec.Renaming.checkTerms (c : TCtx) (ts : List Term) :
    checkEach (c.rename ρ).checkTerm (ts.map (Term.rename ρ)) = checkEach c.checkTerm ts :=
  checkEach_rename ts (fun t _ => R.checkTerm c t)

theorem Spec.Renaming.checkVars (c : TCtx) (vs : List Var) :
    checkEach (c.rename ρ).checkTerm ((vs.map (Var.rename ρ)).map Term.var) =
      checkEach c.checkTerm (vs.map Term.var) := by
  rw [← R.checkTerms c (vs.map Term.var), List.map_map, List.map_map]
  rfl

omit R in
theorem checkExprs_rename_of {c : TCtx} {as : List Expr}
    (ih : ∀ a ∈ as, (c.rename ρ).checkExpr (a.rename ρ) = c.checkExpr a) :
    TCtx.checkExprs (c.rename ρ) (Expr.renames ρ as) = TCtx.checkExprs c as := by
  induction as with
  | nil => simp [Expr.renames, TCtx.checkExprs]
  | cons a as ihl =>
    simp only [Expr.renames, TCtx.checkExprs, ih a (by simp), ihl (fun x hx => ih x (List.mem_cons_of_mem _ hx))]

theorem Spec.Renaming.checkExpr (c : TCtx) (a : Expr) : (c.rename ρ).checkExpr (a.rename ρ) = c.checkExpr a := by
  induction a using Expr.ind with
  | hpred p => simp only [Expr.rename, TCtx.checkExpr, Pred.rename, R.checkTerms]
  | heq l r => simp only [Expr.rename, TCtx.checkExpr, R.checkTerm]
  | hnfun f => simp only [Expr.rename, TCtx.checkExpr, NFun.rename, R.checkTerms]
  | hnum n => simp only [Expr.rename, TCtx.checkExpr]
  | hbfun o as ih => simp only [Expr.rename, TCtx.checkExpr, checkExprs_rename_of ih]
  | hbin o as ih => simp only [Expr.rename, TCtx.checkExpr, checkExprs_rename_of ih]
  | hnot a ih => simp only [Expr.rename, TCtx.checkExpr, ih]
  | hquant q vs c ih => simp only [Expr.rename, TCtx.checkExpr, ih, R.checkVars]
  | hwhen c e ih1 ih2 => simp only [Expr.rename, TCtx.checkExpr, ih1, ih2]
  | hfall vs e ih => simp only [Expr.rename, TCtx.checkExpr, ih, R.checkVars]

theorem Spec.Renaming.checkAction (c : TCtx) (a : Action) : (c.rename ρ).checkAction (a.rename ρ) = c.checkAction a := by
  have h : ∀ o : Option Expr, (c.rename ρ).checkOpt (o.map (Expr.rename ρ)) = c.checkOpt o := by
    rintro (_ | e)
    · rfl
    · exact R.checkExpr c e
  simp only [TCtx.checkAction, Action.rename, R.checkTerms, h]

theorem Spec.Renaming.checkHasTerms (all : List Str) (l : List (List Term)) :
    Pddl.checkHasTerms (all.map ρ) (l.map (List.map (Term.rename ρ))) = Pddl.checkHasTerms all l := by
  have : (l.map (List.map (Term.rename ρ))).all
      (fun ts => ts.all (fun t => t.tags.all (fun x => decide (x ∈ all.map ρ)))) =
      l.all (fun ts => ts.all (fun t => t.tags.all (fun x => decide (x ∈ all)))) := by
    rw [List.all_map]; congr 1; funext ts
    simp only [Function.comp, List.all_map]; congr 1; funext t
    simp only [Function.comp, Term.rename_tags, List.all_map]; congr 1; funext x
    simp only [Function.comp, R.mem_map]
  simp only [Pddl.checkHasTerms, this]

theorem Spec.Renaming.checkTotalCost (d : FunDict) (rs : List Req) :
    Pddl.checkTotalCost (renameFuns ρ d) rs = Pddl.checkTotalCost d rs := by
  have k : ∀ w, (ρ w = s%"total-cost" ↔ w = s%"total-cost") := fun w => R.fixed_iff (R.symbol (by simp [allSymbols]))
  simp only [Pddl.checkTotalCost, renameFuns, List.any_map, Function.comp_def, NFun.rename, k, List.isEmpty_map]

theorem Spec.Renaming.checkConsistency (d : Domain) : (d.rename ρ).checkConsistency = d.checkConsistency := by
  have hc : (⟨Pddl.typesAll (d.types.map (fun p => (ρ p.1, p.2.map ρ))), d.reqs⟩ : TCtx) =
      TCtx.rename ρ ⟨Pddl.typesAll d.types, d.reqs⟩ := by
    show TCtx.mk (Pddl.typesAll (renameTypes ρ d.types)) _ = _
    rw [R.typesAll]; rfl
  have h1 : (d.predicates.map (Pred.rename ρ)).map Expr.pred = (d.predicates.map Expr.pred).map (Expr.rename ρ) := by
    simp [Function.comp_def, Expr.rename]
  have h2 : (d.actions.map (Action.rename ρ)).map Action.params =
      (d.actions.map Action.params).map (List.map (Term.rename ρ)) := by
    simp [Function.comp_def, Action.rename]
  have h3 : (d.derived.map (Derived.rename ρ)).map (fun dp => dp.pred.terms) =
      (d.derived.map (fun dp => dp.pred.terms)).map (List.map (Term.rename ρ)) := by
    simp [Function.comp_def, Derived.rename, Pred.rename]
  have h4 := R.checkHasTerms (Pddl.typesAll d.types)
  unfold Domain.checkConsistency
  simp only [Domain.rename]
  rw [hc, h1, h2, h3, R.checkTerms]
  rw [checkEach_rename _ (fun a _ => R.checkExpr _ a), checkEach_rename _ (fun a _ => R.checkAction _ a)]
  rw [show Pddl.typesAll (d.types.map (fun p => (ρ p.1, p.2.map ρ))) = _ from R.typesAll d.types, h4, h4]

omit R in
def DomainArgs.rename (ρ : Str → Str) (a : DomainArgs) : DomainArgs where
  name := ρ a.name
  reqs := a.reqs
  types := renameTypes ρ a.types
  constants := a.constants.map (Term.rename ρ)
  predicates := a.predicates.map (Pred.rename ρ)
  functions := renameFuns ρ a.functions
  derived := a.derived.map (Derived.rename ρ)
  actions := a.actions.map (Action.rename ρ)

theorem Spec.Renaming.mkDomain (a : DomainArgs) :
    Pddl.mkDomain (a.rename ρ) = (Pddl.mkDomain a).map (Domain.rename ρ) := by
  unfold Pddl.mkDomain
  simp only [DomainArgs.rename, dedupBy_ren R.termEq, dedupBy_ren R.predEq, dedupBy_ren R.derivedEq,
    dedupBy_ren R.actionEq, R.checkTotalCost]
  refine map_bind_map (R.parseName a.name) (fun n _ => ?_)
  refine map_bind_map (R.mkTypes a.types _) (fun ts _ => ?_)
  refine map_bind_map (g := id) (by cases Pddl.checkTotalCost a.functions (reqSet a.reqs) <;> rfl) (fun _ _ => ?_)
  have hc := R.checkConsistency (Domain.mk n (reqSet a.reqs) ts (dedupBy Term.pyEq a.constants)
    (dedupBy Pred.pyEq a.predicates) a.functions (dedupBy Derived.pyEq a.derived) (dedupBy Action.pyEq a.actions))
  refine map_bind_map (g := id) (x := (Domain.mk n (reqSet a.reqs) ts (dedupBy Term.pyEq a.constants)
    (dedupBy Pred.pyEq a.predicates) a.functions (dedupBy Derived.pyEq a.derived)
    (dedupBy Action.pyEq a.actions)).checkConsistency) ?_ (fun _ _ => rfl)
  refine Eq.trans hc ?_
  cases Domain.checkConsistency _ <;> rfl

end
end Pddl
