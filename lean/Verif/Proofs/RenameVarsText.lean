/-
Renaming variables: reading the renamed text of an action.
-/
import Verif.Proofs.RenameVars
import Verif.Proofs.TypedText
import Verif.Proofs.Replace
import Verif.Proofs.ParseDom
import Verif.Proofs.Erase

namespace Pddl
open Spec

section
variable {ρ : Str → Str}

theorem renVars_cons {t : Tree} {ts : List Tree} (h : t ≠ .atom .qmark) :
    Tree.renVars ρ (t :: ts) = t.renVar ρ :: Tree.renVars ρ ts := by
  rw [Tree.renVars.eq_def]
  split
  · next he => cases he
  · next he => cases he; exact absurd rfl h
  · next he => cases he; rfl

theorem renVars_map {l : List Tree} (h : ∀ t ∈ l, t ≠ .atom .qmark) : Tree.renVars ρ l = l.map (Tree.renVar ρ) := by
  induction l with
  | nil => simp [Tree.renVars]
  | cons t l ih =>
    rw [renVars_cons (h t (by simp)), ih (fun t ht => h t (List.mem_cons_of_mem _ ht)), List.map_cons]

theorem startsWithTerm_renVars (l : List Tree) : startsWithTerm (Tree.renVars ρ l) = startsWithTerm l := by
  match l with
  | [] => simp [Tree.renVars]
  | t :: ts =>
    by_cases h : t = .atom .qmark
    · subst h
      rw [Tree.renVars.eq_def]
      split
      · next he => cases he
      · rfl
      · next he => cases he; simp [Tree.renVar, startsWithTerm]
    · rw [renVars_cons h]
      cases t with
      | atom k => cases k <;> simp_all [Tree.renVar, startsWithTerm]
      | node l => rfl

/-! ### Typed lists -/

theorem renVar_type {t : Tree} {l : List Str} (h : TypeText t l) : t.renVar ρ = t := by
  have key : ∀ l : List Str, Tree.renVars ρ (l.map (fun x => Tree.atom (.name x))) = l.map (fun x => Tree.atom (.name x)) := by
    intro l
    induction l with
    | nil => simp [Tree.renVars]
    | cons a l ih => rw [List.map_cons, renVars_cons (by simp), ih]; rfl
  cases h with
  | one n => rfl
  | either n ns => rw [Tree.renVar, renVars_cons (by simp), key]; rfl
  | fused c cs ns => rw [Tree.renVar, renVars_cons (by simp), key]; rfl

/-- The token with a name renamed. -/
def TTok.renVar (ρ : Str → Str) : TTok → TTok
  | .str n => .str (ρ n)
  | t => t

/-- The typed list with the items renamed. -/
def renList (ρ : Str → Str) (l : TypedList) : TypedList :=
  ⟨l.groups.map (fun g => (g.1.map (TTok.renVar ρ), g.2)), l.rest.map (TTok.renVar ρ)⟩

theorem renVars_names (ns : List Str) (ts : List Tree) :
    Tree.renVars ρ (ns.flatMap varTrees ++ ts) = (ns.map ρ).flatMap varTrees ++ Tree.renVars ρ ts := by
  induction ns with
  | nil => rfl
  | cons n ns ih =>
    simp only [List.flatMap_cons, varTrees, List.cons_append, List.nil_append, List.map_cons] at ih ⊢
    rw [Tree.renVars, ih]

theorem varsText_renVar {ts : List Tree} {l : TypedList} (h : VarsText ts l) : VarsText (Tree.renVars ρ ts) (renList ρ l) := by
  induction h with
  | rest ns =>
    have := renVars_names (ρ := ρ) ns []
    rw [List.append_nil] at this
    rw [this]
    have := VarsText.rest (ns.map ρ)
    simp only [Tree.renVars, List.append_nil]
    simpa [renList, List.map_map, Function.comp_def, TTok.renVar] using this
  | @group n ns t types ts l ht hv ih =>
    rw [renVars_names, renVars_cons (by simp), renVars_cons (by rintro rfl; cases ht), renVar_type ht]
    have := VarsText.group (n := ρ n) (ns := ns.map ρ) ht ih
    simpa [renList, List.map_map, Function.comp_def, TTok.renVar, Tree.renVar] using this

theorem renList_assigned (l : TypedList) :
    (renList ρ l).assigned = l.assigned.map (fun p => (p.1.renVar ρ, p.2)) := by
  simp only [TypedList.assigned, renList, List.map_append, List.map_flatMap, List.flatMap_map, List.map_map,
    Function.comp_def]

theorem renList_vars (l : TypedList) : (renList ρ l).vars = l.vars.map (fun p => (ρ p.1, p.2)) := by
  simp only [TypedList.vars, renList_assigned, List.filterMap_map, List.map_filterMap]
  congr 1
  funext p
  rcases p with ⟨_ | _ | _, _⟩ <;> rfl

variable {K : Str → Prop} (R : VarRenaming ρ K)
include R

theorem Spec.VarRenaming.listOk {l : TypedList} (h : l.Ok) : (renList ρ l).Ok := by
  have key : ∀ t, IsItem t → IsItem (t.renVar ρ) := by
    intro t ht
    cases t with
    | str n => exact R.valid n ht
    | list l => exact ht
    | fn f => exact ht
  refine ⟨?_, ?_, ?_⟩
  · intro g hg t ht
    obtain ⟨g', hg', rfl⟩ := List.mem_map.1 hg
    obtain ⟨t', ht', rfl⟩ := List.mem_map.1 ht
    exact key t' (h.items g' hg' t' ht')
  · intro t ht
    obtain ⟨t', ht', rfl⟩ := List.mem_map.1 ht
    exact key t' (h.rest t' ht')
  · intro g hg
    obtain ⟨g', hg', rfl⟩ := List.mem_map.1 hg
    exact h.types g' hg'

theorem Spec.VarRenaming.listCompatible {ts : List Tree} {l : TypedList} (ht : VarsText ts l) (h : Compatible l.itemsOf) :
    Compatible (renList ρ l).itemsOf := by
  intro p hp q hq e
  simp only [TypedList.itemsOf, renList_assigned, List.map_map, List.mem_map, Function.comp_apply] at hp hq
  obtain ⟨a, ha, rfl⟩ := hp
  obtain ⟨b, hb, rfl⟩ := hq
  refine h (toItem a.1, dd a.2) ?_ (toItem b.1, dd b.2) ?_ ?_
  · exact List.mem_map.2 ⟨a, ha, rfl⟩
  · exact List.mem_map.2 ⟨b, hb, rfl⟩
  · obtain ⟨n, hn⟩ := ht.assigned a ha
    obtain ⟨m, hm⟩ := ht.assigned b hb
    rw [hn, hm] at e
    rw [hn, hm]
    simp only [TTok.renVar, toItem, Item.pyEq, decide_eq_true_eq] at e ⊢
    exact R.inj _ _ e

/-- A renamed list of variables. -/
theorem Spec.VarRenaming.parseTypedVars {ts : List Tree} {vs : List Var} (hw : ∀ w, .atom (.name w) ∈ ts → nameRegex w = true)
    (h : Pddl.parseTypedVars ts = .ok vs) : Pddl.parseTypedVars (Tree.renVars ρ ts) = .ok (vs.map (Var.renVar ρ)) := by
  obtain ⟨l, hl, ok, hc, rfl⟩ := parseTypedVars_ok hw h
  rw [parseTypedVars_eq (varsText_renVar hl) (R.listOk ok) (R.listCompatible hl hc)]
  simp only [builtVars, renList_vars, List.map_map, Function.comp_def, Var.renVar]

theorem Spec.VarRenaming.actionParameters {ts : List Tree} {ps : List (Str × Term)}
    (hw : ∀ w, .atom (.name w) ∈ ts → nameRegex w = true) (h : Pddl.actionParameters ts = .ok ps) :
    Pddl.actionParameters (Tree.renVars ρ ts) = .ok (ps.map (fun p => (ρ p.1, p.2.renVar ρ))) := by
  obtain ⟨vs, hvs, h⟩ := bind_ok_iff.1 h
  simp only [pure_ok, Except.ok.injEq] at h
  subst h
  unfold Pddl.actionParameters
  rw [R.parseTypedVars hw hvs]
  simp only [ok_bind, pure_ok, List.map_map, Function.comp_def]
  rw [← dictOf_ren R.inj]
  simp [List.map_map, Function.comp_def, Var.renVar, Term.renVar]

/-! ### Formulas -/

omit R in
/-- The environment with its parameters renamed. -/
def GEnv.renVar (ρ : Str → Str) (E : GEnv) : GEnv := { E with params := E.params.map (fun p => (ρ p.1, p.2.renVar ρ)) }

variable {E : GEnv}

theorem Spec.VarRenaming.variable_ {n : Str} {t : Term} (h : E.variable n = .ok t) :
    (E.renVar ρ).variable (ρ n) = .ok (t.renVar ρ) := by
  unfold GEnv.variable at h ⊢
  simp only [GEnv.renVar, dictGet_ren R.inj]
  cases hd : dictGet E.params n with
  | some t' => rw [hd] at h; cases h; rfl
  | none =>
    rw [hd] at h
    simp only at h
    obtain ⟨v, hv, h⟩ := bind_ok_iff.1 h
    cases h
    obtain ⟨h1, h2, rfl⟩ := mkVar_set_ok.1 hv
    have : mkVar (ρ n) (.set []) = .ok ⟨ρ n, dedupBy (fun a b => decide (a = b)) []⟩ := mkVar_set_ok.2 ⟨R.valid n h1, by simp, rfl⟩
    simp only [Option.map_none, this, ok_bind]
    rfl

variable (hE : E.Plain) (hK : ∀ n t, E.constant n = .ok t → K n)
include hE hK

theorem Spec.VarRenaming.terms {args : List Tree} {ts : List Term} (h : E.terms args = .ok ts) :
    (E.renVar ρ).terms (Tree.renVars ρ args) = .ok (ts.map (Term.renVar ρ)) ∧ ConstsIn K ts := by
  rw [terms_rel] at h ⊢
  induction h with
  | nil => exact ⟨by rw [Tree.renVars]; exact .nil, by intro n tag h; simp at h⟩
  | @name n t l ts h1 _ ih =>
    obtain ⟨x, rfl⟩ := hE.constant _ _ h1
    rw [renVars_cons (by simp)]
    refine ⟨.name (E := E.renVar ρ) (t := .const n x) h1 ih.1, ?_⟩
    intro m tag hm
    rcases List.mem_cons.1 hm with e | hm
    · cases e; exact hK _ _ h1
    · exact ih.2 m tag hm
  | @var n t l ts h1 _ ih =>
    rw [Tree.renVars]
    refine ⟨.var (R.variable_ h1) ih.1, ?_⟩
    intro m tag hm
    rcases List.mem_cons.1 hm with e | hm
    · obtain ⟨rfl, _⟩ := variable_plain hE h1
      cases e
    · exact ih.2 m tag hm

theorem Spec.VarRenaming.fHead {t : Tree} {f : NFun} (h : E.fHead t = .ok f) :
    (E.renVar ρ).fHead (t.renVar ρ) = .ok (f.renVar ρ) := by
  match t, h with
  | .atom k, h =>
    cases k <;> simp only [GEnv.fHead] at h <;> try (cases h)
    rename_i n
    simp only [Tree.renVar, GEnv.fHead]
    have := mkNFun_renVar (ρ := ρ) n []
    rw [h] at this
    simpa using this
  | .node [], h => simp [GEnv.fHead] at h
  | .node (.node _ :: _), h => simp [GEnv.fHead] at h
  | .node (.atom k :: args), h =>
    cases k <;> simp only [GEnv.fHead] at h <;> try (cases h)
    rename_i n
    obtain ⟨ts, ht, h⟩ := bind_ok_iff.1 h
    rw [Tree.renVar, renVars_cons (by simp), Tree.renVar]
    simp only [GEnv.fHead, (R.terms hE hK ht).1, ok_bind, mkNFun_renVar, h]
    rfl

omit R hE hK in
theorem frel_not_qmark {t : Tree} {e : Expr} (h : FRel E t e) : t ≠ .atom .qmark := by
  rintro rfl; cases h

omit R hE hK in
theorem pairs_renVar {Q' : Tree → Expr → Prop} {args : List Tree} {es : List Expr} (hl : args.length = es.length)
    (hn : ∀ p ∈ args.zip es, p.1 ≠ .atom .qmark) (h : ∀ p ∈ args.zip es, Q' (p.1.renVar ρ) (p.2.renVar ρ)) :
    Tree.renVars ρ args = args.map (Tree.renVar ρ) ∧ (Tree.renVars ρ args).length = (es.map (Expr.renVar ρ)).length ∧
    ∀ p ∈ (Tree.renVars ρ args).zip (es.map (Expr.renVar ρ)), Q' p.1 p.2 := by
  have e : Tree.renVars ρ args = args.map (Tree.renVar ρ) := by
    apply renVars_map
    intro t ht
    obtain ⟨x, hx⟩ := List.getElem_of_mem ht
    obtain ⟨hx1, hx2⟩ := hx
    have : (t, es[x]'(hl ▸ hx1)) ∈ args.zip es := by
      rw [List.mem_iff_getElem]
      exact ⟨x, by simp [← hl, hx1], by simp [hx2]⟩
    exact hn _ this
  refine ⟨e, by rw [e]; simp [hl], ?_⟩
  rw [e, List.zip_map]
  intro p hp
  obtain ⟨q, hq, rfl⟩ := List.mem_map.1 hp
  exact h q hq

theorem Spec.VarRenaming.fRel {t : Tree} {e : Expr} (h : FRel E t e) : FRel (E.renVar ρ) (t.renVar ρ) (e.renVar ρ) := by
  induction h with
  | num h => rw [Tree.renVar, Expr.renVar]; exact .num h
  | @plus args es h1 h2 h3 ih =>
    obtain ⟨e1, e2, e3⟩ := pairs_renVar (Q' := FRel (E.renVar ρ)) h2 (fun p hp => frel_not_qmark (h3 p hp)) ih
    rw [Tree.renVar, renVars_cons (by simp), ← R.construct]
    exact .plus (by rw [e1]; simpa using h1) e2 e3
  | @times args es h1 h2 h3 ih =>
    obtain ⟨e1, e2, e3⟩ := pairs_renVar (Q' := FRel (E.renVar ρ)) h2 (fun p hp => frel_not_qmark (h3 p hp)) ih
    rw [Tree.renVar, renVars_cons (by simp), ← R.construct]
    exact .times (by rw [e1]; simpa using h1) e2 e3
  | divide h1 h2 ih1 ih2 =>
    rw [Tree.renVar, renVars_cons (by simp), renVars_cons (frel_not_qmark h1), renVars_cons (frel_not_qmark h2), ← R.construct]
    simp only [Tree.renVars]
    exact .divide ih1 ih2
  | minus h1 ih1 =>
    rw [Tree.renVar, renVars_cons (by simp), renVars_cons (frel_not_qmark h1), ← R.construct]
    simp only [Tree.renVars]
    exact .minus ih1
  | @fn0 n f h =>
    have := mkNFun_renVar (ρ := ρ) n []
    rw [h] at this
    rw [Tree.renVar, Expr.renVar]
    exact .fn0 (by simpa using this)
  | @fn n args ts f h1 h2 =>
    have := mkNFun_renVar (ρ := ρ) n ts
    rw [h2] at this
    rw [Tree.renVar, renVars_cons (by simp), Expr.renVar]
    exact .fn (R.terms hE hK h1).1 this

theorem Spec.VarRenaming.fExp {t : Tree} {e : Expr} (h : E.fExp t = .ok e) :
    (E.renVar ρ).fExp (t.renVar ρ) = .ok (e.renVar ρ) := fExp_iff.2 (R.fRel hE hK (fExp_iff.1 h))

omit hE hK in
theorem Spec.VarRenaming.mkPred_ok {n : Str} {ts : List Term} {p : Pred} (hc : ConstsIn K ts) (h : Pddl.mkPred n ts = .ok p) :
    Pddl.mkPred n (ts.map (Term.renVar ρ)) = .ok (p.renVar ρ) := by
  rw [R.mkPred n hc, h]; rfl

omit hE hK in
theorem Spec.VarRenaming.mkEq_ok {l r : Term} {e : Expr} (hc : ConstsIn K [l, r]) (h : Pddl.mkEq l r = .ok e) :
    Pddl.mkEq (l.renVar ρ) (r.renVar ρ) = .ok (e.renVar ρ) := by
  rw [R.mkEq hc, h]; rfl

theorem Spec.VarRenaming.atomic {a : List Tree} {e : Expr} (h : E.atomic a = .ok e) :
    (E.renVar ρ).atomic (Tree.renVars ρ a) = .ok (e.renVar ρ) := by
  match a, h with
  | [], h => simp [GEnv.atomic] at h
  | .node _ :: _, h => simp [GEnv.atomic] at h
  | .atom k :: args, h =>
    by_cases hk : ∃ n, k = .name n
    · obtain ⟨n, rfl⟩ := hk
      obtain ⟨ts, p, h1, h2, rfl⟩ := atomic_name_ok.1 h
      rw [renVars_cons (by simp), Tree.renVar]
      obtain ⟨g1, g2⟩ := R.terms hE hK h1
      exact atomic_name_ok.2 ⟨_, _, g1, R.mkPred_ok g2 h2, by rw [Expr.renVar]⟩
    · cases k <;> first | (simp only [GEnv.atomic] at h; cases h; done) | skip
      · obtain ⟨l, r, h1, h2, h3⟩ := atomic_eq_ok.1 h
        rw [renVars_cons (by simp), Tree.renVar]
        obtain ⟨g1, g2⟩ := R.terms hE hK h1
        exact atomic_eq_ok.2 ⟨l.renVar ρ, r.renVar ρ, g1, h2, R.mkEq_ok g2 h3⟩
      · exact absurd ⟨_, rfl⟩ hk

/-! ### Conditions and effects -/

variable (hT : E.typedVars = typedListVariable)
include hT

omit hE hK in
theorem Spec.VarRenaming.bound {vs : List Tree} {toks : List TTok} {l : List (Str × List Str)} {vars : List Var}
    (hw : ∀ w, .atom (.name w) ∈ vs → nameRegex w = true) (h1 : typedVarToks false vs = some toks)
    (h2 : E.typedVars toks = .ok l) (h3 : mkVars l = .ok vars) :
    ∃ toks' l', typedVarToks false (Tree.renVars ρ vs) = some toks' ∧ (E.renVar ρ).typedVars toks' = .ok l' ∧
      mkVars l' = .ok (vars.map (Var.renVar ρ)) := by
  rw [hT] at h2
  have : Pddl.parseTypedVars vs = .ok vars := by
    unfold Pddl.parseTypedVars; rw [h1]; simp only [h2, ok_bind, h3]
  have := R.parseTypedVars hw this
  unfold Pddl.parseTypedVars at this
  split at this
  · rename_i toks' ht
    obtain ⟨l', hl, this⟩ := bind_ok_iff.1 this
    exact ⟨toks', l', ht, by simp only [GEnv.renVar, hT]; exact hl, this⟩
  · simp at this

omit R hE hK hT in
theorem grel_not_qmark {t : Tree} {e : Expr} (h : GRel E t e) : t ≠ .atom .qmark := by
  rintro rfl; cases h

theorem Spec.VarRenaming.gRel {t : Tree} {e : Expr} (hw : ∀ w, Inside (.atom (.name w)) t → nameRegex w = true)
    (h : GRel E t e) : GRel (E.renVar ρ) (t.renVar ρ) (e.renVar ρ) := by
  have hsub : ∀ {l : List Tree} {t : Tree}, (∀ w, Inside (.atom (.name w)) (.node l) → nameRegex w = true) → t ∈ l →
      ∀ w, Inside (.atom (.name w)) t → nameRegex w = true := fun h ht w hi => h w (.node ht hi)
  induction h with
  | @and args es h1 h2 ih =>
    obtain ⟨e1, e2, e3⟩ := pairs_renVar (Q' := GRel (E.renVar ρ)) h1 (fun p hp => grel_not_qmark (h2 p hp))
      (fun p hp => ih p hp (hsub hw (List.mem_cons_of_mem _ (List.of_mem_zip hp).1)))
    rw [Tree.renVar, renVars_cons (by simp), ← R.mkAnd]
    exact .and e2 e3
  | @or args es h1 h2 h3 ih =>
    obtain ⟨e1, e2, e3⟩ := pairs_renVar (Q' := GRel (E.renVar ρ)) h1 (fun p hp => grel_not_qmark (h2 p hp))
      (fun p hp => ih p hp (hsub hw (List.mem_cons_of_mem _ (List.of_mem_zip hp).1)))
    rw [Tree.renVar, renVars_cons (by simp), ← R.mkOr]
    exact .or e2 e3 h3
  | not h1 ih =>
    rw [Tree.renVar, renVars_cons (by simp), renVars_cons (grel_not_qmark h1), Expr.renVar]
    simp only [Tree.renVars]
    exact .not (ih (hsub hw (by simp)))
  | imply h1 h2 h3 ih1 ih2 =>
    rw [Tree.renVar, renVars_cons (by simp), renVars_cons (grel_not_qmark h1), renVars_cons (grel_not_qmark h2), ← R.construct]
    simp only [Tree.renVars]
    exact .imply (ih1 (hsub hw (by simp))) (ih2 (hsub hw (by simp))) h3
  | @quant q vs c e toks l vars h1 h2 h3 h4 h5 ih =>
    obtain ⟨toks', l', g1, g2, g3⟩ := R.bound hT (fun w h => hw w (.node (t := .node vs) (by simp) (.node h .refl))) h1 h2 h5
    rw [Tree.renVar, renVars_cons (by simp), renVars_cons (by simp), renVars_cons (grel_not_qmark h3), ← R.mkQuant]
    simp only [Tree.renVars, Tree.renVar]
    exact .quant g1 g2 (ih (hsub hw (by simp))) h4 g3
  | atom h1 h2 h3 =>
    rw [Tree.renVar, renVars_cons (by simp), Expr.renVar]
    obtain ⟨g1, g2⟩ := R.terms hE hK h2
    exact .atom h1 g1 (R.mkPred_ok g2 h3)
  | eq h1 h2 h3 h4 =>
    rw [Tree.renVar, renVars_cons (by simp)]
    obtain ⟨g1, g2⟩ := R.terms hE hK h2
    exact .eq (by rw [startsWithTerm_renVars]; exact h1) g1 h3 (R.mkEq_ok g2 h4)
  | @comp t op a b e e' h1 h2 h3 h4 =>
    have ha := frel_not_qmark (fExp_iff.1 h3)
    have hb := frel_not_qmark (fExp_iff.1 h4)
    have hab : Tree.renVars ρ [a, b] = [a.renVar ρ, b.renVar ρ] := by
      rw [renVars_cons ha, renVars_cons hb]; simp [Tree.renVars]
    have ht : t ≠ .qmark := by rintro rfl; simp [compOp] at h1
    rw [Tree.renVar, renVars_cons (by simpa using ht), hab, ← R.construct]
    exact .comp h1 (fun e => by rw [← hab, startsWithTerm_renVars]; exact h2 e) (R.fExp hE hK h3) (R.fExp hE hK h4)

theorem Spec.VarRenaming.gd {t : Tree} {e : Expr} (hw : ∀ w, Inside (.atom (.name w)) t → nameRegex w = true)
    (h : E.gd t = .ok e) : (E.renVar ρ).gd (t.renVar ρ) = .ok (e.renVar ρ) := gd_iff.2 (R.gRel hE hK hT hw (gd_iff.1 h))

omit hT in
theorem Spec.VarRenaming.pRel {t : Tree} {e : Expr} (h : PRel E t e) : PRel (E.renVar ρ) (t.renVar ρ) (e.renVar ρ) := by
  cases h with
  | @not a e h =>
    rw [Tree.renVar, renVars_cons (by simp), renVars_cons (by simp), Expr.renVar]
    simp only [Tree.renVars, Tree.renVar]
    exact .not (R.atomic hE hK h)
  | @assign w op h x f e h1 h2 h3 =>
    have hh : h ≠ .atom .qmark := by rintro rfl; simp [GEnv.fHead] at h2
    have := R.construct (.fop op) [.nfun f, e]
    rw [Tree.renVar, renVars_cons (by simp), renVars_cons hh, renVars_cons (frel_not_qmark (fExp_iff.1 h3)), ← this]
    simp only [Tree.renVars, Tree.renVar, List.map_cons, List.map_nil, Expr.renVar]
    exact .assign h1 (R.fHead hE hK h2) (R.fExp hE hK h3)
  | @atom w args e h1 h2 h3 =>
    have := R.atomic hE hK h3
    rw [renVars_cons (by simp)] at this
    rw [Tree.renVar, renVars_cons (by simp)]
    exact .atom h1 h2 this
  | eq h =>
    have := R.atomic hE hK h
    rw [renVars_cons (by simp)] at this
    rw [Tree.renVar, renVars_cons (by simp)]
    exact .eq this

omit hT in
theorem Spec.VarRenaming.pEffect {t : Tree} {e : Expr} (h : E.pEffect t = .ok e) :
    (E.renVar ρ).pEffect (t.renVar ρ) = .ok (e.renVar ρ) := pEffect_iff.2 (R.pRel hE hK (pEffect_iff.1 h))

omit R hE hK hT in
theorem prel_not_qmark {t : Tree} {e : Expr} (h : PRel E t e) : t ≠ .atom .qmark := by
  rintro rfl; cases h

omit R hE hK hT in
/-- Renaming keeps the word a bracket starts with. -/
theorem renVar_head {t : Tree} {w : Str} {args : List Tree} (h : t.renVar ρ = .node (.atom (.name w) :: args)) :
    ∃ args', t = .node (.atom (.name w) :: args') := by
  match t, h with
  | .atom _, h => simp [Tree.renVar] at h
  | .node [], h => simp [Tree.renVar, Tree.renVars] at h
  | .node (u :: us), h =>
    by_cases hu : u = .atom .qmark
    · subst hu
      rw [Tree.renVar, Tree.node.injEq, Tree.renVars.eq_def] at h
      split at h
      · simp at h
      · simp at h
      · next he => cases he; simp [Tree.renVar] at h
    · rw [Tree.renVar, renVars_cons hu] at h
      simp only [Tree.node.injEq, List.cons.injEq] at h
      cases u with
      | atom k => rw [Tree.renVar] at h; rw [h.1]; exact ⟨us, rfl⟩
      | node l => simp [Tree.renVar] at h

omit hT in
theorem Spec.VarRenaming.cRel {t : Tree} {e : Expr} (h : CRel E t e) : CRel (E.renVar ρ) (t.renVar ρ) (e.renVar ρ) := by
  cases h with
  | @and args es h =>
    obtain ⟨e1, e2, e3⟩ := pairs_renVar (Q' := PRel (E.renVar ρ)) h.1 (fun p hp => prel_not_qmark (h.2 p hp))
      (fun p hp => R.pRel hE hK (h.2 p hp))
    rw [Tree.renVar, renVars_cons (by simp), ← R.mkAnd]
    exact .and ⟨e2, e3⟩
  | one h1 h2 =>
    refine .one (fun args e => ?_) (R.pRel hE hK h2)
    obtain ⟨args', rfl⟩ := renVar_head e
    exact h1 args' rfl

omit hT in
theorem Spec.VarRenaming.condEffect {t : Tree} {e : Expr} (h : E.condEffect t = .ok e) :
    (E.renVar ρ).condEffect (t.renVar ρ) = .ok (e.renVar ρ) := condEffect_iff.2 (R.cRel hE hK (condEffect_iff.1 h))

omit R hE hK hT in
theorem erel_not_qmark {b : Bool} {t : Tree} {e : Expr} (h : ERel E b t e) : t ≠ .atom .qmark := by
  rintro rfl
  cases h with
  | lit _ h => simp [GEnv.pEffect] at h

theorem Spec.VarRenaming.eRel {b : Bool} {t : Tree} {e : Expr} (hw : ∀ w, Inside (.atom (.name w)) t → nameRegex w = true)
    (h : ERel E b t e) : ERel (E.renVar ρ) b (t.renVar ρ) (e.renVar ρ) := by
  have hsub : ∀ {l : List Tree} {t : Tree}, (∀ w, Inside (.atom (.name w)) (.node l) → nameRegex w = true) → t ∈ l →
      ∀ w, Inside (.atom (.name w)) t → nameRegex w = true := fun h ht w hi => h w (.node ht hi)
  induction h with
  | @and args es h1 h2 ih =>
    obtain ⟨e1, e2, e3⟩ := pairs_renVar (Q' := ERel (E.renVar ρ) false) h1 (fun p hp => erel_not_qmark (h2 p hp))
      (fun p hp => ih p hp (hsub hw (List.mem_cons_of_mem _ (List.of_mem_zip hp).1)))
    rw [Tree.renVar, renVars_cons (by simp), ← R.mkAnd]
    exact .and e2 e3
  | @fall top vs t e toks l vars h1 h2 h3 h4 ih =>
    obtain ⟨toks', l', g1, g2, g3⟩ := R.bound hT (fun w h => hw w (.node (t := .node vs) (by simp) (.node h .refl))) h1 h2 h4
    rw [Tree.renVar, renVars_cons (by simp), renVars_cons (by simp), renVars_cons (erel_not_qmark h3), ← R.mkForall]
    simp only [Tree.renVars, Tree.renVar]
    exact .fall g1 g2 (ih (hsub hw (by simp))) g3
  | @«when» top c t c' e h1 h2 =>
    have ht : t ≠ .atom .qmark := by
      rintro rfl
      have := condEffect_iff.1 h2
      cases this with
      | one _ h => cases h
    rw [Tree.renVar, renVars_cons (by simp), renVars_cons (grel_not_qmark (gd_iff.1 h1)), renVars_cons ht, Expr.renVar]
    simp only [Tree.renVars, Tree.renVar]
    exact .when (R.gd hE hK hT (hsub hw (by simp)) h1) (R.condEffect hE hK h2)
  | @oneof top args es h0 h1 h2 h3 ih =>
    obtain ⟨e1, e2, e3⟩ := pairs_renVar (Q' := ERel (E.renVar ρ) true) h1 (fun p hp => erel_not_qmark (h2 p hp))
      (fun p hp => ih p hp (hsub hw (List.mem_cons_of_mem _ (List.of_mem_zip hp).1)))
    rw [Tree.renVar, renVars_cons (by simp), ← R.construct]
    exact .oneof (by rw [e1]; simpa using h0) e2 e3 h3
  | lit h1 h2 =>
    refine .lit (fun w args e => ?_) (R.pEffect hE hK h2)
    obtain ⟨args', rfl⟩ := renVar_head e
    exact h1 w args' rfl

theorem Spec.VarRenaming.effect {b : Bool} {t : Tree} {e : Expr} (hw : ∀ w, Inside (.atom (.name w)) t → nameRegex w = true)
    (h : E.effect b t = .ok e) : (E.renVar ρ).effect b (t.renVar ρ) = .ok (e.renVar ρ) :=
  effect_iff.2 (R.eRel hE hK hT hw (effect_iff.1 h))

theorem Spec.VarRenaming.preGd {t : Tree} {e : Expr} (hw : ∀ w, Inside (.atom (.name w)) t → nameRegex w = true)
    (h : E.preGd t = .ok e) : (E.renVar ρ).preGd (t.renVar ρ) = .ok (e.renVar ρ) := by
  by_cases ht : t = .node []
  · subst ht
    simp only [GEnv.preGd, pure_ok, Except.ok.injEq] at h
    subst h
    rw [← R.mkOr]
    simp [Tree.renVar, Tree.renVars, GEnv.preGd]
  · have h' : E.gd t = .ok e := by
      unfold GEnv.preGd at h; split at h
      · exact absurd rfl ht
      · exact h
    have := R.gd hE hK hT hw h'
    unfold GEnv.preGd
    split
    · rename_i e0
      rw [e0] at this
      simp [GEnv.gd] at this
    · exact this

theorem Spec.VarRenaming.effOpt {t : Tree} {e : Expr} (hw : ∀ w, Inside (.atom (.name w)) t → nameRegex w = true)
    (h : E.effOpt t = .ok e) : (E.renVar ρ).effOpt (t.renVar ρ) = .ok (e.renVar ρ) := by
  by_cases ht : t = .node []
  · subst ht
    simp only [GEnv.effOpt, pure_ok, Except.ok.injEq] at h
    subst h
    rw [← R.mkOr]
    simp [Tree.renVar, Tree.renVars, GEnv.effOpt]
  · have h' : E.effect true t = .ok e := by
      unfold GEnv.effOpt at h; split at h
      · exact absurd rfl ht
      · exact h
    have := R.effect hE hK hT hw h'
    unfold GEnv.effOpt
    split
    · rename_i e0
      rw [e0] at this
      simp [GEnv.effect, GEnv.pEffect] at this
    · exact this
end
end Pddl
