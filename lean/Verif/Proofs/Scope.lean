/-
Conditions read with and without parameters, then given the types of a derived head.
-/
import Verif.Proofs.Erase
import Verif.Proofs.ParseDom
import Verif.Proofs.ActionText
import Verif.Proofs.Types
import Verif.Proofs.Keeps

namespace Pddl
open Spec

/-! ### Variables that a mapping covers -/

/-- The name of a variable has the property. -/
def CovT (P : Str → Prop) (t : Term) : Prop := ∀ v, t = .var v → P v.name

mutual
/-- All occurrences of variables that no quantifier inside binds have the property. -/
def Cov (P : Str → Prop) : Expr → Prop
  | .pred p => ∀ t ∈ p.terms, CovT P t
  | .eq l r => CovT P l ∧ CovT P r
  | .nfun f => ∀ t ∈ f.terms, CovT P t
  | .num _ => True
  | .bfun _ as => Covs P as
  | .bin _ as => Covs P as
  | .not a => Cov P a
  | .quant _ vs c => Cov (fun n => P n ∨ ∃ v ∈ vs, v.name = n) c
  | .when _ _ => True
  | .fall _ _ => True
def Covs (P : Str → Prop) : List Expr → Prop
  | [] => True
  | a :: as => Cov P a ∧ Covs P as
end

theorem covs_iff {P : Str → Prop} {as : List Expr} : Covs P as ↔ ∀ a ∈ as, Cov P a := by
  induction as with
  | nil => simp [Covs]
  | cons a as ih => simp [Covs, ih]

theorem cov_ofCls {P : Str → Prop} {c : Cls} {as : List Expr} : Cov P (Expr.ofCls c as) ↔ ∀ a ∈ as, Cov P a := by
  cases c <;> simp only [Expr.ofCls, Cov, covs_iff]

theorem cov_construct {P : Str → Prop} {c : Cls} {args : List Expr} (h : ∀ a ∈ args, Cov P a) :
    Cov P (construct c args) := by
  have hf : ∀ e ∈ flattenEs c args ++ args, Cov P e := by
    intro e he
    rcases List.mem_append.mp he with he | he
    · exact flatten_closed (P := Cov P) c (fun e as ho hc => by
        rw [ofCls_operandsIf.1 ho] at hc
        exact cov_ofCls.1 hc) args h e he
    · exact h e he
  rcases construct_cases c args with ⟨e, he, hmem, _⟩ | ⟨as, he, hst, hmem⟩
  · rw [he]; exact hf e hmem
  · rw [he, cov_ofCls]; exact fun e h => hf e (hmem e h)

theorem cov_pairs {P : Str → Prop} {ts : List Tree} {es : List Expr} (hl : ts.length = es.length)
    (h : ∀ p ∈ ts.zip es, Cov P p.2) : ∀ e ∈ es, Cov P e := by
  intro e he
  obtain ⟨t, _, h⟩ := Pairs.mem_right (R := fun _ e => Cov P e) ⟨hl, h⟩ he
  exact h

theorem cov_terms {E : GEnv} (hE : E.Plain) {P : Str → Prop} {args : List Tree} {ts : List Term} (h : E.terms args = .ok ts)
    (hp : ∀ n, Writes n args → P n) : ∀ t ∈ ts, CovT P t := by
  intro t ht v hv
  rcases (terms_erase hE h).2 t ht with ⟨n, rfl, hw⟩ | ⟨n, x, rfl, _⟩
  · cases hv; exact hp _ hw
  · cases hv

/-- A list of which the first element is not `forall` or `exists`. -/
theorem not_quantifier {t : Tree} {l : List Tree} (h : t ≠ .atom (.name s%"forall") ∧ t ≠ .atom (.name s%"exists")) :
    ∀ vs c, ¬ IsQuantifier (t :: l) vs c := by
  rintro vs c ⟨w, hw, e⟩
  simp only [List.cons.injEq] at e
  rcases hw with rfl | rfl
  · exact h.1 e.1
  · exact h.2 e.1

theorem FRel.cov {E : GEnv} (hE : E.Plain) {P : Str → Prop} {t : Tree} {e : Expr} (h : FRel E t e)
    (hp : ∀ n, FreeIn n t → P n) : Cov P e := by
  induction h with
  | num h => trivial
  | @plus args es h2 hl hr ih =>
    exact cov_construct (cov_pairs hl fun p hm => ih p hm fun n hn =>
      hp n (.part (List.mem_cons_of_mem _ (List.of_mem_zip hm).1) (not_quantifier (by simp)) hn))
  | @times args es h2 hl hr ih =>
    exact cov_construct (cov_pairs hl fun p hm => ih p hm fun n hn =>
      hp n (.part (List.mem_cons_of_mem _ (List.of_mem_zip hm).1) (not_quantifier (by simp)) hn))
  | divide r1 r2 h1 h2 =>
    refine cov_construct fun a ha => ?_
    simp only [List.mem_cons, List.not_mem_nil, or_false] at ha
    rcases ha with rfl | rfl
    · exact h1 fun n hn => hp n (.part (by simp) (not_quantifier (by simp)) hn)
    · exact h2 fun n hn => hp n (.part (by simp) (not_quantifier (by simp)) hn)
  | minus r1 h1 =>
    refine cov_construct fun a ha => ?_
    simp only [List.mem_cons, List.not_mem_nil, or_false] at ha
    subst ha
    exact h1 fun n hn => hp n (.part (by simp) (not_quantifier (by simp)) hn)
  | fn0 h => obtain ⟨h1, rfl⟩ := mkNFun_ok.1 h; simp [Cov]
  | fn h h' =>
    obtain ⟨h1, rfl⟩ := mkNFun_ok.1 h'
    exact cov_terms hE h fun n hn => hp n (.here (writes_cons hn))

theorem writes_split {n : Str} {ns : List Str} {zs : List Tree} (h : Writes n (ns.flatMap varTrees ++ zs)) :
    n ∈ ns ∨ Writes n zs := by
  induction ns with
  | nil => exact .inr (by simpa using h)
  | cons m ns ih =>
    obtain ⟨pre, post, e⟩ := h
    simp only [List.flatMap_cons, varTrees, List.cons_append, List.nil_append] at e
    match pre, e with
    | [], e =>
      simp only [List.nil_append, List.cons_append, List.cons.injEq, Tree.atom.injEq, Tok.name.injEq] at e
      exact .inl (by simp [e.2.1])
    | [x], e => simp at e
    | x :: y :: pre, e =>
      simp only [List.cons_append, List.cons.injEq] at e
      rcases ih ⟨pre, post, by rw [← varTrees] at *; exact e.2.2⟩ with h | h
      · exact .inl (by simp [h])
      · exact .inr h

theorem writes_tail {n : Str} {t : Tree} {zs : List Tree} (ht : t ≠ .atom .qmark) (h : Writes n (t :: zs)) : Writes n zs := by
  obtain ⟨pre, post, e⟩ := h
  match pre, e with
  | [], e => simp [varTrees] at e; exact absurd e.1 ht
  | x :: pre, e =>
    simp only [List.cons_append, List.cons.injEq] at e
    exact ⟨pre, post, e.2⟩

theorem writes_mem {n : Str} {ns : List Str} (h : n ∈ ns) (zs : List Tree) : Writes n (ns.flatMap varTrees ++ zs) := by
  obtain ⟨a, b, rfl⟩ := List.append_of_mem h
  exact ⟨a.flatMap varTrees, b.flatMap varTrees ++ zs, by simp⟩

theorem vars_rest (ns : List Str) (n : Str) : (∃ p ∈ TypedList.vars ⟨[], ns.map .str⟩, p.1 = n) ↔ n ∈ ns := by
  simp [TypedList.vars, TypedList.assigned]

theorem vars_group (ns types : List Str) (l : TypedList) (n : Str) :
    (∃ p ∈ TypedList.vars ⟨(ns.map .str, .list types) :: l.groups, l.rest⟩, p.1 = n) ↔ n ∈ ns ∨ ∃ p ∈ l.vars, p.1 = n := by
  have e : TypedList.vars ⟨(ns.map .str, .list types) :: l.groups, l.rest⟩ =
      ns.map (fun n => (n, typesOf (.list types))) ++ l.vars := by
    simp only [TypedList.vars, TypedList.assigned, List.flatMap_cons, List.append_assoc, List.filterMap_append]
    congr 1
    simp only [List.map_map, List.filterMap_map]
    induction ns with
    | nil => rfl
    | cons a ns ih => simpa using ih
  rw [e]
  simp only [List.mem_append, List.mem_map]
  constructor
  · rintro ⟨p, ⟨m, hm, rfl⟩ | hp, rfl⟩
    · exact .inl hm
    · exact .inr ⟨p, hp, rfl⟩
  · rintro (h | ⟨p, hp, rfl⟩)
    · exact ⟨_, .inl ⟨n, h, rfl⟩, rfl⟩
    · exact ⟨p, .inr hp, rfl⟩

/-- The variables of a typed list are those that are written. -/
theorem Spec.VarsText.writes_iff {ts : List Tree} {l : TypedList} (h : VarsText ts l) (n : Str) :
    Writes n ts ↔ ∃ p ∈ l.vars, p.1 = n := by
  induction h with
  | rest ns =>
    rw [vars_rest]
    constructor
    · intro h
      rcases writes_split (zs := []) (by simpa using h) with h | ⟨pre, post, e⟩
      · exact h
      · simp [varTrees] at e
    · intro h
      simpa using writes_mem h []
  | @group m ns t types ts l ht hv ih =>
    rw [vars_group, ← ih]
    constructor
    · intro h
      rcases writes_split h with h | h
      · exact .inl h
      · refine .inr (writes_tail ?_ (writes_tail (by simp) h))
        rintro rfl
        cases ht
    · rintro (h | ⟨pre, post, rfl⟩)
      · exact writes_mem h _
      · exact ⟨(m :: ns).flatMap varTrees ++ .atom .minus :: t :: pre, post, by simp⟩

/-- The list of variables of a quantifier gives the variables that are written in it. -/
theorem written_vars {vs : List Tree} {toks : List TTok} {l : List (Str × List Str)} {vars : List Var}
    (hw : ∀ w, .atom (.name w) ∈ vs → nameRegex w = true)
    (h1 : typedVarToks false vs = some toks) (h2 : typedListVariable toks = .ok l) (h3 : mkVars l = .ok vars) (n : Str) :
    Writes n vs ↔ ∃ v ∈ dedupBy Var.pyEq vars, v.name = n := by
  obtain ⟨L, hL, rfl⟩ := typedVarToks_iff.1 h1
  obtain ⟨ok, hc, rfl⟩ := typedListVariable_ok hL hw h2
  have hv : ∀ p ∈ L.vars.map (fun p => (p.1, dd p.2)), ValidName p.1 ∧ ∀ t ∈ p.2, ValidType t := by
    intro p hp
    obtain ⟨q, hq, rfl⟩ := List.mem_map.1 hp
    obtain ⟨g1, g2⟩ := vars_valid ok q hq
    exact ⟨g1, fun t ht => g2 t (dd_mem.1 ht)⟩
  rw [mkVars_ok hv] at h3
  simp only [Except.ok.injEq] at h3
  subst h3
  rw [hL.writes_iff]
  constructor
  · rintro ⟨p, hp, rfl⟩
    have := dedupBy_cover (eq := Var.pyEq) (fun a => Var.pyEq_iff.2 rfl)
      (List.mem_map_of_mem (f := fun p : Str × List Str => (⟨p.1, dd p.2⟩ : Var)) (List.mem_map_of_mem (f := fun p => (p.1, dd p.2)) hp))
    obtain ⟨v, hv, e⟩ := memBy_iff.1 this
    refine ⟨v, hv, ?_⟩
    simp only [Var.pyEq, Bool.and_eq_true, decide_eq_true_eq] at e
    first | exact e.1.symm | exact e.1
  · rintro ⟨v, hv, rfl⟩
    have := dedupBy_subset hv
    simp only [List.map_map, List.mem_map, Function.comp_apply] at this
    obtain ⟨p, hp, rfl⟩ := this
    exact ⟨p, hp, rfl⟩

theorem Cov.mono {P Q : Str → Prop} {e : Expr} (h : ∀ n, P n → Q n) (hc : Cov P e) : Cov Q e := by
  have ht : ∀ {P Q : Str → Prop}, (∀ n, P n → Q n) → ∀ t, CovT P t → CovT Q t := fun h t g v e => h _ (g v e)
  induction e using Expr.ind generalizing P Q with
  | hpred p => exact fun t m => ht h t (hc t m)
  | heq l r => exact ⟨ht h l hc.1, ht h r hc.2⟩
  | hnfun f => exact fun t m => ht h t (hc t m)
  | hnum n => trivial
  | hbfun o as ih => exact covs_iff.2 fun a ha => ih a ha h (covs_iff.1 hc a ha)
  | hbin o as ih => exact covs_iff.2 fun a ha => ih a ha h (covs_iff.1 hc a ha)
  | hnot a ih => exact ih (P := P) (Q := Q) h hc
  | hquant q vs c ih => exact ih (fun n hn => hn.imp (h n) id) hc
  | hwhen => trivial
  | hfall => trivial

theorem GRel.cov {E : GEnv} (hE : E.Plain) (ht : E.typedVars = typedListVariable) {P : Str → Prop} {t : Tree} {e : Expr}
    (h : GRel E t e) (hw : ∀ w, Inside (.atom (.name w)) t → nameRegex w = true)
    (hp : ∀ n, FreeIn n t → P n) : Cov P e := by
  induction h generalizing P with
  | @and args es hl hr ih =>
    exact cov_construct (cov_pairs hl fun p hm => ih p hm
      (fun w hi => hw w (.node (List.mem_cons_of_mem _ (List.of_mem_zip hm).1) hi))
      fun n hn => hp n (.part (List.mem_cons_of_mem _ (List.of_mem_zip hm).1) (not_quantifier (by decide)) hn))
  | @or args es hl hr hu ih =>
    exact cov_construct (cov_pairs hl fun p hm => ih p hm
      (fun w hi => hw w (.node (List.mem_cons_of_mem _ (List.of_mem_zip hm).1) hi))
      fun n hn => hp n (.part (List.mem_cons_of_mem _ (List.of_mem_zip hm).1) (not_quantifier (by decide)) hn))
  | @not a e _ ih =>
    exact ih (P := P) (fun w hi => hw w (.node (t := a) (by simp) hi)) fun n hn => hp n (.part (by simp) (not_quantifier (by decide)) hn)
  | @imply a b e e' r1 r2 hu ih1 ih2 =>
    refine cov_construct fun x hx => ?_
    simp only [List.mem_cons, List.not_mem_nil, or_false] at hx
    rcases hx with rfl | rfl
    · exact ih1 (fun w hi => hw w (.node (t := a) (by simp) hi)) fun n hn => hp n (.part (by simp) (not_quantifier (by decide)) hn)
    · exact ih2 (fun w hi => hw w (.node (t := b) (by simp) hi)) fun n hn => hp n (.part (by simp) (not_quantifier (by decide)) hn)
  | @quant q vs c e toks l vars h1 h2 _ h4 h5 ih =>
    unfold mkQuant
    refine ih (fun w hi => hw w (.node (t := c) (by simp) hi)) fun n hn => ?_
    rw [ht] at h2
    have hw' : ∀ w, .atom (.name w) ∈ vs → nameRegex w = true := fun w hm =>
      hw w (.node (t := .node vs) (by simp) (.node hm .refl))
    by_cases hb : Writes n vs
    · exact .inr ((written_vars hw' h1 h2 h5 n).1 hb)
    · refine .inl (hp n (.under ⟨q.symbol, ?_, rfl⟩ hb hn))
      cases q
      · first | exact .inl rfl | exact .inr rfl
      · first | exact .inl rfl | exact .inr rfl
  | @atom n args ts p hn h1 h2 =>
    obtain ⟨k1, k2, rfl⟩ := mkPred_ok.1 h2
    exact cov_terms hE h1 fun n hn => hp n (.here (writes_cons hn))
  | @eq args l r e hs h1 hu h2 =>
    obtain ⟨k2, rfl⟩ := mkEq_ok.1 h2
    have := cov_terms hE h1 fun n hn => hp n (.here (writes_cons hn))
    exact ⟨this l (by simp), this r (by simp)⟩
  | @comp t op a b e e' ho hs h1 h2 =>
    have hq : ∀ vs c, ¬ IsQuantifier [.atom t, a, b] vs c := by
      rintro vs c ⟨w, _, e⟩
      simp only [List.cons.injEq, Tree.atom.injEq] at e
      rw [e.1] at ho
      simp [compOp] at ho
    refine cov_construct fun x hx => ?_
    simp only [List.mem_cons, List.not_mem_nil, or_false] at hx
    rcases hx with rfl | rfl
    · exact (fExp_rel h1).cov hE fun n hn => hp n (.part (by simp) hq hn)
    · exact (fExp_rel h2).cov hE fun n hn => hp n (.part (by simp) hq hn)

/-! ### Giving types to a condition -/

theorem bind_has {env : VarTypes} {vs : List Var} {n : Str} (h : (dictGet env n).isSome ∨ ∃ v ∈ vs, v.name = n) :
    (dictGet (bindTypes env vs) n).isSome := by
  rw [dictGet_bindTypes]
  cases hf : vs.reverse.find? (fun v => decide (v.name = n)) with
  | some v => simp
  | none =>
    rcases h with h | ⟨v, hv, hn⟩
    · exact h
    · have := List.find?_eq_none.1 hf v (by simpa using hv)
      simp [hn] at this

theorem retag_erase {τ : Str → List Str} {env : VarTypes} {t : Term} (hu : ∀ v ∈ varOf t, v.tags = τ v.name)
    (hc : CovT (fun n => (dictGet env n).isSome ∨ τ n = []) t) : (eraseTerm t).retag env = t.retag env := by
  cases t with
  | const n x => rfl
  | var v =>
    have h1 : v.tags = τ v.name := hu v (by simp [varOf])
    simp only [eraseTerm, Term.retag]
    cases hd : dictGet env v.name with
    | some tags => rfl
    | none =>
      rcases hc v rfl with h | h
      · rw [hd] at h; simp at h
      · obtain ⟨n, tags⟩ := v
        simp only at h1 h
        rw [h1, h]

theorem retags_erase {τ : Str → List Str} {env : VarTypes} {ts : List Term} (hu : ∀ t ∈ ts, ∀ v ∈ varOf t, v.tags = τ v.name)
    (hc : ∀ t ∈ ts, CovT (fun n => (dictGet env n).isSome ∨ τ n = []) t) :
    (ts.map eraseTerm).mapM (Term.retag env) = ts.mapM (Term.retag env) := by
  induction ts with
  | nil => rfl
  | cons t ts ih =>
    simp only [List.map_cons, List.mapM_cons]
    rw [retag_erase (hu t (by simp)) (hc t (by simp)), ih (fun x hx => hu x (by simp [hx])) (fun x hx => hc x (by simp [hx]))]

/-- The types of parameters do not matter for a condition the free variables of which are given types. -/
theorem updateTags_erase {τ : Str → List Str} {env : VarTypes} {e : Expr} (hu : ∀ v ∈ occurrences e, v.tags = τ v.name)
    (hc : Cov (fun n => (dictGet env n).isSome ∨ τ n = []) e) : (erase e).updateTags env = e.updateTags env := by
  have hl : ∀ (env : VarTypes) (as : List Expr), (∀ a ∈ as, (erase a).updateTags env = a.updateTags env) →
      Expr.updateTagss env (erases as) = Expr.updateTagss env as := by
    intro env as
    induction as with
    | nil => intro _; rfl
    | cons a as ih =>
      intro h
      simp only [erases, Expr.updateTagss]
      rw [h a (by simp), ih (fun x hx => h x (by simp [hx]))]
  induction e using Expr.ind generalizing env with
  | hpred p =>
    simp only [erase, Expr.updateTags]
    rw [retags_erase (τ := τ) _ hc]
    intro t ht v hv
    exact hu v (by simp only [occurrences, atoms, List.flatMap_cons, List.flatMap_nil, List.append_nil, List.mem_flatMap]; exact ⟨t, ht, hv⟩)
  | heq l r =>
    simp only [erase, Expr.updateTags]
    simp only [occurrences, atoms, List.flatMap_cons, List.flatMap_nil, List.append_nil, List.mem_append] at hu
    rw [retag_erase (τ := τ) (fun v hv => hu v (.inl hv)) hc.1, retag_erase (τ := τ) (fun v hv => hu v (.inr hv)) hc.2]
  | hnfun f =>
    simp only [erase, Expr.updateTags]
    rw [retags_erase (τ := τ) _ hc]
    intro t ht v hv
    exact hu v (by simp only [occurrences, atoms, List.flatMap_cons, List.flatMap_nil, List.append_nil, List.mem_flatMap]; exact ⟨t, ht, hv⟩)
  | hnum n => rfl
  | hbfun o as ih =>
    simp only [erase, Expr.updateTags]
    rw [hl env as fun a ha => ih a ha (fun v hv => hu v ?_) (covs_iff.1 hc a ha)]
    obtain ⟨x, hx, hv⟩ := List.mem_flatMap.1 hv
    exact List.mem_flatMap.2 ⟨x, by simp only [atoms]; exact mem_atomsAll.2 ⟨a, ha, hx⟩, hv⟩
  | hbin o as ih =>
    simp only [erase, Expr.updateTags]
    rw [hl env as fun a ha => ih a ha (fun v hv => hu v ?_) (covs_iff.1 hc a ha)]
    obtain ⟨x, hx, hv⟩ := List.mem_flatMap.1 hv
    exact List.mem_flatMap.2 ⟨x, by simp only [atoms]; exact mem_atomsAll.2 ⟨a, ha, hx⟩, hv⟩
  | hnot a ih =>
    simp only [erase, Expr.updateTags]
    rw [ih hu hc]
  | hquant q vs c ih =>
    simp only [erase, Expr.updateTags]
    rw [ih hu]
    refine Cov.mono (fun n h => ?_) hc
    rcases h with (h | h) | h
    · exact .inl (bind_has (.inl h))
    · exact .inr h
    · exact .inl (bind_has (.inr h))
  | hwhen => rfl
  | hfall => rfl

end Pddl
