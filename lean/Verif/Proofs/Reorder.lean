/-
Printing does not depend on the order of sets, where they are sorted first.
-/
import Verif.Spec.Reorder
import Verif.Proofs.TypeTable
import Verif.Proofs.Eq

namespace Pddl
open Spec Spec.Reorder

/-! ### Sorting -/

theorem insertBy_map {α β} (f : α → β) (le : β → β → Bool) (a : α) (l : List α) :
    insertBy le (f a) (l.map f) = (insertBy (fun x y => le (f x) (f y)) a l).map f := by
  induction l with
  | nil => rfl
  | cons b l ih =>
    simp only [List.map_cons, insertBy]
    split
    · simp
    · simp [ih]

theorem sortBy_map {α β} (f : α → β) (le : β → β → Bool) (l : List α) :
    sortBy le (l.map f) = (sortBy (fun x y => le (f x) (f y)) l).map f := by
  induction l with
  | nil => rfl
  | cons a l ih => simp only [List.map_cons, sortBy, ih, insertBy_map]

theorem insertBy_forall₂ {α β} {R : α → β → Prop} {le : α → α → Bool} {le' : β → β → Bool}
    (h : ∀ a b a' b', R a a' → R b b' → le a b = le' a' b') {a : α} {a' : β} {l : List α} {l' : List β}
    (ha : R a a') (hl : List.Forall₂ R l l') : List.Forall₂ R (insertBy le a l) (insertBy le' a' l') := by
  induction hl with
  | nil => exact .cons ha .nil
  | cons hb hl ih =>
    unfold insertBy
    rw [h _ _ _ _ ha hb]
    split
    · exact .cons ha (.cons hb hl)
    · exact .cons hb ih

theorem sortBy_forall₂ {α β} {R : α → β → Prop} {le : α → α → Bool} {le' : β → β → Bool}
    (h : ∀ a b a' b', R a a' → R b b' → le a b = le' a' b') {l : List α} {l' : List β}
    (hl : List.Forall₂ R l l') : List.Forall₂ R (sortBy le l) (sortBy le' l') := by
  induction hl with
  | nil => exact .nil
  | cons hb _ ih => exact insertBy_forall₂ h hb ih

theorem forall₂_map_eq {α β} {R : α → α → Prop} {f : α → β} (h : ∀ a b, R a b → f a = f b) {l l' : List α}
    (hl : List.Forall₂ R l l') : l.map f = l'.map f := by
  induction hl with
  | nil => rfl
  | cons hb _ ih => simp [h _ _ hb, ih]

theorem forall₂_map_eq_mem {α β} {R : α → α → Prop} {f : α → β} {l l' : List α}
    (h : ∀ a ∈ l, ∀ b, R a b → f a = f b) (hl : List.Forall₂ R l l') : l.map f = l'.map f := by
  induction hl with
  | nil => rfl
  | cons hb _ ih =>
    simp only [List.map_cons]
    rw [h _ (by simp) _ hb, ih (fun a ha => h a (by simp [ha]))]

theorem Spec.PermBy.map_perm {α β} {R : α → α → Prop} {f : α → β} {l l' : List α}
    (h : ∀ a ∈ l, ∀ b, R a b → f a = f b) (hl : PermBy R l l') : (l.map f).Perm (l'.map f) := by
  obtain ⟨m, h1, h2⟩ := hl
  rw [← forall₂_map_eq_mem (fun a ha => h a (h1.mem_iff.2 ha)) h2]
  exact h1.map f

/-! ### Grouped names -/

theorem typedGroups_eq {d : NamesBy} (hd : (d.map Prod.fst).Nodup) :
    typedGroups d = (sortedStr (d.filterMap Prod.fst)).map (fun k => (k, d.get (some k))) := by
  unfold typedGroups sortedBy sortedStr
  have e1 : d.filterMap (fun p => match p.1 with | some t => some (t, p.2) | none => none) =
      (d.filterMap Prod.fst).map (fun k => (k, d.get (some k))) := by
    rw [List.map_filterMap]
    apply List.filterMap_congr
    intro p hp
    have := NamesBy.get_of_mem hd hp
    obtain ⟨k, ns⟩ := p
    cases k with
    | none => rfl
    | some k => simp only [Option.map_some]; simp only at this; rw [this]
  refine (congrArg (sortBy _) e1).trans ?_
  rw [sortBy_map]
  congr 2
  funext a b
  simp [strLt]

theorem filterMap_fst (d : NamesBy) : d.filterMap Prod.fst = (d.map Prod.fst).filterMap id := by
  rw [List.filterMap_map]; rfl

theorem keys_nodup {d : NamesBy} (hd : (d.map Prod.fst).Nodup) : (d.filterMap Prod.fst).Nodup := by
  rw [filterMap_fst]
  exact hd.filterMap (by intro a a' b h h'; simp at h h'; rw [h, h'])

theorem keys_perm {l l' : List (Option Str × Str)} (h : l.Perm l') :
    ((NamesBy.of l).filterMap Prod.fst).Perm ((NamesBy.of l').filterMap Prod.fst) := by
  rw [List.perm_ext_iff_of_nodup (keys_nodup (NamesBy.nodup_of _)) (keys_nodup (NamesBy.nodup_of _))]
  intro k
  have : ∀ l, k ∈ (NamesBy.of l).filterMap Prod.fst ↔ ∃ x, (some k, x) ∈ l := by
    intro l
    rw [← NamesBy.mem_keys_of]
    simp [List.mem_filterMap, List.mem_map]
  rw [this, this]
  simp only [h.mem_iff]

theorem get_perm {l l' : List (Option Str × Str)} (h : l.Perm l') (k : Option Str) :
    ((NamesBy.of l).get k).Perm ((NamesBy.of l').get k) := by
  rw [NamesBy.get_of, NamesBy.get_of]
  exact (h.filter _).map _

theorem printTyped_perm {l l' : List (Option Str × Str)} (h : l.Perm l') (pre post : Str) :
    printTyped pre (NamesBy.of l) post = printTyped pre (NamesBy.of l') post := by
  have e1 : (typedGroups (NamesBy.of l)).map (fun g => joinStr s%" " (sortedStr g.2) ++ s%" - " ++ g.1 ++ s%" ") =
      (typedGroups (NamesBy.of l')).map (fun g => joinStr s%" " (sortedStr g.2) ++ s%" - " ++ g.1 ++ s%" ") := by
    rw [typedGroups_eq (NamesBy.nodup_of _), typedGroups_eq (NamesBy.nodup_of _),
      sortedStr_eq_of_perm (keys_perm h), List.map_map, List.map_map]
    apply List.map_congr_left
    intro k _
    simp only [Function.comp, sortedStr_eq_of_perm (get_perm h (some k))]
  unfold printTyped
  simp only [e1, (get_perm h none).length_eq, sortedStr_eq_of_perm (get_perm h none)]

theorem typesLoop_congr {d d' : NamesBy} (h : ∀ k, (d.get k).Perm (d'.get k)) (fuel : Nat) :
    ∀ (r : List Str) (i : Nat), typesLoop d fuel r i = typesLoop d' fuel r i := by
  induction fuel with
  | zero => intro r i; rfl
  | succ fuel ih =>
    intro r i
    unfold typesLoop
    have hm : ∀ x, x ∈ (r.map (fun k => d.get (some k))).flatten ↔ x ∈ (r.map (fun k => d'.get (some k))).flatten := by
      intro x
      simp only [List.mem_flatten, List.mem_map]
      constructor
      · rintro ⟨_, ⟨k, hk, rfl⟩, hx⟩; exact ⟨_, ⟨k, hk, rfl⟩, (h _).mem_iff.1 hx⟩
      · rintro ⟨_, ⟨k, hk, rfl⟩, hx⟩; exact ⟨_, ⟨k, hk, rfl⟩, (h _).mem_iff.2 hx⟩
    by_cases hr : r = []
    · rw [if_pos hr, if_pos hr]
    · rw [if_neg hr, if_neg hr]
      cases r[i]? with
      | none => rfl
      | some p => simp only [hm, ih, sortedStr_eq_of_perm (h (some p))]

theorem typesSection_perm {d d' : TypeDict} (h : d.Perm d') : typesSection d = typesSection d' := by
  unfold typesSection
  by_cases hd : d = []
  · subst hd
    have := h.nil_eq
    subst this; rfl
  · have hd' : d' ≠ [] := by
      rintro rfl; exact hd h.eq_nil
    rw [if_neg hd, if_neg hd']
    have hp := h.map (fun p : Str × Option Str => (p.2, p.1))
    unfold printTypes typesLines
    have hk : parentKeys (NamesBy.of (d.map (fun p => (p.2, p.1)))) =
        parentKeys (NamesBy.of (d'.map (fun p => (p.2, p.1)))) := by
      unfold parentKeys
      exact sortedStr_eq_of_perm ((keys_perm hp).filter _)
    have hn : sortedStr (noParents (NamesBy.of (d.map (fun p => (p.2, p.1))))) =
        sortedStr (noParents (NamesBy.of (d'.map (fun p => (p.2, p.1))))) := by
      rw [sortedStr_eq_iff (noParents_nodup _) (noParents_nodup _)]
      intro x
      unfold noParents strSet
      simp only [List.mem_filter, decide_eq_true_eq, mem_dedup, List.mem_append, (keys_perm hp).mem_iff,
        (get_perm hp _).mem_iff]
      have hs : ∀ {l : List (Option Str × Str)}, x ∈ ((NamesBy.of l).map Prod.snd).flatten ↔ ∃ k, (k, x) ∈ l := by
        intro l
        simp only [List.mem_flatten, List.mem_map]
        constructor
        · rintro ⟨_, ⟨q, hq, rfl⟩, hx⟩
          exact ⟨q.1, NamesBy.get_mem.1 (by rw [NamesBy.get_of_mem (NamesBy.nodup_of _) hq]; exact hx)⟩
        · rintro ⟨k, hk⟩
          obtain ⟨q, hq, rfl⟩ := List.mem_map.1 ((NamesBy.mem_keys_of l k).2 ⟨x, hk⟩)
          exact ⟨_, ⟨q, hq, rfl⟩, by
            rw [← NamesBy.get_of_mem (NamesBy.nodup_of _) hq]; exact NamesBy.get_mem.2 hk⟩
      rw [hs, hs]
      simp only [hp.mem_iff]
    simp only [hk, hn]
    rw [typesLoop_congr (get_perm hp)]

/-! ### Terms and formulas -/

theorem Spec.Reorder.SameTerm.str {t u : Term} (h : SameTerm t u) : t.str = u.str := by
  cases h with
  | var h => simp [Term.str, h.name]
  | const => rfl

theorem perm_small {l l' : List Str} (h : l.Perm l') (hl : l.length ≤ 1) : l = l' := by
  match l, hl with
  | [], _ => exact h.nil_eq
  | [a], _ => exact (List.perm_singleton.1 h.symm).symm

theorem Spec.Reorder.SameVar.eq {v w : Var} (h : SameVar v w) (hv : v.tags.length ≤ 1) : v = w := by
  obtain ⟨n, t⟩ := v
  obtain ⟨m, u⟩ := w
  have := h.name; have := perm_small h.tags hv
  simp_all

theorem Spec.Reorder.SameTerm.eq {t u : Term} (h : SameTerm t u) (ht : t.tags.length ≤ 1) : t = u := by
  cases h with
  | var h => rw [h.eq ht]
  | const => rfl

theorem sameVars_eq {vs ws : List Var} (h : PermBy SameVar vs ws) (hl : vs.length ≤ 1)
    (ht : ∀ v ∈ vs, v.tags.length ≤ 1) : vs = ws := by
  obtain ⟨m, hm, hf⟩ := h
  match vs, hl with
  | [], _ =>
    have := hm.nil_eq; subst this; cases hf; rfl
  | [v], _ =>
    have := List.perm_singleton.1 hm.symm; subst this
    cases hf with
    | cons h1 h2 => cases h2; rw [h1.eq (ht v (by simp))]

theorem terms_str {ts us : List Term} (h : List.Forall₂ SameTerm ts us) : ts.map Term.str = us.map Term.str :=
  forall₂_map_eq (fun _ _ h => h.str) h

theorem atomStr_congr {n : Str} {ts us : List Term} (h : List.Forall₂ SameTerm ts us) :
    atomStr n ts = atomStr n us := by
  unfold atomStr
  rw [h.length_eq, terms_str h]

theorem blocksAll_eq (as : List Expr) : blocksAll as = as.flatMap blocks := by
  induction as with
  | nil => rfl
  | cons a as ih => simp [blocksAll, ih]

theorem strs_eq_map (as : List Expr) : Expr.strs as = as.map Expr.str := by
  induction as with
  | nil => rfl
  | cons a as ih => simp [Expr.strs, ih]

theorem zip_map_eq {α β} {f : α → β} : ∀ {as bs : List α}, as.length = bs.length →
    (∀ p ∈ as.zip bs, f p.1 = f p.2) → as.map f = bs.map f
  | [], [], _, _ => rfl
  | a :: as, b :: bs, hl, h => by
    simp only [List.map_cons]
    rw [h (a, b) (by simp), zip_map_eq (as := as) (bs := bs) (by simpa using hl)
      (fun p hp => h p (by simp [hp]))]

theorem Spec.Reorder.SameExpr.str {e e' : Expr} (h : SameExpr e e') : OrderFree e → e.str = e'.str := by
  have hargs : ∀ {as bs : List Expr}, as.length = bs.length →
      (∀ p ∈ as.zip bs, OrderFree p.1 → p.1.str = p.2.str) → (∀ vs ∈ blocksAll as,
        vs.length ≤ 1 ∧ ∀ v ∈ vs, v.tags.length ≤ 1) → Expr.strs as = Expr.strs bs := by
    intro as bs hl ih ho
    rw [strs_eq_map, strs_eq_map]
    refine zip_map_eq hl (fun p hp => ih p hp ?_)
    intro vs hvs
    refine ho vs ?_
    rw [blocksAll_eq, List.mem_flatMap]
    exact ⟨p.1, (List.of_mem_zip hp).1, hvs⟩
  induction h with
  | pred h => intro _; exact atomStr_congr h
  | eq h1 h2 => intro _; simp only [Expr.str, h1.str, h2.str]
  | nfun h => intro _; exact atomStr_congr h
  | num x => intro _; rfl
  | bfun hl _ ih =>
    intro ho; simp only [Expr.str, hargs hl ih ho]
  | bin hl _ ih =>
    intro ho; simp only [Expr.str, hargs hl ih ho]
  | not _ ih => intro ho; simp only [Expr.str]; rw [ih ho]
  | quant hv _ ih =>
    intro ho
    have h1 := ho _ (by simp only [blocks]; exact List.mem_cons_self)
    have := sameVars_eq hv h1.1 h1.2
    subst this
    simp only [Expr.str]
    rw [ih (fun vs hvs => ho vs (by simp [blocks, hvs]))]
  | «when» _ _ ih1 ih2 =>
    intro ho
    simp only [Expr.str]
    rw [ih1 (fun vs hvs => ho vs (by simp [blocks, hvs])), ih2 (fun vs hvs => ho vs (by simp [blocks, hvs]))]
  | fall hv _ ih =>
    intro ho
    have h1 := ho _ (by simp only [blocks]; exact List.mem_cons_self)
    have := sameVars_eq hv h1.1 h1.2
    subst this
    simp only [Expr.str]
    rw [ih (fun vs hvs => ho vs (by simp [blocks, hvs]))]

/-! ### Sections -/

theorem sortAndPrint_perm {l l' : List Str} (h : l.Perm l') (pre post : Str) (m : Bool) :
    sortAndPrint pre l post m = sortAndPrint pre l' post m := by
  unfold sortAndPrint
  rw [h.length_eq, sortedStr_eq_of_perm h]

theorem constantsSection_perm {l l' : List Term} (h : l.Perm l') (pre : Str) :
    constantsSection pre l = constantsSection pre l' := by
  unfold constantsSection
  by_cases hl : l = []
  · subst hl
    have := h.nil_eq; subst this; rfl
  · have hl' : l' ≠ [] := by rintro rfl; exact hl h.eq_nil
    rw [if_neg hl, if_neg hl', printTyped_perm (h.map _)]

theorem Spec.Reorder.SameTerm.tags {t u : Term} (h : SameTerm t u) : t.tags.Perm u.tags := by
  cases h with
  | var h => exact h.tags
  | const => exact List.Perm.refl _

theorem Spec.Reorder.SameTerm.name {t u : Term} (h : SameTerm t u) : t.name = u.name := by
  cases h with
  | var h => exact h.name
  | const => rfl

theorem Spec.Reorder.SameTerm.cls {t u : Term} (h : SameTerm t u) : t.cls = u.cls := by
  cases h <;> rfl

theorem Spec.Reorder.SameTerm.norm {t u : Term} (h : SameTerm t u) : t.norm = u.norm := by
  cases h with
  | var h =>
    rename_i v w
    have : v.norm = w.norm := by
      unfold Var.norm
      rw [h.name]
      congr 1
      ext x
      simp [h.tags.mem_iff]
    simp [Term.norm, this]
  | const => rfl

theorem term_lt_congr {a b a' b' : Term} (ha : SameTerm a a') (hb : SameTerm b b') : a.lt b = a'.lt b' := by
  unfold Term.lt
  rw [ha.cls, hb.cls, ha.name, hb.name, sortedStr_eq_of_perm ha.tags, sortedStr_eq_of_perm hb.tags]

theorem term_eq_congr {a b a' b' : Term} (ha : SameTerm a a') (hb : SameTerm b b') : a.pyEq b = a'.pyEq b' := by
  rw [Bool.eq_iff_iff, Term.pyEq_iff, Term.pyEq_iff, ha.norm, hb.norm]

theorem lexLt_same {as bs as' bs' : List Term} (ha : List.Forall₂ SameTerm as as')
    (hb : List.Forall₂ SameTerm bs bs') :
    lexLt Term.pyEq Term.lt as bs = lexLt Term.pyEq Term.lt as' bs' := by
  induction ha generalizing bs bs' with
  | nil => cases hb <;> rfl
  | cons h _ ih =>
    cases hb with
    | nil => rfl
    | cons h' hb => simp only [lexLt, term_eq_congr h h', term_lt_congr h h', ih hb]

theorem pred_lt_congr {a b a' b' : Pred} (ha : SamePred a a') (hb : SamePred b b') : a.lt b = a'.lt b' := by
  unfold Pred.lt
  rw [ha.name, hb.name, lexLt_same ha.terms hb.terms]

theorem declVarStr_congr {t u : Term} (h : SameTerm t u) : declVarStr t = declVarStr u := by
  unfold declVarStr
  rw [h.name, h.tags.length_eq, sortedStr_eq_of_perm h.tags]

theorem funVarStr_congr {t u : Term} (h : SameTerm t u) : funVarStr t = funVarStr u := by
  unfold funVarStr
  rw [h.name, sortedStr_eq_of_perm h.tags]

theorem printPredicates_congr {ps qs : List Pred} (h : List.Forall₂ SamePred ps qs) :
    printPredicates ps = printPredicates qs := by
  unfold printPredicates
  have hs : List.Forall₂ SamePred (sortedBy Pred.lt ps) (sortedBy Pred.lt qs) := by
    apply sortBy_forall₂ _ h
    intro a b a' b' ha hb
    rw [pred_lt_congr hb ha]
  congr 2
  apply forall₂_map_eq _ hs
  intro a b hab
  rw [hab.name, hab.terms.length_eq, forall₂_map_eq (fun _ _ h => declVarStr_congr h) hab.terms]

theorem printPredicates_perm {ps qs : List Pred} (hs : PredicateSet ps) (h : PermBy SamePred ps qs) :
    printPredicates ps = printPredicates qs := by
  obtain ⟨m, h1, h2⟩ := h
  rw [← printPredicates_congr h2]
  unfold printPredicates
  rw [OrdLaws.sorted_perm Pred.lt_laws h1 hs.tags hs.distinct]

theorem funSkeletonStr_congr {f g : NFun × Option Str} (h : SameFun f g) : funSkeletonStr f.1 = funSkeletonStr g.1 := by
  unfold funSkeletonStr
  rw [h.name, h.terms.length_eq, forall₂_map_eq (fun _ _ h => funVarStr_congr h) h.terms]

theorem Spec.PermBy.nil_iff {α} {R : α → α → Prop} {l l' : List α} (h : PermBy R l l') : l = [] ↔ l' = [] := by
  obtain ⟨m, h1, h2⟩ := h
  rw [← List.length_eq_zero_iff, ← List.length_eq_zero_iff, h1.length_eq, h2.length_eq]

theorem functionsSection_perm {d d' : FunDict} (h : PermBy SameFun d d') :
    functionsSection d = functionsSection d' := by
  unfold functionsSection
  by_cases hd : d = []
  · rw [if_pos hd, if_pos (h.nil_iff.1 hd)]
  · rw [if_neg hd, if_neg (fun e => hd (h.nil_iff.2 e))]
    apply printTyped_perm
    exact h.map_perm (fun a _ b hab => by rw [hab.type, funSkeletonStr_congr hab])

theorem derivedStr_congr {p q : Derived} (h : SameDerived p q) (ho : OrderFree p.cond) :
    derivedStr p = derivedStr q := by
  unfold derivedStr
  rw [printPredicates_congr (.cons h.pred .nil), h.cond.str ho]

theorem optLine_congr {k : Str} {p q : Option Expr} (h : SameOpt SameExpr p q) (ho : ∀ e ∈ p, OrderFree e) :
    optLine k p = optLine k q := by
  cases h with
  | absent => rfl
  | present h => simp only [optLine]; rw [h.str (ho _ rfl)]

theorem action_str_congr {a b : Action} (h : SameAction a b) (ho : OrderFreeAction a) : a.str = b.str := by
  unfold Action.str
  have : a.params = b.params := by
    have := forall₂_map_eq_mem (f := id) (fun t ht u htu => htu.eq (ho.params t ht)) h.params
    simpa using this
  rw [h.name, this, optLine_congr h.pre ho.pre, optLine_congr h.eff ho.eff]

end Pddl
