/-
Equal objects have equal texts.
-/
import Verif.Proofs.Reformat
import Verif.Spec.SameText

namespace Pddl
open Spec Spec.Reorder

theorem numbersAll_eq (as : List Expr) : numbersAll as = as.flatMap numbers := by
  induction as with
  | nil => rfl
  | cons a as ih => simp [numbersAll, ih]

theorem Spec.WrittenAlike.mono {l m l' m' : List Num} (h : WrittenAlike l m) (h1 : ∀ x ∈ l', x ∈ l) (h2 : ∀ x ∈ m', x ∈ m) :
    WrittenAlike l' m' := fun x hx y hy e => h x (h1 x hx) y (h2 y hy) e

theorem Spec.OrderFree.mono {a b : Expr} (h : OrderFree a) (hb : ∀ x ∈ blocks b, x ∈ blocks a) : OrderFree b :=
  fun vs hv => h vs (hb vs hv)

theorem tags_small {l m : List Str} (h : l.toFinset = m.toFinset) (h1 : l.length ≤ 1) (h2 : m.length ≤ 1) : l = m := by
  rcases l with _ | ⟨a, _ | ⟨b, l⟩⟩ <;> rcases m with _ | ⟨c, _ | ⟨d, m⟩⟩ <;> simp_all

theorem vars_small {vs ws : List Var} (h : varsNorm vs = varsNorm ws) (h1 : vs.length ≤ 1 ∧ ∀ v ∈ vs, v.tags.length ≤ 1)
    (h2 : ws.length ≤ 1 ∧ ∀ v ∈ ws, v.tags.length ≤ 1) : vs = ws := by
  rcases vs with _ | ⟨v, _ | ⟨v', vs⟩⟩ <;> rcases ws with _ | ⟨w, _ | ⟨w', ws⟩⟩
  · rfl
  · simp [varsNorm] at h
  · simp at h2
  · simp [varsNorm] at h
  · obtain ⟨n, l⟩ := v
    obtain ⟨k, m⟩ := w
    simp only [varsNorm, List.map_cons, List.map_nil, List.toFinset_cons, List.toFinset_nil, Var.norm,
      insert_empty_eq, Finset.singleton_inj, Prod.mk.injEq] at h
    rw [h.1, tags_small h.2 (h1.2 ⟨n, l⟩ (by simp)) (h2.2 ⟨k, m⟩ (by simp))]
  · simp at h2
  · simp at h1
  · simp at h1
  · simp at h1

/-- Equal formulas have equal texts, if the quantifiers and the numbers allow it. -/
theorem norm_str {a : Expr} : ∀ {b : Expr}, a.norm = b.norm → OrderFree a → OrderFree b →
    WrittenAlike (numbers a) (numbers b) → a.str = b.str := by
  have many : ∀ {as bs : List Expr}, (∀ a ∈ as, ∀ {b : Expr}, a.norm = b.norm → OrderFree a → OrderFree b →
      WrittenAlike (numbers a) (numbers b) → a.str = b.str) → as.map Expr.norm = bs.map Expr.norm →
      (∀ a ∈ as, OrderFree a) → (∀ b ∈ bs, OrderFree b) →
      (∀ a ∈ as, ∀ b ∈ bs, WrittenAlike (numbers a) (numbers b)) → as.map Expr.str = bs.map Expr.str := by
    intro as
    induction as with
    | nil => intro bs _ h _ _ _; cases bs <;> simp_all
    | cons a as ih =>
      intro bs h1 h2 h3 h4 h5
      cases bs with
      | nil => simp at h2
      | cons b bs =>
        simp only [List.map_cons, List.cons.injEq] at h2 ⊢
        refine ⟨h1 a (by simp) h2.1 (h3 a (by simp)) (h4 b (by simp)) (h5 a (by simp) b (by simp)), ?_⟩
        exact ih (fun x hx => h1 x (by simp [hx])) h2.2 (fun x hx => h3 x (by simp [hx])) (fun x hx => h4 x (by simp [hx]))
          (fun x hx y hy => h5 x (by simp [hx]) y (by simp [hy]))
  induction a using Expr.ind with
  | hpred p =>
    intro b h _ _ _
    cases b <;> first | exact (echo_pred h).2 | simp [Expr.norm] at h
  | heq l r =>
    intro b h _ _ _
    cases b <;> simp only [Expr.norm, NExpr.eq.injEq, reduceCtorEq] at h
    simp only [Expr.str, term_str_norm h.1, term_str_norm h.2]
  | hnfun f =>
    intro b h _ _ _
    cases b <;> first | exact (echo_nfun h).2 | simp [Expr.norm] at h
  | hnum n =>
    intro b h ha hb hn
    cases b <;> simp only [Expr.norm, NExpr.num.injEq, reduceCtorEq] at h
    rename_i m
    exact hn n (by simp [numbers]) m (by simp [numbers]) ((Expr.pyEq_iff _ _).2 (by simp only [Expr.norm, h]))
  | hbfun o as ih =>
    intro b h ha hb hn
    cases b <;> simp only [Expr.norm, NExpr.bfun.injEq, reduceCtorEq, Expr.norms_eq_map] at h
    rename_i o' bs
    simp only [Expr.str, strs_eq_map, h.1]
    rw [many ih h.2 (fun x hx => ha.mono fun y hy => by simp only [blocks, blocksAll_eq, List.mem_flatMap]; exact ⟨x, hx, hy⟩)
      (fun x hx => hb.mono fun y hy => by simp only [blocks, blocksAll_eq, List.mem_flatMap]; exact ⟨x, hx, hy⟩)
      (fun x hx y hy => hn.mono (fun z hz => by simp only [numbers, numbersAll_eq, List.mem_flatMap]; exact ⟨x, hx, hz⟩)
        (fun z hz => by simp only [numbers, numbersAll_eq, List.mem_flatMap]; exact ⟨y, hy, hz⟩))]
  | hbin o as ih =>
    intro b h ha hb hn
    cases b <;> simp only [Expr.norm, NExpr.bin.injEq, reduceCtorEq, Expr.norms_eq_map] at h
    rename_i o' bs
    simp only [Expr.str, strs_eq_map, h.1]
    rw [many ih h.2 (fun x hx => ha.mono fun y hy => by simp only [blocks, blocksAll_eq, List.mem_flatMap]; exact ⟨x, hx, hy⟩)
      (fun x hx => hb.mono fun y hy => by simp only [blocks, blocksAll_eq, List.mem_flatMap]; exact ⟨x, hx, hy⟩)
      (fun x hx y hy => hn.mono (fun z hz => by simp only [numbers, numbersAll_eq, List.mem_flatMap]; exact ⟨x, hx, hz⟩)
        (fun z hz => by simp only [numbers, numbersAll_eq, List.mem_flatMap]; exact ⟨y, hy, hz⟩))]
  | hnot a ih =>
    intro b h ha hb hn
    cases b <;> simp only [Expr.norm, NExpr.not.injEq, reduceCtorEq] at h
    simp only [Expr.str]
    rw [ih h (ha.mono fun y hy => by simpa [blocks] using hy) (hb.mono fun y hy => by simpa [blocks] using hy)
      (by simpa only [numbers] using hn)]
  | hquant q vs c ih =>
    intro b h ha hb hn
    cases b <;> simp only [Expr.norm, NExpr.quant.injEq, reduceCtorEq] at h
    rename_i q' ws e
    obtain rfl := vars_small h.2.1 (ha vs (by simp [blocks])) (hb ws (by simp [blocks]))
    simp only [Expr.str, h.1]
    rw [ih h.2.2 (ha.mono fun y hy => by simp [blocks, hy]) (hb.mono fun y hy => by simp [blocks, hy])
      (by simpa only [numbers] using hn)]
  | hwhen c e ih1 ih2 =>
    intro b h ha hb hn
    cases b <;> simp only [Expr.norm, NExpr.when.injEq, reduceCtorEq] at h
    rename_i c' e'
    simp only [Expr.str]
    rw [ih1 h.1 (ha.mono fun y hy => by simp [blocks, hy]) (hb.mono fun y hy => by simp [blocks, hy])
      (hn.mono (fun z hz => by simp [numbers, hz]) (fun z hz => by simp [numbers, hz])),
      ih2 h.2 (ha.mono fun y hy => by simp [blocks, hy]) (hb.mono fun y hy => by simp [blocks, hy])
      (hn.mono (fun z hz => by simp [numbers, hz]) (fun z hz => by simp [numbers, hz]))]
  | hfall vs e ih =>
    intro b h ha hb hn
    cases b <;> simp only [Expr.norm, NExpr.fall.injEq, reduceCtorEq] at h
    rename_i ws e'
    obtain rfl := vars_small h.1 (ha vs (by simp [blocks])) (hb ws (by simp [blocks]))
    simp only [Expr.str]
    rw [ih h.2 (ha.mono fun y hy => by simp [blocks, hy]) (hb.mono fun y hy => by simp [blocks, hy])
      (by simpa only [numbers] using hn)]

/-! ### Sets -/

/-- Equal sets, as lists of distinct elements, are equal up to order and `==`. -/
theorem setEq_permBy {α β : Type} {eq : α → α → Bool} {f : α → β} (hf : ∀ a b, eq a b = true ↔ f a = f b) {l m : List α}
    (h : setEqBy eq l m = true) (hl : l.Pairwise (fun a b => eq b a = false)) (hm : m.Pairwise (fun a b => eq b a = false)) :
    PermBy (fun a b => f a = f b) l m := by
  have nd : ∀ {l : List α}, l.Pairwise (fun a b => eq b a = false) → (l.map f).Nodup := by
    intro l hl
    rw [List.Nodup, List.pairwise_map]
    refine hl.imp ?_
    intro a b hab e
    rw [(hf b a).2 e.symm] at hab
    cases hab
  have hp : (l.map f).Perm (m.map f) := (List.perm_ext_iff_of_nodup (nd hl) (nd hm)).2 ((setEqBy_iff' hf).1 h)
  obtain ⟨w, h1, h2⟩ := List.perm_comp_forall₂ hp
    (show List.Forall₂ (fun x y => x = f y) (m.map f) m from List.forall₂_map_left_iff.2 (List.forall₂_same.2 fun _ _ => rfl))
  exact forall₂_permBy (List.forall₂_map_left_iff.1 h1) h2

theorem permBy_mono {α} {R S : α → α → Prop} {l m : List α} (h : PermBy R l m) (hs : ∀ a ∈ l, ∀ b ∈ m, R a b → S a b) :
    PermBy S l m := by
  obtain ⟨k, h1, h2⟩ := h
  refine ⟨k, h1, ?_⟩
  have hs' : ∀ a ∈ k, ∀ b ∈ m, R a b → S a b := fun a ha => hs a (h1.symm.subset ha)
  clear h1 hs
  induction h2 with
  | nil => exact .nil
  | cons h _ ih =>
    exact .cons (hs' _ (List.mem_cons_self ..) _ (List.mem_cons_self ..) h)
      (ih fun a ha b hb => hs' a (List.mem_cons_of_mem _ ha) b (List.mem_cons_of_mem _ hb))

/-! ### Declarations -/

theorem setVar_same {t u : Term} (h : t.norm = u.norm) (ht : SetVar t) (hu : SetVar u) : Reorder.SameTerm t u := by
  obtain ⟨v, rfl, hv⟩ := ht
  obtain ⟨w, rfl, hw⟩ := hu
  simp only [Term.norm, NTerm.var.injEq, Var.norm, Prod.mk.injEq] at h
  refine .var ⟨h.1, (List.perm_ext_iff_of_nodup hv hw).2 (fun x => ?_)⟩
  have := congrArg (x ∈ ·) h.2
  simpa using this

theorem setVars_same : ∀ {ts us : List Term}, ts.map Term.norm = us.map Term.norm → (∀ t ∈ ts, SetVar t) →
    (∀ u ∈ us, SetVar u) → List.Forall₂ Reorder.SameTerm ts us
  | [], [], _, _, _ => .nil
  | [], _ :: _, h, _, _ => by simp at h
  | _ :: _, [], h, _, _ => by simp at h
  | t :: ts, u :: us, h, ht, hu => by
    simp only [List.map_cons, List.cons.injEq] at h
    exact .cons (setVar_same h.1 (ht t (by simp)) (hu u (by simp)))
      (setVars_same h.2 (fun x hx => ht x (by simp [hx])) (fun x hx => hu x (by simp [hx])))

theorem typeDict_perm {a b : TypeDict} (ha : IsDict a) (hb : IsDict b) (h : typeDictEq a b = true) : a.Perm b := by
  have nd : ∀ {l : TypeDict}, IsDict l → l.Nodup := fun h => List.Nodup.of_map _ h
  rw [typeDictEq_iff] at h
  refine (List.perm_ext_iff_of_nodup (nd ha) (nd hb)).2 (fun p => ⟨fun hp => ?_, fun hp => ?_⟩)
  · exact dictGet_mem (h.1 p hp)
  · exact dictGet_mem (h.2 p hp)

theorem funDict_permBy {a b : FunDict} (ha : IsFunDict a) (hb : IsFunDict b) (h : funDictEq a b = true) :
    PermBy (fun p q => p.1.norm = q.1.norm ∧ p.2 = q.2) a b := by
  simp only [funDictEq, Bool.and_eq_true, List.all_eq_true, decide_eq_true_eq] at h
  have key := setEq_permBy (α := NFun × Option Str) (β := (Str × List NTerm) × Option Str)
    (eq := fun p q => p.1.pyEq q.1 && decide (p.2 = q.2)) (f := fun p => (p.1.norm, p.2)) (l := a) (m := b)
    (by intro p q; simp [NFun.pyEq_iff]) ?_ ?_ ?_
  · exact permBy_mono key (fun p _ q _ e => by simpa using e)
  · have one : ∀ {a b : FunDict}, (∀ p ∈ a, funDictGet b p.1 = some p.2) → ∀ p ∈ a, ∃ q ∈ b, p.1.norm = q.1.norm ∧ p.2 = q.2 := by
      intro a b h p hp
      obtain ⟨g, hg, e⟩ := funDictGet_mem (h p hp)
      exact ⟨_, hg, NFun.pyEq_iff.1 e, rfl⟩
    rw [setEqBy_iff' (f := fun p : NFun × Option Str => (p.1.norm, p.2)) (by intro p q; simp [NFun.pyEq_iff])]
    intro x
    simp only [List.mem_map]
    constructor
    · rintro ⟨p, hp, rfl⟩
      obtain ⟨q, hq, e1, e2⟩ := one h.1 p hp
      exact ⟨q, hq, by rw [e1, e2]⟩
    · rintro ⟨p, hp, rfl⟩
      obtain ⟨q, hq, e1, e2⟩ := one h.2 p hp
      exact ⟨q, hq, by rw [e1, e2]⟩
  · refine ha.imp ?_
    intro p q hpq
    have : q.1.pyEq p.1 = false := by
      cases hq : q.1.pyEq p.1 with
      | false => rfl
      | true => rw [NFun.pyEq_symm hq] at hpq; cases hpq
    simp [this]
  · refine hb.imp ?_
    intro p q hpq
    have : q.1.pyEq p.1 = false := by
      cases hq : q.1.pyEq p.1 with
      | false => rfl
      | true => rw [NFun.pyEq_symm hq] at hpq; cases hpq
    simp [this]

theorem reqs_perm {a b : List Req} (ha : a.Nodup) (hb : b.Nodup) (h : reqsEq a b = true) : a.Perm b := by
  unfold reqsEq at h
  rw [setEqBy_iff' (f := id) (by simp)] at h
  exact (List.perm_ext_iff_of_nodup ha hb).2 (by simpa using h)

/-- Sets of objects with the same types are the same lists up to order. -/
theorem objects_perm {a b : List Term} (ha : a.Pairwise (fun x y => y.pyEq x = false)) (hb : b.Pairwise (fun x y => y.pyEq x = false))
    (hc : ∀ t ∈ a, ∃ n x, t = .const n x) (h : setEqBy Term.pyEq a b = true) (hs : SameObjectTypes a b) : a.Perm b := by
  have := setEq_permBy (eq := Term.pyEq) (f := Term.norm) (fun _ _ => Term.pyEq_iff) h ha hb
  have hq : PermBy Eq a b := by
    refine permBy_mono this ?_
    intro t ht u hu e
    have hty := hs t ht u hu (Term.pyEq_iff.2 e)
    obtain ⟨n, x, rfl⟩ := hc t ht
    cases u with
    | var v => simp [Term.norm] at e
    | const m y =>
      simp only [Term.norm, NTerm.const.injEq] at e
      subst e
      cases x <;> cases y <;> simp_all [Term.tags]
  obtain ⟨k, h1, h2⟩ := hq
  rw [List.forall₂_eq_eq_eq] at h2
  exact h2 ▸ h1

theorem optLine_norm {k : Str} {p q : Option Expr} (h : p.map Expr.norm = q.map Expr.norm) (hp : ∀ e ∈ p, OrderFree e)
    (hq : ∀ e ∈ q, OrderFree e) (hn : ∀ a ∈ p, ∀ b ∈ q, WrittenAlike (numbers a) (numbers b)) : optLine k p = optLine k q := by
  cases p <;> cases q <;> simp only [Option.map_none, Option.map_some, reduceCtorEq, Option.some.injEq] at h
  · rfl
  · simp only [optLine]
    rw [norm_str h (hp _ rfl) (hq _ rfl) (hn _ rfl _ rfl)]

theorem action_norm_str {a b : Action} (h : a.norm = b.norm) (ha : OrderFreeAction a) (hb : OrderFreeAction b)
    (pa : ∀ t ∈ a.params, SetVar t) (pb : ∀ t ∈ b.params, SetVar t)
    (hn : ∀ x ∈ a.pre.toList ++ a.eff.toList, ∀ y ∈ b.pre.toList ++ b.eff.toList, WrittenAlike (numbers x) (numbers y)) :
    a.str = b.str := by
  simp only [Action.norm, Prod.mk.injEq] at h
  obtain ⟨h1, h2, h3, h4⟩ := h
  have hp : a.params = b.params := by
    have := forall₂_map_eq_mem (f := id) (fun t ht u htu => htu.eq (ha.params t ht)) (setVars_same h2 pa pb)
    simpa using this
  unfold Action.str
  rw [h1, hp, optLine_norm h3 ha.pre hb.pre (fun x hx y hy => hn x ?_ y ?_), optLine_norm h4 ha.eff hb.eff (fun x hx y hy => hn x ?_ y ?_)]
  all_goals simp_all

/-! ### Domains and problems -/

theorem domain_norm_str {d e : Domain} (cd : Checked d) (ce : Checked e) (fd : IsFunDict d.functions) (fe : IsFunDict e.functions)
    (vd : DeclaresVars d) (ve : DeclaresVars e) (od : OrderFreeDomain d) (oe : OrderFreeDomain e)
    (hc : ∀ t ∈ d.constants, ∃ n x, t = .const n x) (hs : SameObjectTypes d.constants e.constants)
    (hn : ∀ x ∈ formulasOf d, ∀ y ∈ formulasOf e, WrittenAlike (numbers x) (numbers y))
    (h : d.pyEq e = true) : d.str = e.str := by
  simp only [Domain.pyEq, Bool.and_eq_true, decide_eq_true_eq] at h
  obtain ⟨⟨⟨⟨⟨⟨⟨h1, h2⟩, h3⟩, h4⟩, h5⟩, h6⟩, h7⟩, h8⟩ := h
  have hp : PermBy SamePred d.predicates e.predicates :=
    permBy_mono (setEq_permBy (f := Pred.norm) (fun _ _ => Pred.pyEq_iff) h5 cd.distinctPreds ce.distinctPreds)
      (fun p hp q hq e => ⟨congrArg Prod.fst e, setVars_same (congrArg Prod.snd e) (vd.predicates p hp) (ve.predicates q hq)⟩)
  have hset : PredicateSet d.predicates := by
    refine ⟨cd.distinctPreds.imp ?_, ?_⟩
    · intro x y hxy
      rw [← hxy, Bool.eq_iff_iff, Pred.pyEq_iff, Pred.pyEq_iff, eq_comm]
    · intro p hp t ht
      obtain ⟨v, rfl, hv⟩ := vd.predicates p hp t ht
      exact hv
  have hf : PermBy SameFun d.functions e.functions :=
    permBy_mono (funDict_permBy fd fe h6)
      (fun p hp q hq e => ⟨congrArg Prod.fst e.1, setVars_same (congrArg Prod.snd e.1) (vd.functions p hp) (ve.functions q hq), e.2⟩)
  have hd : (d.derived.map derivedStr).Perm (e.derived.map derivedStr) := by
    refine (setEq_permBy (f := Derived.norm) (fun _ _ => Derived.pyEq_iff) h7 cd.distinctDerived ce.distinctDerived |>
      fun h => permBy_mono (S := fun a b => derivedStr a = derivedStr b) h ?_).map_perm (fun _ _ _ h => h)
    intro x hx y hy hxy
    simp only [Derived.norm, Prod.mk.injEq] at hxy
    unfold derivedStr
    rw [printPredicates_congr (.cons ⟨congrArg Prod.fst hxy.1, setVars_same (congrArg Prod.snd hxy.1) (vd.heads x hx) (ve.heads y hy)⟩ .nil),
      norm_str hxy.2 (od.derived x hx) (oe.derived y hy) (hn _ ?_ _ ?_)]
    · exact List.mem_append.2 (.inl (List.mem_map.2 ⟨x, hx, rfl⟩))
    · exact List.mem_append.2 (.inl (List.mem_map.2 ⟨y, hy, rfl⟩))
  have ha : (d.actions.map (fun a => a.str ++ s%"\n")).Perm (e.actions.map (fun a => a.str ++ s%"\n")) := by
    refine (setEq_permBy (f := Action.norm) (fun _ _ => Action.pyEq_iff) h8 cd.distinctActions ce.distinctActions |>
      fun h => permBy_mono (S := fun a b : Action => a.str ++ s%"\n" = b.str ++ s%"\n") h ?_).map_perm (fun _ _ _ h => h)
    intro x hx y hy hxy
    rw [action_norm_str hxy (od.actions x hx) (oe.actions y hy) (vd.params x hx) (ve.params y hy) ?_]
    intro a ha b hb
    exact hn a (List.mem_append.2 (.inr (List.mem_flatMap.2 ⟨x, hx, ha⟩))) b (List.mem_append.2 (.inr (List.mem_flatMap.2 ⟨y, hy, hb⟩)))
  unfold Domain.str Domain.bodyStr
  rw [h1, typesSection_perm (typeDict_perm cd.dict ce.dict h3), sortAndPrint_perm ((reqs_perm cd.distinctReqs ce.distinctReqs h2).map Req.str),
    constantsSection_perm (objects_perm cd.distinct ce.distinct hc h4 hs), functionsSection_perm hf,
    printPredicates_perm hset hp, sortAndPrint_perm hd, sortAndPrint_perm ha]
  by_cases hn : d.predicates = []
  · rw [if_pos hn, if_pos (hp.nil_iff.1 hn)]
  · rw [if_neg hn, if_neg (fun x => hn (hp.nil_iff.2 x))]

theorem problem_norm_str {p q : Problem} (rp : p.reqs.Nodup) (rq : q.reqs.Nodup)
    (op : p.objects.Pairwise (fun a b => b.pyEq a = false)) (oq : q.objects.Pairwise (fun a b => b.pyEq a = false))
    (ip : p.init.Pairwise (fun a b => b.pyEq a = false)) (iq : q.init.Pairwise (fun a b => b.pyEq a = false))
    (fp : OrderFreeProblem p) (fq : OrderFreeProblem q)
    (hc : ∀ t ∈ p.objects, ∃ n x, t = .const n x) (hs : SameObjectTypes p.objects q.objects)
    (hn : ∀ x ∈ problemFormulas p, ∀ y ∈ problemFormulas q, WrittenAlike (numbers x) (numbers y))
    (h : p.pyEq q = true) : p.str = q.str := by
  simp only [Problem.pyEq, Bool.and_eq_true, decide_eq_true_eq] at h
  obtain ⟨⟨⟨⟨⟨⟨⟨h1, _⟩, h3⟩, h4⟩, h5⟩, h6⟩, h7⟩, h8⟩ := h
  have hi : (p.init.map Expr.str).Perm (q.init.map Expr.str) := by
    refine (setEq_permBy (f := Expr.norm) (fun _ _ => Expr.pyEq_iff _ _) h6 ip iq |>
      fun h => permBy_mono (S := fun a b : Expr => a.str = b.str) h ?_).map_perm (fun _ _ _ h => h)
    intro x hx y hy hxy
    exact norm_str hxy (fp.init x hx) (fq.init y hy) (hn x (by simp [problemFormulas, hx]) y (by simp [problemFormulas, hy]))
  have hg : p.goal.str = q.goal.str :=
    norm_str ((Expr.pyEq_iff _ _).1 h7) fp.goal fq.goal (hn _ (by simp [problemFormulas]) _ (by simp [problemFormulas]))
  have hm : Reorder.SameOpt (fun a b : Metric => a.str = b.str) p.metric q.metric := by
    rw [metricEq_iff] at h8
    cases hp : p.metric with
    | none =>
      rw [hp] at h8
      cases hq : q.metric with
      | none => exact .absent
      | some n => rw [hq] at h8; simp at h8
    | some m =>
      rw [hp] at h8
      cases hq : q.metric with
      | none => rw [hq] at h8; simp at h8
      | some n =>
        rw [hq] at h8
        simp only [Option.map_some, Option.some.injEq, Metric.norm, Prod.mk.injEq] at h8
        refine .present ?_
        simp only [Metric.str, Metric.optimization, h8.2]
        rw [norm_str h8.1 (fp.metric m hp) (fq.metric n hq) (hn _ (by simp [problemFormulas, hp]) _ (by simp [problemFormulas, hq]))]
  unfold Problem.str Problem.bodyStr
  rw [h1, h3, sortAndPrint_perm ((reqs_perm rp rq h4).map Req.str), constantsSection_perm (objects_perm op oq hc h5 hs),
    sortAndPrint_perm hi, hg]
  generalize p.metric = m at hm
  generalize q.metric = n at hm
  cases hm with
  | absent => rfl
  | present hm => simp only [hm]

end Pddl
