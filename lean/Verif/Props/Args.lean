/-
C69: objects can be rebuilt from their properties; C70: equal arguments make equal objects.
-/
import Verif.Spec.Args
import Verif.Proofs.Good
import Verif.Proofs.EqDomain
import Verif.Props.ProblemArgs

namespace Pddl.Props
open Pddl Spec

/-! ### C69 -/

/-- Rebuilding a domain: `Domain(...)` called with the properties of a domain makes the same domain. -/
theorem C69_domain (a : DomainArgs) (d : Domain) (ht : IsDict a.types) (h : mkDomain a = .ok d) :
    mkDomain (domainArgs d) = .ok d := by
  obtain ⟨k1, _, _⟩ := existsDomain_types ⟨a, ht, h⟩
  unfold mkDomain at h
  simp only [bind_ok_iff, parseName_ok, pure_ok, Except.ok.injEq] at h
  obtain ⟨n, ⟨rfl, hn⟩, ts, h2, _, h3, _, h4, rfl⟩ := h
  have h2' : checkTypeDict ts (reqSet a.reqs) = .ok () := by
    unfold mkTypes at h2
    simp only [bind_ok_iff, pure_ok, Except.ok.injEq] at h2
    obtain ⟨_, _, _, h5, rfl⟩ := h2
    exact h5
  have h3' : mkTypes ts (reqSet a.reqs) = .ok ts := by
    unfold mkTypes
    have k1' : toTypes ts = .ok ts := k1
    rw [k1', ok_bind, h2', ok_bind]
    rfl
  have hr : reqSet (reqSet a.reqs) = reqSet a.reqs := dedupBy_idem _
  unfold mkDomain domainArgs
  simp only [parseName_ok.2 ⟨rfl, hn⟩, ok_bind, hr, h3', h3, dedupBy_idem, h4]
  rfl

/-- Rebuilding a problem: `Problem(...)` called with the properties of a problem makes a problem with the same
properties. -/
theorem C69_problem (a : ProblemArgs) (p : Problem) (hd : ∀ d, a.domain = some d → ExistsDomain d)
    (h : mkProblem a = .ok p) :
    ∃ q, mkProblem (problemArgs p) = .ok q ∧ problemArgs q = problemArgs p := by
  obtain ⟨ha, rfl⟩ := (mkProblem_ok hd).1 h
  have hargs : ProblemArgsOk (problemArgs (problemOf a)) := by
    have hdn : ∀ d, a.domain = some d → ValidName d.name := fun d h => by
      obtain ⟨b, hb, hm⟩ := hd d h
      have := ((mkDomain_ok hb).1 hm)
      obtain ⟨h1, _, _, _, _, _, _, _, rfl⟩ := this
      exact h1
    refine ⟨ha.name, .inr (by simp [problemArgs]), ?_, ?_, ?_, ?_, ?_⟩
    · intro n hn
      simp only [problemArgs, Option.some.injEq] at hn
      subst hn
      cases h' : a.domain with
      | some d => simpa [problemOf, Problem.domainName, h'] using hdn d h'
      | none =>
        cases hn : a.domainName with
        | none => exact absurd ha.domain (by simp [h', hn])
        | some m => simpa [problemOf, Problem.domainName, h', hn] using ha.domainName m hn
    · intro d n hd' hn
      have hd'' : a.domain = some d := hd'
      simp only [problemArgs, Option.some.injEq] at hn
      simpa [problemOf, Problem.domainName, hd''] using hn
    · intro d rs hd' hn r
      have hd'' : a.domain = some d := hd'
      simp only [problemArgs, Option.some.injEq] at hn
      subst hn
      simp [problemOf, Problem.reqs, hd'']
    · intro e he
      exact ha.init e (dedupBy_subset he)
    · intro d hd'
      have hd'' : a.domain = some d := hd'
      obtain ⟨f1, f2, f3⟩ := ha.fits d hd''
      refine ⟨?_, ?_, ?_⟩
      · intro t ht
        refine f1 t ?_
        have : firstOcc Term.pyEq (dedupBy Term.pyEq a.objects) = firstOcc Term.pyEq a.objects := by
          rw [← dedup_firstOcc eqv_term, ← dedup_firstOcc eqv_term, dedupBy_idem]
        rw [← this]; exact ht
      · intro t ht
        refine f2 t ?_
        have : firstOcc Expr.pyEq (dedupBy Expr.pyEq a.init) = firstOcc Expr.pyEq a.init := by
          rw [← dedup_firstOcc eqv_expr, ← dedup_firstOcc eqv_expr, dedupBy_idem]
        rw [← this]; exact ht
      · intro g hg
        simp only [problemArgs, Option.some.injEq] at hg
        subst hg
        cases hg : a.goal with
        | none => simp [problemOf, hg, mkAnd_nil, WellTyped, terms, termsAll]
        | some g => simpa [problemOf, hg] using f3 g hg
  refine ⟨_, (mkProblem_ok (a := problemArgs (problemOf a)) hd).2 ⟨hargs, rfl⟩, ?_⟩
  cases h' : a.domain with
  | some d => simp [problemArgs, problemOf, h', Problem.domainName, Problem.reqs, dedupBy_idem]
  | none =>
    have : ∀ l : List Req, reqSet (reqSet l) = reqSet l := fun l => dedupBy_idem _
    cases hr : a.reqs with
    | none =>
      have hnil : reqSet [] = [] := rfl
      simp [problemArgs, problemOf, h', hr, Problem.domainName, Problem.reqs, dedupBy_idem, hnil]
    | some l => simp [problemArgs, problemOf, h', hr, Problem.domainName, Problem.reqs, dedupBy_idem, this]

/-- Rebuilding a formula: calling its class with its parts makes the same formula. -/
theorem C69_formula (e : Expr) (h : Built e) : remake e = .ok e := by
  have g := h.good
  cases e with
  | pred p =>
    obtain ⟨h1, h2⟩ := g
    simp [remake, mkPred_ok.2 ⟨h1, h2, rfl⟩]
  | eq l r =>
    have h1 : termsConsistent [] [l, r] = true := g
    simp [remake, mkEq, check, h1]
  | nfun f =>
    have h1 : parseFunction f.name = .ok f.name := g
    simp [remake, mkNFun_ok.2 ⟨h1, rfl⟩]
  | num n => rfl
  | bfun o as =>
    have h1 : Stable (.fop o) as := g.1
    simp only [remake, pure_ok]
    exact congrArg _ h1
  | bin o as =>
    have h1 : Stable (.bop o) as := g.1
    simp only [remake, pure_ok]
    exact congrArg _ h1
  | not a => rfl
  | quant q vs c =>
    have h1 : DistinctVars vs := g.1
    simp [remake, mkQuant, dedupBy_eq_self h1]
  | when c e => rfl
  | fall vs e =>
    have h1 : DistinctVars vs := g.1
    simp [remake, mkForall, dedupBy_eq_self h1]

/-- The same for actions. -/
theorem C69_action (a : Action) (h : BuiltAction a) : mkAction a.name a.params a.pre a.eff = .ok a := by
  obtain ⟨n, hn⟩ := h.name
  obtain ⟨h1, h2⟩ := parseName_ok.1 hn
  simp [mkAction, parseName_ok.2 ⟨rfl, h1 ▸ h2⟩]

/-- A formula whose operands were merged, and what its class makes of the operands that are left. -/
example : let p : Expr := .pred ⟨s%"p", []⟩; let q : Expr := .pred ⟨s%"q", []⟩
    construct (.bop .and) [construct (.bop .and) [p, q], q] = .bin .and [p, q] ∧
    remake (.bin .and [p, q]) = .ok (.bin .and [p, q]) := by decide +kernel

/-! ### C70 -/

theorem termsAll_flatMap (as : List Expr) : termsAll as = as.flatMap terms := by
  induction as with
  | nil => rfl
  | cons a as ih => simp [termsAll, ih]

theorem forall₂_map_eq {α β γ} {f : α → γ} {g : β → γ} {a : List α} {b : List β} (h : a.map f = b.map g) :
    List.Forall₂ (fun x y => f x = g y) a b := by
  induction a generalizing b with
  | nil => cases b <;> simp_all
  | cons x a ih =>
    cases b with
    | nil => simp at h
    | cons y b =>
      simp only [List.map_cons, List.cons.injEq] at h
      exact .cons h.1 (ih h.2)

theorem mem_norms {s t : List Term} (h : s.map Term.norm = t.map Term.norm) {x : Term} (hx : x ∈ s) :
    ∃ y ∈ t, x.pyEq y = true := by
  have : x.norm ∈ t.map Term.norm := h ▸ List.mem_map_of_mem hx
  obtain ⟨y, hy, he⟩ := List.mem_map.1 this
  exact ⟨y, hy, Term.pyEq_iff.2 he.symm⟩

theorem mem_varsNorm {s t : List Var} (h : varsNorm s = varsNorm t) {x : Var} (hx : x ∈ s) :
    ∃ y ∈ t, x.pyEq y = true := by
  have : x.norm ∈ varsNorm s := by simp only [varsNorm, List.mem_toFinset]; exact List.mem_map_of_mem hx
  rw [h] at this
  simp only [varsNorm, List.mem_toFinset, List.mem_map] at this
  obtain ⟨y, hy, he⟩ := this
  exact ⟨y, hy, Var.pyEq_iff.2 he.symm⟩

/-- Equal formulas have equal terms. -/
theorem terms_pyEq : ∀ (a b : Expr), a.norm = b.norm → ∀ t ∈ terms a, ∃ u ∈ terms b, t.pyEq u = true := by
  intro a
  have list : ∀ (as bs : List Expr), (∀ a ∈ as, ∀ b : Expr, a.norm = b.norm → ∀ t ∈ terms a, ∃ u ∈ terms b, t.pyEq u = true) →
      Expr.norms as = Expr.norms bs → ∀ t ∈ termsAll as, ∃ u ∈ termsAll bs, t.pyEq u = true := by
    intro as bs ih h t ht
    rw [termsAll_flatMap] at ht ⊢
    rw [Expr.norms_eq_map, Expr.norms_eq_map] at h
    obtain ⟨a, ha, hta⟩ := List.mem_flatMap.1 ht
    have : a.norm ∈ bs.map Expr.norm := h ▸ List.mem_map_of_mem ha
    obtain ⟨b, hb, he⟩ := List.mem_map.1 this
    obtain ⟨u, hu, hq⟩ := ih a ha b he.symm t hta
    exact ⟨u, List.mem_flatMap.2 ⟨b, hb, hu⟩, hq⟩
  induction a using Expr.ind with
  | hpred p =>
    intro b h t ht
    cases b <;> simp only [Expr.norm, reduceCtorEq, NExpr.pred.injEq] at h
    exact mem_norms h.2 ht
  | heq l r =>
    intro b h t ht
    cases b <;> simp only [Expr.norm, reduceCtorEq, NExpr.eq.injEq] at h
    next l' r' => exact mem_norms (s := [l, r]) (t := [l', r']) (by simp [h.1, h.2]) ht
  | hnfun f =>
    intro b h t ht
    cases b <;> simp only [Expr.norm, reduceCtorEq, NExpr.nfun.injEq] at h
    exact mem_norms h.2 ht
  | hnum n =>
    intro b h t ht
    simp [terms] at ht
  | hbfun o as ih =>
    intro b h t ht
    cases b <;> simp only [Expr.norm, reduceCtorEq, NExpr.bfun.injEq] at h
    exact list _ _ ih h.2 t ht
  | hbin o as ih =>
    intro b h t ht
    cases b <;> simp only [Expr.norm, reduceCtorEq, NExpr.bin.injEq] at h
    exact list _ _ ih h.2 t ht
  | hnot a ih =>
    intro b h t ht
    cases b <;> simp only [Expr.norm, reduceCtorEq, NExpr.not.injEq] at h
    exact ih _ h t ht
  | hquant q vs c ih =>
    intro b h t ht
    cases b <;> simp only [Expr.norm, reduceCtorEq, NExpr.quant.injEq] at h
    simp only [terms, List.mem_append, List.mem_map] at ht ⊢
    rcases ht with ⟨v, hv, rfl⟩ | ht
    · obtain ⟨w, hw, hq⟩ := mem_varsNorm h.2.1 hv
      exact ⟨.var w, .inl ⟨w, hw, rfl⟩, hq⟩
    · obtain ⟨u, hu, hq⟩ := ih _ h.2.2 t ht
      exact ⟨u, .inr hu, hq⟩
  | hwhen c e ih1 ih2 =>
    intro b h t ht
    cases b <;> simp only [Expr.norm, reduceCtorEq, NExpr.when.injEq] at h
    simp only [terms, List.mem_append] at ht ⊢
    rcases ht with ht | ht
    · obtain ⟨u, hu, hq⟩ := ih1 _ h.1 t ht
      exact ⟨u, .inl hu, hq⟩
    · obtain ⟨u, hu, hq⟩ := ih2 _ h.2 t ht
      exact ⟨u, .inr hu, hq⟩
  | hfall vs c ih =>
    intro b h t ht
    cases b <;> simp only [Expr.norm, reduceCtorEq, NExpr.fall.injEq] at h
    simp only [terms, List.mem_append, List.mem_map] at ht ⊢
    rcases ht with ⟨v, hv, rfl⟩ | ht
    · obtain ⟨w, hw, hq⟩ := mem_varsNorm h.1 hv
      exact ⟨.var w, .inl ⟨w, hw, rfl⟩, hq⟩
    · obtain ⟨u, hu, hq⟩ := ih _ h.2 t ht
      exact ⟨u, .inr hu, hq⟩

theorem termsOpt_pyEq {a b : Option Expr} (h : a.map Expr.norm = b.map Expr.norm) :
    ∀ t ∈ termsOpt a, ∃ u ∈ termsOpt b, t.pyEq u = true := by
  cases a <;> cases b <;> simp only [Option.map_none, Option.map_some, reduceCtorEq, Option.some.injEq] at h
  · simp [termsOpt]
  · exact terms_pyEq _ _ h

theorem sameSet_symm {α} {eq : α → α → Bool} {a b : List α} (h : SameSet eq a b) : SameSet eq b a := ⟨h.2, h.1⟩

theorem sameSet_dedup {α} {eq : α → α → Bool} (he : Equivalence (fun a b => eq a b = true)) {a b : List α}
    (h : SameSet eq a b) : setEqBy eq (dedupBy eq a) (dedupBy eq b) = true := by
  unfold setEqBy
  simp only [Bool.and_eq_true, List.all_eq_true, memBy_iff]
  constructor
  · intro x hx
    obtain ⟨y, hy, hq⟩ := h.1 x (dedupBy_subset hx)
    obtain ⟨z, hz, hq'⟩ := memBy_iff.1 (dedupBy_cover (eq := eq) he.refl hy)
    exact ⟨z, hz, he.trans hq hq'⟩
  · intro x hx
    obtain ⟨y, hy, hq⟩ := h.2 x (dedupBy_subset hx)
    obtain ⟨z, hz, hq'⟩ := memBy_iff.1 (dedupBy_cover (eq := eq) he.refl hy)
    exact ⟨z, hz, he.trans hq hq'⟩

/-- A condition that is met by the kept elements of one collection is met by those of an equal collection, if it does
not distinguish equal elements. -/
theorem sameSet_transfer {α} {eq : α → α → Bool} (he : Equivalence (fun a b => eq a b = true)) {a b : List α}
    (h : SameSet eq a b) {Q : α → Prop} (hQ : ∀ x ∈ a, ∀ y ∈ b, eq x y = true → Q y → Q x)
    (hb : ∀ y ∈ firstOcc eq b, Q y) : ∀ x ∈ firstOcc eq a, Q x := by
  rw [← dedup_firstOcc he] at hb ⊢
  intro x hx
  obtain ⟨y, hy, hq⟩ := h.1 x (dedupBy_subset hx)
  obtain ⟨z, hz, hq'⟩ := memBy_iff.1 (dedupBy_cover (eq := eq) he.refl hy)
  exact hQ x (dedupBy_subset hx) z (dedupBy_subset hz) (he.trans hq hq') (hb z hz)

theorem wellTypedTerm_tags {D : Str → Prop} {rs : List Req} {s t : Term} (h : ∀ x, x ∈ s.tags ↔ x ∈ t.tags)
    (ht : WellTypedTerm D rs t) : WellTypedTerm D rs s := by
  refine ⟨fun x hx => ht.1 x ((h x).1 hx), fun hne => ht.2 ?_⟩
  obtain ⟨x, hx⟩ := List.exists_mem_of_ne_nil _ hne
  exact List.ne_nil_of_mem ((h x).1 hx)

/-- Well-typed terms, along a relation between collections of terms. -/
theorem wellTyped_transfer {D : Str → Prop} {rs : List Req} {l m : List Term}
    (hT : AgreeTypes l m) (h : ∀ t ∈ l, ∃ u ∈ m, t.pyEq u = true) (hm : ∀ u ∈ m, WellTypedTerm D rs u) :
    ∀ t ∈ l, WellTypedTerm D rs t := by
  intro t ht
  obtain ⟨u, hu, hq⟩ := h t ht
  exact wellTypedTerm_tags (hT t ht u hu hq) (hm u hu)

theorem agreeTypes_mono {l m l' m' : List Term} (h : AgreeTypes l m) (h1 : ∀ t ∈ l', t ∈ l) (h2 : ∀ t ∈ m', t ∈ m) :
    AgreeTypes l' m' := fun s hs t ht => h s (h1 s hs) t (h2 t ht)

theorem agreeTypes_symm {l m : List Term} (h : AgreeTypes l m) : AgreeTypes m l :=
  fun s hs t ht hq x => (h t ht s hs (eqv_term.symm hq) x).symm

theorem types_same {a b : TypeDict} (ha : IsDict a) (h : ∀ x, a.lookup x = b.lookup x) :
    ∀ p ∈ a, p ∈ b := by
  intro p hp
  have : dictGet a p.1 = some p.2 := dictGet_of_mem ha hp
  unfold dictGet at this
  rw [h] at this
  exact dictGet_mem this

theorem domain_of_same {a b : DomainArgs} (hta : IsDict a.types) (htb : IsDict b.types) (h : SameDomainArgs a b)
    (hT : AgreeTypes (domainTerms a) (domainTerms b)) (hb : ∃ d, mkDomain b = .ok d) : ∃ d, mkDomain a = .ok d := by
  obtain ⟨d, hb⟩ := hb
  obtain ⟨h1, h2, h3, h4, h5, h6, h7, h8, _⟩ := (mkDomain_ok htb).1 hb
  have hsub := types_same hta h.types
  have hsub' := types_same htb (fun x => (h.types x).symm)
  have hpar : Parent a.types = Parent b.types := by
    funext x y
    simp only [Parent, h.types]
  have hdecl : Declared a.types = Declared b.types := by
    funext x
    exact propext ⟨fun ⟨p, hp, hx⟩ => ⟨p, hsub p hp, hx⟩, fun ⟨p, hp, hx⟩ => ⟨p, hsub' p hp, hx⟩⟩
  have hw : ∀ t, WellTypedTerm (Declared b.types) b.reqs t → WellTypedTerm (Declared a.types) a.reqs t := by
    intro t ht
    exact (wellTypedTerm_congr (fun x => by rw [hdecl]) h.reqs t).2 ht
  have hfun : ∀ p ∈ a.functions, ∃ q ∈ b.functions, q.1.name = p.1.name := by
    intro p hp
    have hf := h.functions
    simp only [funDictEq, Bool.and_eq_true, List.all_eq_true, decide_eq_true_eq] at hf
    obtain ⟨q, hq, he⟩ := funDictGet_mem (hf.1 p hp)
    exact ⟨_, hq, (congrArg Prod.fst (NFun.pyEq_iff.1 he)).symm⟩
  refine ⟨domainOf a, (mkDomain_ok hta).2 ⟨h.name ▸ h1, fun p hp => h2 p (hsub p hp), ⟨?_, ?_, ?_⟩, ⟨?_, ?_⟩, ?_, ?_, ?_, ?_, rfl⟩⟩
  · rw [hpar]; exact fun e => (h.reqs _).2 (h3.typing e)
  · rw [hpar]; exact h3.object
  · rw [hpar]; exact h3.acyclic
  · rintro ⟨p, hp, hn⟩
    obtain ⟨q, hq, he⟩ := hfun p hp
    exact (h.reqs _).2 (h4.1 ⟨q, hq, he.trans hn⟩)
  · rintro ⟨p, hp, hn⟩
    obtain ⟨q, hq, he⟩ := hfun p hp
    exact (h4.2 ⟨q, hq, he ▸ hn⟩).imp (h.reqs _).2 (h.reqs _).2
  · refine sameSet_transfer eqv_term h.constants (fun x hx y hy hq hy' => ?_) (fun y hy => hw y (h5 y hy))
    exact wellTypedTerm_tags (hT x (by simp [domainTerms, hx]) y (by simp [domainTerms, hy]) hq) hy'
  · refine sameSet_transfer eqv_pred h.predicates (fun x hx y hy hq hy' => ?_) (fun y hy t ht => hw t (h6 y hy t ht))
    refine wellTyped_transfer (agreeTypes_mono hT ?_ ?_) (fun t ht => mem_norms (congrArg Prod.snd (Pred.pyEq_iff.1 hq)) ht) hy'
    · intro t ht; simp only [domainTerms, List.mem_append, List.mem_flatMap]; exact .inl (.inl (.inr ⟨x, hx, ht⟩))
    · intro t ht; simp only [domainTerms, List.mem_append, List.mem_flatMap]; exact .inl (.inl (.inr ⟨y, hy, ht⟩))
  · refine sameSet_transfer eqv_action h.actions (fun x hx y hy hq hy' => ?_)
      (fun y hy => ⟨(h7 y hy).1, (h7 y hy).2.1, fun t ht => hw t ((h7 y hy).2.2 t ht)⟩)
    have hn := Action.pyEq_iff.1 hq
    simp only [Action.norm, Prod.mk.injEq] at hn
    obtain ⟨_, n2, n3, n4⟩ := hn
    refine ⟨?_, ?_, ?_⟩
    · intro e; rw [e] at n3; exact hy'.1 (by simpa using n3.symm)
    · intro e; rw [e] at n4; exact hy'.2.1 (by simpa using n4.symm)
    · refine wellTyped_transfer (agreeTypes_mono hT ?_ ?_) (fun t ht => ?_) hy'.2.2
      · intro t ht; simp only [domainTerms, List.mem_append, List.mem_flatMap]
        exact .inr ⟨x, hx, by simpa [or_assoc] using ht⟩
      · intro t ht; simp only [domainTerms, List.mem_append, List.mem_flatMap]
        exact .inr ⟨y, hy, by simpa [or_assoc] using ht⟩
      · simp only [List.mem_append] at ht ⊢
        rcases ht with (ht | ht) | ht
        · obtain ⟨u, hu, hq⟩ := mem_norms n2 ht; exact ⟨u, .inl (.inl hu), hq⟩
        · obtain ⟨u, hu, hq⟩ := termsOpt_pyEq n3 t ht; exact ⟨u, .inl (.inr hu), hq⟩
        · obtain ⟨u, hu, hq⟩ := termsOpt_pyEq n4 t ht; exact ⟨u, .inr hu, hq⟩
  · rw [hdecl]
    refine sameSet_transfer eqv_derived h.derived (fun x hx y hy hq hy' => ?_) h8
    have hn := Derived.pyEq_iff.1 hq
    simp only [Derived.norm, Pred.norm, Prod.mk.injEq] at hn
    intro t ht z hz
    obtain ⟨u, hu, hq⟩ := mem_norms hn.1.2 ht
    refine hy' u hu z ((hT t ?_ u ?_ hq z).1 hz)
    · simp only [domainTerms, List.mem_append, List.mem_flatMap]; exact .inl (.inr ⟨x, hx, ht⟩)
    · simp only [domainTerms, List.mem_append, List.mem_flatMap]; exact .inl (.inr ⟨y, hy, hu⟩)

theorem sameDomainArgs_symm {a b : DomainArgs} (h : SameDomainArgs a b) : SameDomainArgs b a := by
  obtain ⟨h1, h2, h3, h4, h5, h6, h7, h8⟩ := h
  refine ⟨h1.symm, fun r => (h2 r).symm, fun x => (h3 x).symm, sameSet_symm h4, sameSet_symm h5, sameSet_symm h6, ?_,
    sameSet_symm h8⟩
  simp only [funDictEq, Bool.and_eq_true] at h7 ⊢
  exact ⟨h7.2, h7.1⟩

theorem cleanDict_get (d : TypeDict) (k : Str) : dictGet (cleanDict d) k = (dictGet d k).map cleanParent := by
  unfold dictGet cleanDict
  induction d with
  | nil => rfl
  | cons p d ih =>
    obtain ⟨k', v⟩ := p
    simp only [List.map_cons, List.lookup_cons]
    cases hk : k == k' <;> simp [ih]

theorem cleanDict_isDict {d : TypeDict} (h : IsDict d) : IsDict (cleanDict d) := by
  unfold IsDict cleanDict at *
  rw [List.map_map]
  exact h

/-- Equal arguments: `Domain(...)` succeeds for both or for none, if equal constants of the two calls have the same
types; and the results are equal. -/
theorem C70_domain_partial (a b : DomainArgs) (hta : IsDict a.types) (htb : IsDict b.types) (h : SameDomainArgs a b)
    (hT : AgreeTypes (domainTerms a) (domainTerms b)) :
    (∃ d, mkDomain a = .ok d) ↔ ∃ d, mkDomain b = .ok d :=
  ⟨domain_of_same htb hta (sameDomainArgs_symm h) (agreeTypes_symm hT), domain_of_same hta htb h hT⟩

/-- Whenever both succeed the domains are equal. -/
theorem C70_domain_result (a b : DomainArgs) (hta : IsDict a.types) (htb : IsDict b.types) (h : SameDomainArgs a b)
    (d d' : Domain) (ha : mkDomain a = .ok d) (hb : mkDomain b = .ok d') : d.pyEq d' = true := by
  obtain ⟨_, _, _, _, _, _, _, _, rfl⟩ := (mkDomain_ok hta).1 ha
  obtain ⟨_, _, _, _, _, _, _, _, rfl⟩ := (mkDomain_ok htb).1 hb
  have ht : typeDictEq (cleanDict a.types) (cleanDict b.types) = true := by
    rw [typeDictEq_iff]
    have key : ∀ k, dictGet (cleanDict a.types) k = dictGet (cleanDict b.types) k := by
      intro k
      rw [cleanDict_get, cleanDict_get]
      exact congrArg _ (h.types k)
    exact ⟨fun p hp => key p.1 ▸ dictGet_of_mem (cleanDict_isDict hta) hp,
      fun p hp => key p.1 ▸ dictGet_of_mem (cleanDict_isDict htb) hp⟩
  have hr : reqsEq (reqSet a.reqs) (reqSet b.reqs) = true := by
    rw [reqsEq_iff]
    intro r
    rw [mem_reqSet, mem_reqSet]
    exact h.reqs r
  simp [Domain.pyEq, domainOf, h.name, hr, ht, h.functions, sameSet_dedup eqv_term h.constants,
    sameSet_dedup eqv_pred h.predicates, sameSet_dedup eqv_derived h.derived, sameSet_dedup eqv_action h.actions]

/-- A constant with a declared type is `==` to one with an undeclared type: of two equal calls, one succeeds and one
raises. -/
theorem C70_fails : ∃ a b : DomainArgs, IsDict a.types ∧ IsDict b.types ∧ SameDomainArgs a b ∧
    (∃ d, mkDomain a = .ok d) ∧ ¬ ∃ d, mkDomain b = .ok d := by
  have hd : IsDict [(s%"t", (none : Option Str))] := by unfold IsDict; decide
  have h1 : (mkDomain ⟨s%"d", [.typing], [(s%"t", none)], [.const s%"c" (some s%"t")], [], [], [], []⟩).toOption.isSome =
      true := by decide +kernel
  have h2 : (mkDomain ⟨s%"d", [.typing], [(s%"t", none)], [.const s%"c" (some s%"u")], [], [], [], []⟩).toOption.isSome =
      false := by decide +kernel
  refine ⟨⟨s%"d", [.typing], [(s%"t", none)], [.const s%"c" (some s%"t")], [], [], [], []⟩,
    ⟨s%"d", [.typing], [(s%"t", none)], [.const s%"c" (some s%"u")], [], [], [], []⟩, hd, hd, ?_, ?_, ?_⟩
  · exact ⟨rfl, fun _ => Iff.rfl, fun _ => rfl, by unfold SameSet; decide, by simp [SameSet], by simp [SameSet], rfl, by simp [SameSet]⟩
  · cases h : mkDomain ⟨s%"d", [.typing], [(s%"t", none)], [.const s%"c" (some s%"t")], [], [], [], []⟩ with
    | error e => rw [h] at h1; simp [Except.toOption] at h1
    | ok d => exact ⟨d, rfl⟩
  · rintro ⟨d, h⟩
    rw [h] at h2; simp [Except.toOption] at h2

/-- Arguments in another order, with repetitions and with types in another order. -/
def demoArgs (l : Bool) : DomainArgs :=
  let t := s%"t"
  let u := s%"u"
  let c : Term := .const s%"c" (some t)
  let p : Pred := ⟨s%"p", [.var ⟨s%"x", if l then [t, u] else [u, t]⟩]⟩
  let q : Pred := ⟨s%"q", []⟩
  { name := s%"d"
    reqs := if l then [.typing, .strips] else [.strips, .typing, .strips]
    types := if l then [(t, none), (u, none)] else [(u, none), (t, none)]
    constants := if l then [c] else [c, c]
    predicates := if l then [p, q] else [q, p, q] }
example : (mkDomain (demoArgs true)).toOption.isSome = true ∧ (mkDomain (demoArgs false)).toOption.isSome = true := by
  decide +kernel
example : SameDomainArgs (demoArgs true) (demoArgs false) ∧
    AgreeTypes (domainTerms (demoArgs true)) (domainTerms (demoArgs false)) := by
  refine ⟨⟨rfl, fun r => ?_, fun x => ?_, ?_, ?_, ?_, rfl, ?_⟩, ?_⟩
  · cases r <;> decide
  · simp only [demoArgs, if_true, Bool.false_eq_true, if_false, List.lookup_cons, List.lookup_nil]
    by_cases h1 : x = s%"t"
    · subst h1; rfl
    · by_cases h2 : x = s%"u"
      · subst h2; rfl
      · have e1 : (x == s%"t") = false := by simpa using h1
        have e2 : (x == s%"u") = false := by simpa using h2
        rw [e1, e2]
  · unfold SameSet; decide
  · unfold SameSet; decide
  · simp [SameSet, demoArgs]
  · simp [SameSet, demoArgs]
  · intro s hs t ht hq x
    simp [demoArgs, domainTerms] at hs ht
    rcases hs with rfl | rfl <;> rcases ht with rfl | rfl
    all_goals first | rfl | (simp [Term.tags, or_comm]; done) | (simp [Term.pyEq] at hq; done)

theorem declared_of_pyEq {d d' : Domain} (h : d.pyEq d' = true) :
    Declared d.types = Declared d'.types ∧ (∀ r, r ∈ d.reqs ↔ r ∈ d'.reqs) ∧ d.name = d'.name := by
  simp only [Domain.pyEq, Bool.and_eq_true, decide_eq_true_eq, typeDictEq_iff, reqsEq_iff] at h
  obtain ⟨⟨⟨⟨⟨⟨⟨h1, h2⟩, h3⟩, _⟩, _⟩, _⟩, _⟩, _⟩ := h
  refine ⟨?_, h2, h1⟩
  funext x
  exact propext ⟨fun ⟨p, hp, hx⟩ => ⟨p, dictGet_mem (h3.1 p hp), hx⟩,
    fun ⟨p, hp, hx⟩ => ⟨p, dictGet_mem (h3.2 p hp), hx⟩⟩

theorem problem_of_same {a b : ProblemArgs} (hda : ∀ d, a.domain = some d → ExistsDomain d)
    (hdb : ∀ d, b.domain = some d → ExistsDomain d) (h : SameProblemArgs a b)
    (hT : AgreeTypes (problemTerms a) (problemTerms b)) (hb : ∃ p, mkProblem b = .ok p) : ∃ p, mkProblem a = .ok p := by
  rw [C65_accepted _ hda]
  rw [C65_accepted _ hdb] at hb
  obtain ⟨h1, h2, h3, h4, h5, h6, h7⟩ := hb
  have hdom : ∀ d, a.domain = some d → ∃ d', b.domain = some d' ∧ d.pyEq d' = true := by
    intro d hd
    have := h.domain
    rw [hd] at this
    cases hd' : b.domain with
    | none => rw [hd'] at this; simp [SameOpt] at this
    | some d' => rw [hd'] at this; exact ⟨d', rfl, this⟩
  refine ⟨h.name ▸ h1, ?_, fun n hn => h3 n (h.domainName ▸ hn), ?_, ?_, ?_, ?_⟩
  · rcases h2 with h2 | h2
    · left
      intro e
      have := h.domain
      rw [e] at this
      cases hd' : b.domain with
      | none => exact h2 hd'
      | some d' => rw [hd'] at this; simp [SameOpt] at this
    · right
      rw [h.domainName]; exact h2
  · intro d n hd hn
    obtain ⟨d', hd', he⟩ := hdom d hd
    rw [(declared_of_pyEq he).2.2]
    exact h4 d' n hd' (h.domainName ▸ hn)
  · intro d rs hd hrs r
    obtain ⟨d', hd', he⟩ := hdom d hd
    have := h.reqs
    rw [hrs] at this
    cases hr' : b.reqs with
    | none => rw [hr'] at this; simp [SameOpt] at this
    | some rs' =>
      rw [hr'] at this
      have this' : ∀ r, r ∈ rs ↔ r ∈ rs' := this
      rw [this' r, h5 d' rs' hd' hr' r, (declared_of_pyEq he).2.1 r]
  · intro e he
    obtain ⟨e', he', hq⟩ := h.init.1 e he
    exact literal_congr hq (h6 e' he')
  · intro d hd
    obtain ⟨d', hd', he⟩ := hdom d hd
    obtain ⟨e1, e2, _⟩ := declared_of_pyEq he
    obtain ⟨f1, f2, f3⟩ := h7 d' hd'
    have hw : ∀ t, WellTypedTerm (Declared d'.types) d'.reqs t → WellTypedTerm (Declared d.types) d.reqs t := by
      intro t ht
      exact (wellTypedTerm_congr (fun x => by rw [e1]) e2 t).2 ht
    refine ⟨?_, ?_, ?_⟩
    · refine sameSet_transfer eqv_term h.objects (fun x hx y hy hq hy' => ?_) (fun y hy => hw y (f1 y hy))
      exact wellTypedTerm_tags (hT x (by simp [problemTerms, hx]) y (by simp [problemTerms, hy]) hq) hy'
    · refine sameSet_transfer eqv_expr h.init (fun x hx y hy hq hy' => ?_) (fun y hy t ht => hw t (f2 y hy t ht))
      refine wellTyped_transfer (agreeTypes_mono hT ?_ ?_) (terms_pyEq _ _ ((Expr.pyEq_iff _ _).1 hq)) hy'
      · intro t ht; simp only [problemTerms, List.mem_append, List.mem_flatMap]; exact .inl (.inr ⟨x, hx, ht⟩)
      · intro t ht; simp only [problemTerms, List.mem_append, List.mem_flatMap]; exact .inl (.inr ⟨y, hy, ht⟩)
    · intro g hg
      have := h.goal
      rw [hg] at this
      cases hg' : b.goal with
      | none => rw [hg'] at this; simp [SameOpt] at this
      | some g' =>
        rw [hg'] at this
        refine wellTyped_transfer (agreeTypes_mono hT ?_ ?_) (terms_pyEq _ _ ((Expr.pyEq_iff _ _).1 this))
          (fun t ht => hw t (f3 g' hg' t ht))
        · intro t ht; simp [problemTerms, hg, termsOpt, ht]
        · intro t ht; simp [problemTerms, hg', termsOpt, ht]

theorem sameOpt_symm {α} {r : α → α → Prop} (hr : ∀ x y, r x y → r y x) {a b : Option α} (h : SameOpt r a b) : SameOpt r b a := by
  cases a <;> cases b <;> first | exact h | exact hr _ _ h

theorem sameProblemArgs_symm {a b : ProblemArgs} (h : SameProblemArgs a b) : SameProblemArgs b a := by
  obtain ⟨h1, h2, h3, h4, h5, h6, h7, h8⟩ := h
  exact ⟨h1.symm, sameOpt_symm (fun _ _ => Domain.pyEq_symm) h2, h3.symm, sameOpt_symm (fun _ _ h r => (h r).symm) h4,
    sameSet_symm h5, sameSet_symm h6, sameOpt_symm (fun _ _ h => eqv_expr.symm h) h7,
    sameOpt_symm (fun _ _ h => eqv_metric.symm h) h8⟩

/-- The same for `Problem(...)`. -/
theorem C70_problem_partial (a b : ProblemArgs) (hda : ∀ d, a.domain = some d → ExistsDomain d)
    (hdb : ∀ d, b.domain = some d → ExistsDomain d) (h : SameProblemArgs a b)
    (hT : AgreeTypes (problemTerms a) (problemTerms b)) :
    (∃ p, mkProblem a = .ok p) ↔ ∃ p, mkProblem b = .ok p :=
  ⟨problem_of_same hdb hda (sameProblemArgs_symm h) (agreeTypes_symm hT), problem_of_same hda hdb h hT⟩

theorem C70_problem_result (a b : ProblemArgs) (hda : ∀ d, a.domain = some d → ExistsDomain d)
    (hdb : ∀ d, b.domain = some d → ExistsDomain d) (h : SameProblemArgs a b) (p q : Problem)
    (ha : mkProblem a = .ok p) (hb : mkProblem b = .ok q) : p.pyEq q = true := by
  obtain ⟨_, rfl⟩ := (mkProblem_ok hda).1 ha
  obtain ⟨_, rfl⟩ := (mkProblem_ok hdb).1 hb
  have e1 : domOptEq a.domain b.domain = true := by
    have := h.domain
    cases ha : a.domain <;> cases hb : b.domain <;> rw [ha, hb] at this <;> simp_all [SameOpt, domOptEq]
  have e2 : metricEq a.metric b.metric = true := by
    have := h.metric
    cases ha : a.metric <;> cases hb : b.metric <;> rw [ha, hb] at this <;> simp_all [SameOpt, metricEq]
  have e3 : (a.goal.getD (mkAnd [])).pyEq (b.goal.getD (mkAnd [])) = true := by
    have := h.goal
    cases ha : a.goal <;> cases hb : b.goal <;> rw [ha, hb] at this <;> simp_all [SameOpt, Expr.pyEq_refl]
  have e4 : (problemOf a).domainName = (problemOf b).domainName ∧ reqsEq (problemOf a).reqs (problemOf b).reqs = true := by
    have := h.domain
    have hr := h.reqs
    cases ha : a.domain with
    | none =>
      cases hb : b.domain with
      | some _ => rw [ha, hb] at this; simp [SameOpt] at this
      | none =>
        simp only [problemOf, Problem.domainName, Problem.reqs, ha, hb, h.domainName, true_and, reqsEq_iff]
        cases ha' : a.reqs <;> cases hb' : b.reqs <;> rw [ha', hb'] at hr <;> simp_all [SameOpt, mem_reqSet]
    | some d =>
      cases hb : b.domain with
      | none => rw [ha, hb] at this; simp [SameOpt] at this
      | some d' =>
        rw [ha, hb] at this
        obtain ⟨_, e2, e3⟩ := declared_of_pyEq this
        simp only [problemOf, Problem.domainName, Problem.reqs, ha, hb, reqsEq_iff]
        exact ⟨e3, e2⟩
  unfold Problem.pyEq
  rw [e4.1, e4.2]
  simp [problemOf, h.name, e1, e2, e3, sameSet_dedup eqv_term h.objects, sameSet_dedup eqv_expr h.init]

end Pddl.Props
