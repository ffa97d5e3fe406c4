/-
Reading a condition with and without parameters of an action in force.
-/
import Verif.Spec.Scope
import Verif.Proofs.Provenance
import Verif.Proofs.Tags

namespace Pddl
open Spec

theorem erases_eq_map (as : List Expr) : erases as = as.map erase := by
  induction as with
  | nil => rfl
  | cons a as ih => simp [erases, ih]

/-! ### Constructors and maps -/

theorem memBy_map {φ : Expr → Expr} {U : Expr → Prop}
    (heq : ∀ a b, U a → U b → (φ a).pyEq (φ b) = a.pyEq b) {x : Expr} {l : List Expr} (hx : U x) (hl : ∀ a ∈ l, U a) :
    memBy Expr.pyEq (φ x) (l.map φ) = memBy Expr.pyEq x l := by
  induction l with
  | nil => rfl
  | cons a l ih =>
    have := ih (fun b hb => hl b (List.mem_cons_of_mem _ hb))
    simp only [memBy, List.map_cons, List.any_cons] at this ⊢
    rw [this]
    first
      | rw [heq x a hx (hl a (by simp))]
      | rw [heq a x (hl a (by simp)) hx]

theorem dedupAux_map {φ : Expr → Expr} {U : Expr → Prop}
    (heq : ∀ a b, U a → U b → (φ a).pyEq (φ b) = a.pyEq b) {l out : List Expr} (ho : ∀ a ∈ out, U a) (hl : ∀ a ∈ l, U a) :
    dedupAux Expr.pyEq (out.map φ) (l.map φ) = (dedupAux Expr.pyEq out l).map φ := by
  induction l generalizing out with
  | nil => simp [dedupAux]
  | cons a l ih =>
    have ha := hl a (by simp)
    have hl' := fun b hb => hl b (List.mem_cons_of_mem a hb)
    have := ih (out := out ++ [a]) (by intro b hb; rcases List.mem_append.1 hb with h | h; exact ho b h; simp at h; rw [h]; exact ha) hl'
    simp only [List.map_append, List.map_cons, List.map_nil] at this
    simp only [List.map_cons, dedupAux, memBy_map heq ha ho]
    split
    · exact ih ho hl'
    · rw [List.map_cons, ← this]

theorem flattenEs_map {c : Cls} {φ : Expr → Expr}
    (hop : ∀ e, (φ e).operandsIf c = (e.operandsIf c).map (List.map φ)) (as : List Expr) :
    flattenEs c (as.map φ) = (flattenEs c as).map φ := by
  generalize hn : Expr.sizes as = n
  induction n using Nat.strongRecOn generalizing as with
  | _ n ih =>
    subst hn
    cases as with
    | nil => simp [flattenEs]
    | cons a as =>
      have hpos : 0 < a.size := by cases a <;> simp [Expr.size] <;> omega
      simp only [List.map_cons, flattenEs, List.map_append]
      rw [ih (Expr.sizes as) (by simp only [Expr.sizes]; omega) as rfl]
      congr 1
      cases h : a.operandsIf c with
      | none =>
        rw [flattenE_none h, flattenE_none (by rw [hop, h]; rfl)]; rfl
      | some bs =>
        have hs := Expr.size_operands h
        rw [flattenE_some h, flattenE_some (as := bs.map φ) (by rw [hop, h]; rfl)]
        exact ih (Expr.sizes bs) (by simp only [Expr.sizes]; omega) bs rfl

theorem construct_map {c : Cls} {φ : Expr → Expr} {U : Expr → Prop}
    (hop : ∀ e, (φ e).operandsIf c = (e.operandsIf c).map (List.map φ))
    (hof : ∀ as, φ (Expr.ofCls c as) = Expr.ofCls c (as.map φ))
    (hU : ∀ e as, U e → e.operandsIf c = some as → ∀ a ∈ as, U a)
    (heq : ∀ a b, U a → U b → (φ a).pyEq (φ b) = a.pyEq b) {args : List Expr} (h : ∀ a ∈ args, U a) :
    construct c (args.map φ) = φ (construct c args) := by
  have hded : ∀ l, (∀ a ∈ l, U a) → dedupBy Expr.pyEq (l.map φ) = (dedupBy Expr.pyEq l).map φ := by
    intro l hl
    have := dedupAux_map (out := []) heq (by simp) hl
    simpa [dedupBy] using this
  have hsub : ∀ a ∈ dedupBy Expr.pyEq args, U a := fun a ha => h a (dedupBy_subset ha)
  have hflat := flattenEs_map (c := c) hop
  have hfU : ∀ l : List Expr, (∀ a ∈ l, U a) → ∀ a ∈ flattenEs c l, U a := fun l hl =>
    flatten_closed (P := U) c (fun e as h g => hU e as g h) l hl
  have hops : simplOperands c (args.map φ) = (simplOperands c args).map φ := by
    have key : ∀ old : List Expr, (∀ a ∈ old, U a) →
        (match old.map φ with
          | [] => []
          | [x] => [x]
          | old => simplLoop c old []) =
        (match old with
          | [] => []
          | [x] => [x]
          | old => simplLoop c old []).map φ := by
      intro old ho
      match old, ho with
      | [], _ => rfl
      | [x], _ => rfl
      | x :: y :: l, ho =>
        simp only [List.map_cons]
        rw [simplLoop_eq, simplLoop_eq, ← List.map_cons, ← List.map_cons, hflat]
        have := dedupAux_map (out := []) heq (by simp) (hfU _ ho)
        simpa using this
    unfold simplOperands
    simp only
    by_cases hi : c.idempotent = true
    · simp only [hi, if_true]
      rw [hded _ h]
      exact key _ hsub
    · simp only [hi, Bool.false_eq_true, if_false]
      exact key _ h
  unfold construct
  rw [hops]
  split
  · simp only
    match simplOperands c args with
    | [] => simp [hof]
    | [x] =>
      simp only [List.map_cons, List.map_nil]
      split
      · rfl
      · rw [hof]; rfl
    | x :: y :: l => simp [hof]
  · rw [hof]

/-! ### Erasing types -/

theorem eraseTerm_iff {τ : Str → List Str} {a b : Term}
    (ha : ∀ v ∈ varOf a, ∀ x, x ∈ v.tags ↔ x ∈ τ v.name) (hb : ∀ v ∈ varOf b, ∀ x, x ∈ v.tags ↔ x ∈ τ v.name) :
    (eraseTerm a).norm = (eraseTerm b).norm ↔ a.norm = b.norm := by
  rcases a with v | n <;> rcases b with w | m <;> simp [eraseTerm, Term.norm, Var.norm]
  intro h
  ext x
  have h1 := ha v (by simp [varOf]) x
  have h2 := hb w (by simp [varOf]) x
  rw [h] at h1
  simp [h1, h2]

theorem eraseTerms_iff {τ : Str → List Str} {as bs : List Term}
    (ha : ∀ v ∈ as.flatMap varOf, ∀ x, x ∈ v.tags ↔ x ∈ τ v.name)
    (hb : ∀ v ∈ bs.flatMap varOf, ∀ x, x ∈ v.tags ↔ x ∈ τ v.name) :
    (as.map eraseTerm).map Term.norm = (bs.map eraseTerm).map Term.norm ↔ as.map Term.norm = bs.map Term.norm := by
  induction as generalizing bs with
  | nil => cases bs <;> simp
  | cons a as ih =>
    cases bs with
    | nil => simp
    | cons b bs =>
      simp only [List.flatMap_cons, List.mem_append] at ha hb
      simp only [List.map_cons, List.cons.injEq]
      rw [eraseTerm_iff (fun v hv => ha v (Or.inl hv)) (fun v hv => hb v (Or.inl hv)),
        ih (fun v hv => ha v (Or.inr hv)) (fun v hv => hb v (Or.inr hv))]

/-- Among formulas whose occurrences carry the types `τ`, erasing keeps `==` and its negation. -/
theorem erase_iff {τ : Str → List Str} {a b : Expr} (ha : Uniform τ a) (hb : Uniform τ b) :
    (erase a).norm = (erase b).norm ↔ a.norm = b.norm := by
  have hl : ∀ (as bs : List Expr),
      (∀ a ∈ as, ∀ b : Expr, Uniform τ a → Uniform τ b → ((erase a).norm = (erase b).norm ↔ a.norm = b.norm)) →
      (∀ a ∈ as, Uniform τ a) → (∀ a ∈ bs, Uniform τ a) →
      (Expr.norms (erases as) = Expr.norms (erases bs) ↔ Expr.norms as = Expr.norms bs) := by
    intro as
    induction as with
    | nil => intro bs _ _ _; cases bs <;> simp [erases, Expr.norms]
    | cons a as ih' =>
      intro bs ih ha hb
      cases bs with
      | nil => simp [erases, Expr.norms]
      | cons b bs =>
        simp only [erases, Expr.norms, List.cons.injEq]
        rw [ih a (by simp) b (ha a (by simp)) (hb b (by simp)),
          ih' bs (fun x hx => ih x (List.mem_cons_of_mem _ hx)) (fun x hx => ha x (List.mem_cons_of_mem _ hx))
            (fun x hx => hb x (List.mem_cons_of_mem _ hx))]
  induction a using Expr.ind generalizing b with
  | hpred p =>
    cases b <;> simp only [erase, Expr.norm, NExpr.pred.injEq, reduceCtorEq]
    simp only [Uniform, occurrences, atoms, List.flatMap_cons, List.flatMap_nil, List.append_nil] at ha hb
    rw [eraseTerms_iff ha hb]
  | heq l r =>
    cases b <;> simp only [erase, Expr.norm, NExpr.eq.injEq, reduceCtorEq]
    simp only [Uniform, occurrences, atoms, List.flatMap_cons, List.flatMap_nil, List.append_nil,
      List.mem_append] at ha hb
    rw [eraseTerm_iff (fun v hv => ha v (Or.inl hv)) (fun v hv => hb v (Or.inl hv)),
      eraseTerm_iff (fun v hv => ha v (Or.inr hv)) (fun v hv => hb v (Or.inr hv))]
  | hnfun f =>
    cases b <;> simp only [erase, Expr.norm, NExpr.nfun.injEq, reduceCtorEq]
    simp only [Uniform, occurrences, atoms, List.flatMap_cons, List.flatMap_nil, List.append_nil] at ha hb
    rw [eraseTerms_iff ha hb]
  | hnum n => cases b <;> simp only [erase, Expr.norm, reduceCtorEq]
  | hbfun o as ih =>
    cases b <;> simp only [erase, Expr.norm, NExpr.bfun.injEq, reduceCtorEq]
    rw [hl as _ (fun a ha b h1 h2 => ih a ha h1 h2) (occurrences_cls (c := .fop o).mp ha)
      (occurrences_cls (c := .fop _).mp hb)]
  | hbin o as ih =>
    cases b <;> simp only [erase, Expr.norm, NExpr.bin.injEq, reduceCtorEq]
    rw [hl as _ (fun a ha b h1 h2 => ih a ha h1 h2) (occurrences_cls (c := .bop o).mp ha)
      (occurrences_cls (c := .bop _).mp hb)]
  | hnot a ih =>
    cases b <;> simp only [erase, Expr.norm, NExpr.not.injEq, reduceCtorEq]
    exact ih ha hb
  | hquant q vs c ih =>
    cases b <;> simp only [erase, Expr.norm, NExpr.quant.injEq, reduceCtorEq]
    rename_i c'
    have k : _ ↔ _ := ih (b := c') ha hb
    rw [k]
  | hwhen c e ih1 ih2 =>
    cases b <;> simp only [erase, Expr.norm, NExpr.when.injEq, reduceCtorEq]
    simp only [Uniform, occurrences, atoms, List.flatMap_append, List.mem_append] at ha hb
    rename_i c' e'
    have k1 : _ ↔ _ := ih1 (b := c') (fun v hv => ha v (Or.inl hv)) (fun v hv => hb v (Or.inl hv))
    have k2 : _ ↔ _ := ih2 (b := e') (fun v hv => ha v (Or.inr hv)) (fun v hv => hb v (Or.inr hv))
    rw [k1, k2]
  | hfall vs e ih =>
    cases b <;> simp only [erase, Expr.norm, NExpr.fall.injEq, reduceCtorEq]
    rename_i e'
    have k : _ ↔ _ := ih (b := e') ha hb
    rw [k]

theorem erase_construct {τ : Str → List Str} {c : Cls} {args : List Expr} (h : ∀ a ∈ args, Uniform τ a) :
    construct c (args.map erase) = erase (construct c args) := by
  refine construct_map (U := Uniform τ) ?_ ?_ ?_ ?_ h
  · intro e
    cases c <;> cases e <;> simp only [erase, Expr.operandsIf, Option.map_none]
    all_goals (rw [erases_eq_map]; split <;> rfl)
  · intro as
    cases c <;> simp only [Expr.ofCls, erase, erases_eq_map]
  · intro e as hu ho a ha
    rw [ofCls_operandsIf.1 ho] at hu
    exact occurrences_cls.1 hu a ha
  · intro a b ha hb
    rw [Bool.eq_iff_iff, Expr.pyEq_iff, Expr.pyEq_iff]
    exact erase_iff ha hb

/-! ### Reading with and without parameters -/

/-- The types of the parameters. -/
def GEnv.tagsOf (E : GEnv) (n : Str) : List Str := match dictGet E.params n with
  | some t => t.tags
  | none => []

/-- Parameters as `action_parameters` stores them, and constants. -/
structure GEnv.Plain (E : GEnv) : Prop where
  params : ∀ n t, dictGet E.params n = some t → ∃ tags, t = .var ⟨n, tags⟩ ∧ ValidName n
  constant : ∀ n t, E.constant n = .ok t → ∃ x, t = .const n x

/-- The environment without parameters. -/
def GEnv.bare (E : GEnv) : GEnv := { E with params := [] }

theorem variable_plain {E : GEnv} (hE : E.Plain) {n : Str} {t : Term} (h : E.variable n = .ok t) :
    t = .var ⟨n, E.tagsOf n⟩ ∧ ValidName n := by
  unfold GEnv.variable at h
  unfold GEnv.tagsOf
  split at h
  · rename_i t' ht
    simp only [pure_ok, Except.ok.injEq] at h
    subst h
    obtain ⟨tags, rfl, hv⟩ := hE.params _ _ ht
    rw [ht]
    exact ⟨rfl, hv⟩
  · rename_i hn
    obtain ⟨v, hv, h⟩ := bind_ok_iff.1 h
    simp only [pure_ok, Except.ok.injEq] at h
    subst h
    rw [hn]
    obtain ⟨h1, h2, rfl⟩ := mkVar_set_ok.1 hv
    exact ⟨rfl, h1⟩

theorem variable_bare {E : GEnv} {n : Str} (h : ValidName n) : E.bare.variable n = .ok (.var ⟨n, []⟩) := by
  have : mkVar n (.set []) = .ok ⟨n, []⟩ := mkVar_set_ok.2 ⟨h, by simp, rfl⟩
  simp [GEnv.variable, GEnv.bare, dictGet, this]

theorem writes_cons {n : Str} {t : Tree} {l : List Tree} (h : Writes n l) : Writes n (t :: l) := by
  obtain ⟨pre, post, rfl⟩ := h
  exact ⟨t :: pre, post, by simp⟩

/-- Terms with and without parameters: the variables lose their types; and they are written. -/
theorem terms_erase {E : GEnv} (hE : E.Plain) {args : List Tree} {ts : List Term} (h : E.terms args = .ok ts) :
    E.bare.terms args = .ok (ts.map eraseTerm) ∧
    (∀ t ∈ ts, (∃ n, t = .var ⟨n, E.tagsOf n⟩ ∧ Writes n args) ∨ ∃ n x, t = .const n x ∧ E.constant n = .ok t) := by
  induction args using GEnv.terms.induct generalizing ts with
  | case1 => simp [GEnv.terms] at h; subst h; simp [GEnv.terms]
  | case2 n args ih =>
    simp only [GEnv.terms, bind_ok_iff, pure_ok, Except.ok.injEq] at h
    obtain ⟨t, ht, r, hr, rfl⟩ := h
    obtain ⟨h1, h2⟩ := ih hr
    obtain ⟨x, rfl⟩ := hE.constant _ _ ht
    constructor
    · have : E.bare.constant n = .ok (.const n x) := ht
      simp [GEnv.terms, this, h1, eraseTerm]
    · intro u hu
      rcases List.mem_cons.1 hu with rfl | hu
      · exact .inr ⟨n, x, rfl, ht⟩
      · exact (h2 u hu).imp (fun ⟨n, e, w⟩ => ⟨n, e, writes_cons w⟩) id
  | case3 n args ih =>
    simp only [GEnv.terms, bind_ok_iff, pure_ok, Except.ok.injEq] at h
    obtain ⟨t, ht, r, hr, rfl⟩ := h
    obtain ⟨h1, h2⟩ := ih hr
    obtain ⟨rfl, hv⟩ := variable_plain hE ht
    constructor
    · simp [GEnv.terms, variable_bare hv, h1, eraseTerm]
    · intro u hu
      rcases List.mem_cons.1 hu with rfl | hu
      · exact .inl ⟨n, rfl, [], args, rfl⟩
      · exact (h2 u hu).imp (fun ⟨n, e, w⟩ => ⟨n, e, writes_cons (writes_cons w)⟩) id
  | case4 => simp [GEnv.terms] at h

/-- No variable that is written in the text has the name of a constant. -/
def NoClash (E : GEnv) (t : Tree) : Prop :=
  ∀ n l, Inside (.node l) t → Writes n l → ∀ x, E.constant n ≠ .ok x

theorem NoClash.sub {E : GEnv} {l : List Tree} (h : NoClash E (.node l)) {t : Tree} (ht : t ∈ l) : NoClash E t :=
  fun n l' hi hw => h n l' (.node ht hi) hw

theorem consistent_erase {E : GEnv} {args : List Tree} {ts : List Term}
    (h : ∀ t ∈ ts, (∃ n, t = .var ⟨n, E.tagsOf n⟩ ∧ Writes n args) ∨ ∃ n x, t = .const n x ∧ E.constant n = .ok t)
    (hc : ∀ n, Writes n args → ∀ x, E.constant n ≠ .ok x) (ht : termsConsistent [] ts = true) :
    termsConsistent [] (ts.map eraseTerm) = true := by
  rw [consistent_iff] at ht ⊢
  intro a ha b hb hn x
  obtain ⟨a', ha', rfl⟩ := List.mem_map.1 ha
  obtain ⟨b', hb', rfl⟩ := List.mem_map.1 hb
  rcases h a' ha' with ⟨n, rfl, hw⟩ | ⟨n, y, rfl, hk⟩ <;> rcases h b' hb' with ⟨m, rfl, hw'⟩ | ⟨m, z, rfl, hk'⟩
  · simp [eraseTerm, Term.tags]
  · simp only [eraseTerm, Term.name] at hn
    subst hn
    exact absurd hk' (hc _ hw _)
  · simp only [eraseTerm, Term.name] at hn
    subst hn
    exact absurd hk (hc _ hw' _)
  · exact ht _ ha' _ hb' hn x

theorem AllFrom.exact {E : GEnv} (hE : E.Plain) {e : Expr} (h : AllFrom E e) : ∀ v ∈ occurrences e, v.tags = E.tagsOf v.name := by
  intro v hv
  simp only [occurrences, List.mem_flatMap] at hv
  obtain ⟨a, ha, t, ht, hv⟩ := hv
  rcases h a ha t ht with ⟨n, hn⟩ | ⟨n, hn⟩
  · obtain ⟨x, rfl⟩ := hE.constant _ _ hn
    simp [varOf] at hv
  · obtain ⟨rfl, _⟩ := variable_plain hE hn
    simp only [varOf, List.mem_singleton] at hv
    subst hv; rfl

theorem AllFrom.uniform {E : GEnv} (hE : E.Plain) {e : Expr} (h : AllFrom E e) : Uniform E.tagsOf e :=
  fun v hv x => by rw [h.exact hE v hv]

theorem pairs_erase {R : Tree → Expr → Prop} {args : List Tree} {es : List Expr} (hl : args.length = es.length)
    (h : ∀ p ∈ args.zip es, R p.1 (erase p.2)) : args.length = (es.map erase).length ∧ ∀ p ∈ args.zip (es.map erase), R p.1 p.2 := by
  refine ⟨by simpa using hl, ?_⟩
  intro p hp
  rw [List.zip_map_right] at hp
  obtain ⟨q, hq, rfl⟩ := List.mem_map.1 hp
  exact h q hq

theorem FRel.erase {E : GEnv} (hE : E.Plain) {t : Tree} {e : Expr} (h : FRel E t e) : FRel E.bare t (erase e) := by
  induction h with
  | num h => exact .num h
  | @plus args es h2 hl hr ih =>
    rw [← erase_construct (τ := E.tagsOf) (AllFrom.pairs hl (fun p hp => (hr p hp).from) · · |>.uniform hE)]
    obtain ⟨h1, h3⟩ := pairs_erase hl ih
    exact .plus h2 h1 h3
  | @times args es h2 hl hr ih =>
    rw [← erase_construct (τ := E.tagsOf) (AllFrom.pairs hl (fun p hp => (hr p hp).from) · · |>.uniform hE)]
    obtain ⟨h1, h3⟩ := pairs_erase hl ih
    exact .times h2 h1 h3
  | divide r1 r2 h1 h2 =>
    rw [← erase_construct (τ := E.tagsOf) (by
      intro a ha; simp only [List.mem_cons, List.not_mem_nil, or_false] at ha
      rcases ha with rfl | rfl; exact r1.from.uniform hE; exact r2.from.uniform hE)]
    exact .divide h1 h2
  | minus r1 h1 =>
    rw [← erase_construct (τ := E.tagsOf) (by
      intro a ha; simp only [List.mem_cons, List.not_mem_nil, or_false] at ha
      rcases ha with rfl; exact r1.from.uniform hE)]
    exact .minus h1
  | fn0 h => obtain ⟨h1, rfl⟩ := mkNFun_ok.1 h; exact .fn0 (mkNFun_ok.2 ⟨h1, rfl⟩)
  | fn h h' =>
    obtain ⟨h1, rfl⟩ := mkNFun_ok.1 h'
    exact .fn (terms_erase hE h).1 (mkNFun_ok.2 ⟨h1, rfl⟩)

theorem GRel.erase {E : GEnv} (hE : E.Plain) {t : Tree} {e : Expr} (h : GRel E t e) (hc : NoClash E t) :
    GRel E.bare t (erase e) := by
  induction h with
  | @and args es hl hr ih =>
    unfold mkAnd
    rw [← erase_construct (τ := E.tagsOf) (AllFrom.pairs hl (fun p hp => (hr p hp).from) · · |>.uniform hE)]
    obtain ⟨h1, h3⟩ := pairs_erase (R := GRel E.bare) hl (fun p hp => ih p hp (hc.sub (List.mem_cons_of_mem _ (List.of_mem_zip hp).1)))
    exact .and h1 h3
  | @or args es hl hr hu ih =>
    unfold mkOr
    rw [← erase_construct (τ := E.tagsOf) (AllFrom.pairs hl (fun p hp => (hr p hp).from) · · |>.uniform hE)]
    obtain ⟨h1, h3⟩ := pairs_erase (R := GRel E.bare) hl (fun p hp => ih p hp (hc.sub (List.mem_cons_of_mem _ (List.of_mem_zip hp).1)))
    exact .or h1 h3 hu
  | not _ ih => exact .not (ih (hc.sub (by simp)))
  | imply r1 r2 hu ih1 ih2 =>
    rw [← erase_construct (τ := E.tagsOf) (by
      intro a ha; simp only [List.mem_cons, List.not_mem_nil, or_false] at ha
      rcases ha with rfl | rfl; exact r1.from.uniform hE; exact r2.from.uniform hE)]
    exact .imply (ih1 (hc.sub (by simp))) (ih2 (hc.sub (by simp))) hu
  | quant h1 h2 _ h4 h5 ih => exact .quant h1 h2 (ih (hc.sub (by simp))) h4 h5
  | @atom n args ts p hn h1 h2 =>
    obtain ⟨g1, g2⟩ := terms_erase hE h1
    obtain ⟨k1, k2, rfl⟩ := mkPred_ok.1 h2
    exact .atom hn g1 (mkPred_ok.2 ⟨k1, consistent_erase g2 (fun m hw => hc m _ .refl (writes_cons hw)) k2, rfl⟩)
  | @eq args l r e hs h1 hu h2 =>
    obtain ⟨g1, g2⟩ := terms_erase hE h1
    obtain ⟨k2, rfl⟩ := mkEq_ok.1 h2
    exact .eq hs g1 hu (mkEq_ok.2 ⟨consistent_erase g2 (fun m hw => hc m _ .refl (writes_cons hw)) k2, rfl⟩)
  | comp ho hs h1 h2 =>
    have r1 := fExp_rel h1
    have r2 := fExp_rel h2
    rw [← erase_construct (τ := E.tagsOf) (by
      intro a ha; simp only [List.mem_cons, List.not_mem_nil, or_false] at ha
      rcases ha with rfl | rfl; exact r1.from.uniform hE; exact r2.from.uniform hE)]
    exact .comp ho hs (fExp_of_rel (r1.erase hE)) (fExp_of_rel (r2.erase hE))

end Pddl
