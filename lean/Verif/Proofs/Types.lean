/- The type checks decide the specification. -/
import Verif.Spec.Types
import Verif.Spec.Built
import Verif.Proofs.Cycle
import Verif.Proofs.Names
import Verif.Proofs.EqDomain
import Verif.Proofs.Sem

namespace Pddl
open Spec

/-! ### Requirements -/

theorem mem_extendReqs {rs : List Req} {r : Req} : r ∈ extendReqs rs ↔ InForce rs r := by
  unfold extendReqs reqSet InForce
  rw [mem_dedup]
  by_cases h1 : Req.quantifiedPrecondition ∈ rs <;> by_cases h2 : Req.adl ∈ rs <;>
    by_cases h3 : Req.fluents ∈ rs <;>
    simp [h1, h2, h3, quantifiedReqs, adlReqs, fluentsReqs] <;> tauto

theorem typing_extend {rs : List Req} : Req.typing ∈ extendReqs rs ↔ HasTyping rs := by
  rw [mem_extendReqs]; simp [InForce, HasTyping]

theorem mem_reqSet {rs : List Req} {r : Req} : r ∈ reqSet rs ↔ r ∈ rs := mem_dedup

theorem numeric_extend {rs : List Req} :
    Req.numericFluents ∈ extendReqs rs ↔ Req.numericFluents ∈ rs ∨ Req.fluents ∈ rs := by
  rw [mem_extendReqs]; simp [InForce]

/-! ### Loops -/

theorem bind_unit_ok {x : Except Exc Unit} {f : Unit → Except Exc Unit} :
    (x >>= f) = .ok () ↔ x = .ok () ∧ f () = .ok () := by
  cases x <;> simp

theorem bind_unit_error {x : Except Exc Unit} {f : Unit → Except Exc Unit} {e : Exc} :
    (x >>= f) = .error e ↔ x = .error e ∨ (x = .ok () ∧ f () = .error e) := by
  cases x <;> simp

theorem checkEach_ok {α} {f : α → Except Exc Unit} {l : List α} :
    checkEach f l = .ok () ↔ ∀ a ∈ l, f a = .ok () := by
  induction l with
  | nil => simp [checkEach]
  | cons a l ih => rw [checkEach, bind_unit_ok, ih]; simp

theorem checkEach_error {α} {f : α → Except Exc Unit} {l : List α} {e : Exc}
    (h : checkEach f l = .error e) : ∃ a ∈ l, f a = .error e := by
  induction l with
  | nil => simp [checkEach] at h
  | cons a l ih =>
    rw [checkEach, bind_unit_error] at h
    rcases h with h | ⟨_, h⟩
    · exact ⟨a, by simp, h⟩
    · obtain ⟨b, hb, h⟩ := ih h
      exact ⟨b, List.mem_cons_of_mem _ hb, h⟩

/-! ### Terms, formulas, actions -/

variable {c : TCtx}

theorem checkTerm_ok {t : Term} :
    c.checkTerm t = .ok () ↔ WellTypedTerm (· ∈ c.all) c.reqs t := by
  unfold TCtx.checkTerm TCtx.checkReq TCtx.checkAvail WellTypedTerm
  rw [bind_unit_ok]
  have h1 : c.hasTyping = true ↔ HasTyping c.reqs := by
    unfold TCtx.hasTyping; rw [decide_eq_true_eq, typing_extend]
  by_cases ht : c.hasTyping = true
  · have := h1.mp ht
    simp [ht, this]
  · have h2 : ¬ HasTyping c.reqs := fun h => ht (h1.mpr h)
    have h3 : c.hasTyping = false := by simpa using ht
    cases hl : t.tags with
    | nil => simp
    | cons x l => simp [h3, h2]

theorem checkTerm_error {t : Term} {e : Exc} (h : c.checkTerm t = .error e) : e = .validation := by
  unfold TCtx.checkTerm TCtx.checkReq TCtx.checkAvail at h
  rw [bind_unit_error] at h
  rcases h with h | ⟨_, h⟩
  · split at h <;> simp at h; exact h.symm
  · split at h <;> simp at h; exact h.symm

theorem mem_termsAll {as : List Expr} {t : Term} : t ∈ termsAll as ↔ ∃ a ∈ as, t ∈ terms a := by
  induction as with
  | nil => simp [termsAll]
  | cons a as ih => simp [termsAll, ih]

theorem checkExprs_ok {as : List Expr} : c.checkExprs as = .ok () ↔ ∀ a ∈ as, c.checkExpr a = .ok () := by
  induction as with
  | nil => simp [TCtx.checkExprs]
  | cons a as ih => rw [TCtx.checkExprs, bind_unit_ok, ih]; simp

theorem checkExprs_error {as : List Expr} {e : Exc} (h : c.checkExprs as = .error e) :
    ∃ a ∈ as, c.checkExpr a = .error e := by
  induction as with
  | nil => simp [TCtx.checkExprs] at h
  | cons a l ih =>
    rw [TCtx.checkExprs, bind_unit_error] at h
    rcases h with h | ⟨_, h⟩
    · exact ⟨a, by simp, h⟩
    · obtain ⟨b, hb, h⟩ := ih h
      exact ⟨b, List.mem_cons_of_mem _ hb, h⟩

theorem checkTerms_ok {ts : List Term} :
    checkEach c.checkTerm ts = .ok () ↔ ∀ t ∈ ts, WellTypedTerm (· ∈ c.all) c.reqs t := by
  rw [checkEach_ok]; simp only [checkTerm_ok]

theorem checkExpr_ok {e : Expr} : c.checkExpr e = .ok () ↔ WellTyped (· ∈ c.all) c.reqs e := by
  unfold WellTyped
  have hl : ∀ as : List Expr, (∀ a ∈ as, (c.checkExpr a = .ok () ↔
      ∀ t ∈ terms a, WellTypedTerm (· ∈ c.all) c.reqs t)) →
      (c.checkExprs as = .ok () ↔ ∀ t ∈ termsAll as, WellTypedTerm (· ∈ c.all) c.reqs t) := by
    intro as ih
    rw [checkExprs_ok]
    constructor
    · intro h t ht
      obtain ⟨a, ha, ht⟩ := mem_termsAll.mp ht
      exact (ih a ha).mp (h a ha) t ht
    · intro h a ha
      exact (ih a ha).mpr (fun t ht => h t (mem_termsAll.mpr ⟨a, ha, ht⟩))
  induction e using Expr.ind with
  | hpred p => rw [TCtx.checkExpr, checkTerms_ok, terms]
  | heq l r => rw [TCtx.checkExpr, bind_unit_ok, terms, checkTerm_ok, checkTerm_ok]; simp
  | hnfun f => rw [TCtx.checkExpr, checkTerms_ok, terms]
  | hnum n => simp [TCtx.checkExpr, terms]
  | hbfun o as ih => rw [TCtx.checkExpr, terms]; exact hl as ih
  | hbin o as ih => rw [TCtx.checkExpr, terms]; exact hl as ih
  | hnot a ih => rw [TCtx.checkExpr, terms]; exact ih
  | hquant q vs a ih =>
    rw [TCtx.checkExpr, bind_unit_ok, terms, checkTerms_ok]
    refine (and_congr Iff.rfl ih).trans ?_
    simp only [List.mem_append, or_imp, forall_and]
  | hwhen a e iha ihe =>
    rw [TCtx.checkExpr, bind_unit_ok, terms]
    refine (and_congr iha ihe).trans ?_
    simp only [List.mem_append, or_imp, forall_and]
  | hfall vs e ih =>
    rw [TCtx.checkExpr, bind_unit_ok, terms, checkTerms_ok]
    refine (and_congr Iff.rfl ih).trans ?_
    simp only [List.mem_append, or_imp, forall_and]

theorem checkExpr_error {e : Expr} {x : Exc} (h : c.checkExpr e = .error x) : x = .validation := by
  have ht : ∀ ts x, checkEach c.checkTerm ts = .error x → x = .validation := by
    intro ts x h
    obtain ⟨t, _, h⟩ := checkEach_error h
    exact checkTerm_error h
  have hl : ∀ as : List Expr, (∀ a ∈ as, ∀ x, c.checkExpr a = .error x → x = .validation) →
      ∀ x, c.checkExprs as = .error x → x = .validation := by
    intro as ih x h
    obtain ⟨a, ha, h⟩ := checkExprs_error h
    exact ih a ha x h
  induction e using Expr.ind generalizing x with
  | hpred p => rw [TCtx.checkExpr] at h; exact ht _ _ h
  | heq l r =>
    rw [TCtx.checkExpr, bind_unit_error] at h
    rcases h with h | ⟨_, h⟩ <;> exact checkTerm_error h
  | hnfun f => rw [TCtx.checkExpr] at h; exact ht _ _ h
  | hnum n => simp [TCtx.checkExpr] at h
  | hbfun o as ih => rw [TCtx.checkExpr] at h; exact hl as (fun a ha x => ih a ha) _ h
  | hbin o as ih => rw [TCtx.checkExpr] at h; exact hl as (fun a ha x => ih a ha) _ h
  | hnot a ih => rw [TCtx.checkExpr] at h; exact ih h
  | hquant q vs a ih =>
    rw [TCtx.checkExpr, bind_unit_error] at h
    rcases h with h | ⟨_, h⟩
    · exact ht _ _ h
    · exact ih h
  | hwhen a e iha ihe =>
    rw [TCtx.checkExpr, bind_unit_error] at h
    rcases h with h | ⟨_, h⟩
    · exact iha h
    · exact ihe h
  | hfall vs e ih =>
    rw [TCtx.checkExpr, bind_unit_error] at h
    rcases h with h | ⟨_, h⟩
    · exact ht _ _ h
    · exact ih h

theorem checkOpt_ok {o : Option Expr} : c.checkOpt o = .ok () ↔
    o ≠ none ∧ ∀ t ∈ termsOpt o, WellTypedTerm (· ∈ c.all) c.reqs t := by
  cases o with
  | none => simp [TCtx.checkOpt]
  | some e => rw [TCtx.checkOpt, checkExpr_ok]; simp [termsOpt, WellTyped]

theorem checkAction_ok {a : Action} : c.checkAction a = .ok () ↔
    a.pre ≠ none ∧ a.eff ≠ none ∧ WellTypedAction (· ∈ c.all) c.reqs a := by
  unfold TCtx.checkAction WellTypedAction
  rw [bind_unit_ok, bind_unit_ok, checkTerms_ok, checkOpt_ok, checkOpt_ok]
  simp only [List.mem_append, or_imp, forall_and]
  tauto

theorem checkHasTerms_ok {all : List Str} {objs : List (List Term)} :
    checkHasTerms all objs = .ok () ↔ ∀ ts ∈ objs, ∀ t ∈ ts, ∀ x ∈ t.tags, x ∈ all := by
  unfold checkHasTerms
  split
  · next h => simp only [List.all_eq_true, decide_eq_true_eq] at h; simpa using h
  · next h => simp only [List.all_eq_true, decide_eq_true_eq] at h; simpa using h

/-! ### Dictionaries of types -/

/-- What `to_types` makes of the value. -/
def cleanParent : Option Str → Option Str
  | some [] => none
  | o => o

def cleanDict (d : TypeDict) : TypeDict := d.map (fun p => (p.1, cleanParent p.2))

theorem dictHas_iff {β} {d : List (Str × β)} {k : Str} : dictHas d k = true ↔ k ∈ d.map Prod.fst := by
  simp [dictHas, List.any_eq_true]

theorem dictOf_nodup {β} {l : List (Str × β)} (h : IsDict l) : dictOf l = l := by
  unfold dictOf
  have : ∀ (l acc : List (Str × β)), IsDict (acc ++ l) →
      l.foldl (fun d p => dictSet d p.1 p.2) acc = acc ++ l := by
    intro l
    induction l with
    | nil => simp
    | cons p l ih =>
      intro acc h
      have hp : p.1 ∉ acc.map Prod.fst := by
        unfold IsDict at h
        rw [List.map_append, List.nodup_append] at h
        intro hc
        exact h.2.2 p.1 hc p.1 (by simp) rfl
      rw [List.foldl_cons]
      have : dictSet acc p.1 p.2 = acc ++ [p] := by
        unfold dictSet
        rw [if_neg (by rw [dictHas_iff]; exact hp)]
      rw [this, ih _ (by simpa using h)]
      simp
  simpa using this l [] (by simpa using h)

theorem toTypes_ok {d d' : TypeDict} (hd : IsDict d) :
    toTypes d = .ok d' ↔ TypeNamesOk d ∧ d' = cleanDict d := by
  unfold toTypes TypeNamesOk
  have hm : ∀ (d items : TypeDict), d.mapM (fun (p : Str × Option Str) => (do
      let k ← parseType p.1
      match p.2 with
      | none => pure (k, none)
      | some [] => pure (k, none)
      | some a => do
        let a' ← parseType a
        pure (k, some a') : Except Exc (Str × Option Str))) = .ok items ↔
      (∀ p ∈ d, ValidType p.1 ∧ ∀ b, p.2 = some b → b ≠ [] → ValidType b) ∧ items = cleanDict d := by
    intro d
    induction d with
    | nil => intro items; simp [cleanDict, eq_comm]
    | cons p d ih =>
      intro items
      obtain ⟨k, v⟩ := p
      rw [List.mapM_cons, bind_ok_iff]
      have h1 : ∀ q, (do
          let k ← parseType k
          match v with
          | none => pure (k, none)
          | some [] => pure (k, none)
          | some a => do
            let a' ← parseType a
            pure (k, some a') : Except Exc (Str × Option Str)) = .ok q ↔
          (ValidType k ∧ ∀ b, v = some b → b ≠ [] → ValidType b) ∧ q = (k, cleanParent v) := by
        intro q
        rw [bind_ok_iff]
        constructor
        · rintro ⟨k', hk, h⟩
          obtain ⟨rfl, hv⟩ := parseType_ok.mp hk
          split at h
          · simp at h; simp [hv, cleanParent, h]
          · simp at h; simp [hv, cleanParent, h]
          · next a hne =>
            rw [bind_ok_iff] at h
            obtain ⟨a', ha, h⟩ := h
            obtain ⟨rfl, hva⟩ := parseType_ok.mp ha
            simp at h
            refine ⟨⟨hv, ?_⟩, ?_⟩
            · intro b hb _; simp at hb; subst hb; exact hva
            · rw [← h]
              cases a' with
              | nil => exact absurd rfl hne
              | cons => rfl
        · rintro ⟨⟨hk, hv⟩, rfl⟩
          refine ⟨k, parseType_of_valid hk, ?_⟩
          split
          · rfl
          · rfl
          · next a hne =>
            have hne' : a ≠ [] := fun e => hne (by rw [e])
            rw [parseType_of_valid (hv a rfl hne')]
            cases a with
            | nil => exact absurd rfl hne'
            | cons => rfl
      constructor
      · rintro ⟨q, hq, h⟩
        obtain ⟨hq1, rfl⟩ := (h1 q).mp hq
        rw [bind_ok_iff] at h
        obtain ⟨items', h2, h3⟩ := h
        obtain ⟨h4, rfl⟩ := (ih items').mp h2
        simp at h3
        refine ⟨?_, by rw [← h3]; rfl⟩
        intro p hp
        rcases List.mem_cons.mp hp with rfl | hp
        · exact hq1
        · exact h4 p hp
      · rintro ⟨h2, rfl⟩
        refine ⟨_, (h1 _).mpr ⟨h2 (k, v) (by simp), rfl⟩, ?_⟩
        rw [bind_ok_iff]
        exact ⟨_, (ih _).mpr ⟨fun p hp => h2 p (List.mem_cons_of_mem _ hp), rfl⟩, rfl⟩
  rw [bind_ok_iff]
  constructor
  · rintro ⟨items, h1, h2⟩
    obtain ⟨h3, rfl⟩ := (hm d items).mp h1
    refine ⟨h3, ?_⟩
    simp at h2
    rw [← h2]
    apply dictOf_nodup
    simpa [IsDict, cleanDict, List.map_map, Function.comp_def] using hd
  · rintro ⟨h1, rfl⟩
    refine ⟨_, (hm d _).mpr ⟨h1, rfl⟩, ?_⟩
    rw [dictOf_nodup]
    · rfl
    · simpa [IsDict, cleanDict, List.map_map, Function.comp_def] using hd

theorem lookup_cleanDict {d : TypeDict} {a : Str} :
    (cleanDict d).lookup a = (d.lookup a).map cleanParent := by
  induction d with
  | nil => rfl
  | cons p d ih =>
    obtain ⟨k, v⟩ := p
    have : cleanDict ((k, v) :: d) = (k, cleanParent v) :: cleanDict d := rfl
    rw [this, List.lookup_cons, List.lookup_cons, ih]
    split <;> rfl

theorem parent_clean {d : TypeDict} {a b : Str} :
    (cleanDict d).lookup a = some (some b) ↔ Parent d a b := by
  rw [lookup_cleanDict]
  unfold Parent
  cases hl : d.lookup a with
  | none => simp
  | some v =>
    cases v with
    | none => simp [cleanParent]
    | some s =>
      cases s with
      | nil =>
        simp only [Option.map_some, cleanParent, Option.some.injEq]
        constructor
        · intro h; simp at h
        · rintro ⟨rfl, h⟩; exact absurd rfl h
      | cons x s =>
        simp only [Option.map_some, cleanParent, Option.some.injEq]
        constructor
        · rintro rfl; simp
        · rintro ⟨h, _⟩; exact h

theorem edge_typeGraph {d : TypeDict} {a b : Str} : Edge (typeGraph d) a b ↔ d.lookup a = some (some b) := by
  unfold Edge
  have hgen : ∀ (F : Option Str → List Str) (d : TypeDict),
      List.lookup a (d.map (fun p => (p.1, some (F p.2)))) = (d.lookup a).map (fun v => some (F v)) := by
    intro F d
    induction d with
    | nil => rfl
    | cons p d ih =>
      obtain ⟨k, v⟩ := p
      rw [List.map_cons, List.lookup_cons, List.lookup_cons, ih]
      cases a == k <;> rfl
  have e : List.lookup a (typeGraph d) = (d.lookup a).map (fun v => some (match v with
      | some v => [v] | none => [])) := hgen (fun v => match v with | some v => [v] | none => []) d
  rw [e]
  cases d.lookup a with
  | none => simp
  | some v => cases v <;> simp [eq_comm]

theorem supertypes_iff {d : TypeDict} (hd : IsDict d) :
    0 < (d.filterMap Prod.snd).length ↔ ∃ a b, d.lookup a = some (some b) := by
  rw [List.length_pos_iff_exists_mem]
  constructor
  · rintro ⟨b, hb⟩
    obtain ⟨p, hp, e⟩ := List.mem_filterMap.mp hb
    refine ⟨p.1, b, ?_⟩
    have : (p.1, some b) ∈ d := by rw [← e]; exact hp
    exact dictGet_of_mem hd this
  · rintro ⟨a, b, h⟩
    exact ⟨b, List.mem_filterMap.mpr ⟨_, lookup_mem h, rfl⟩⟩

theorem isDict_clean {d : TypeDict} (hd : IsDict d) : IsDict (cleanDict d) := by
  simpa [IsDict, cleanDict, List.map_map, Function.comp_def] using hd

theorem checkTypeDict_ok {d : TypeDict} (hd : IsDict d) {rs : List Req} :
    checkTypeDict (cleanDict d) rs = .ok () ↔ HierarchyOk d rs := by
  have hg : ∀ a b, Edge (typeGraph (cleanDict d)) a b ↔ Parent d a b := fun a b => by
    rw [edge_typeGraph, parent_clean]
  have hcyc : (findCycle (typeGraph (cleanDict d))).isSome = true ↔ ∃ a, Relation.TransGen (Parent d) a a := by
    rw [← not_iff_not, Bool.not_eq_true, Option.isSome_eq_false_iff, Option.isNone_iff_eq_none,
      findCycle_eq_none]
    unfold Cyclic
    have : Edge (typeGraph (cleanDict d)) = Parent d := by
      funext a b; exact propext (hg a b)
    rw [this]
  have hsup := supertypes_iff (isDict_clean hd)
  simp only [parent_clean] at hsup
  unfold checkTypeDict
  split
  · next h0 =>
    have : d = [] := by
      have : (cleanDict d) = [] := List.length_eq_zero_iff.mp h0
      simpa [cleanDict] using this
    subst this
    simp only [true_iff]
    have hn : ∀ a b, ¬ Parent [] a b := by simp [Parent]
    refine ⟨fun ⟨a, b, h⟩ => absurd h (hn a b), hn _, fun a h => ?_⟩
    · obtain ⟨b, h, _⟩ := Relation.TransGen.head'_iff.mp h
      exact hn _ _ h
  · split
    · next h1 =>
      simp only [reduceCtorEq, false_iff]
      intro h
      exact h1.2 (h.typing (hsup.mp h1.1))
    · next h1 =>
      split
      · next b hb =>
        rw [if_pos rfl]
        simp only [reduceCtorEq, false_iff]
        intro h
        exact h.object b (parent_clean.mp hb)
      · next h2 =>
        rw [if_neg (by simp)]
        split
        · next h3 =>
          simp only [reduceCtorEq, false_iff]
          intro h
          obtain ⟨a, ha⟩ := hcyc.mp h3
          exact h.acyclic a ha
        · next h3 =>
          simp only [true_iff]
          refine ⟨?_, ?_, ?_⟩
          · intro h
            by_contra hc
            exact h1 ⟨hsup.mpr h, hc⟩
          · intro b hb
            exact h2 b (parent_clean.mpr hb)
          · intro a ha
            exact h3 (hcyc.mpr ⟨a, ha⟩)

theorem checkTypeDict_error {d : TypeDict} {rs : List Req} {e : Exc} (h : checkTypeDict d rs = .error e) :
    e = .validation := by
  unfold checkTypeDict at h
  repeat' split at h
  all_goals first | (simp at h; exact h.symm) | simp at h

theorem mkTypes_ok {d d' : TypeDict} (hd : IsDict d) {rs : List Req} :
    mkTypes d rs = .ok d' ↔ TypeNamesOk d ∧ HierarchyOk d rs ∧ d' = cleanDict d := by
  unfold mkTypes
  rw [bind_ok_iff]
  constructor
  · rintro ⟨d1, h1, h2⟩
    obtain ⟨h3, rfl⟩ := (toTypes_ok hd).mp h1
    rw [bind_ok_iff] at h2
    obtain ⟨_, h4, h5⟩ := h2
    simp at h5
    exact ⟨h3, (checkTypeDict_ok hd).mp h4, h5.symm⟩
  · rintro ⟨h1, h2, rfl⟩
    refine ⟨_, (toTypes_ok hd).mpr ⟨h1, rfl⟩, ?_⟩
    rw [(checkTypeDict_ok hd).mpr h2]
    rfl

theorem mem_typesAll {d : TypeDict} {t : Str} : t ∈ typesAll (cleanDict d) ↔ Declared d t := by
  unfold typesAll Declared
  rw [mem_dedup, List.mem_append]
  simp only [cleanDict, List.mem_map, List.mem_filterMap]
  constructor
  · rintro (⟨q, ⟨p, hp, rfl⟩, rfl⟩ | ⟨q, ⟨p, hp, rfl⟩, h⟩)
    · exact ⟨p, hp, Or.inl rfl⟩
    · refine ⟨p, hp, Or.inr ?_⟩
      simp only at h
      obtain ⟨k, v⟩ := p
      cases v with
      | none => simp [cleanParent] at h
      | some s =>
        cases s with
        | nil => simp [cleanParent] at h
        | cons x s => simp [cleanParent] at h; subst h; simp
  · rintro ⟨p, hp, rfl | ⟨h, hne⟩⟩
    · exact Or.inl ⟨_, ⟨p, hp, rfl⟩, rfl⟩
    · refine Or.inr ⟨_, ⟨p, hp, rfl⟩, ?_⟩
      simp only [h]
      cases t with
      | nil => exact absurd rfl hne
      | cons => rfl

/-! ### Functions -/

theorem checkTotalCost_ok {d : FunDict} {rs : List Req} :
    checkTotalCost d rs = .ok () ↔
      ((∃ p ∈ d, p.1.name = s%"total-cost") → Req.actionCosts ∈ rs) ∧
      ((∃ p ∈ d, p.1.name ≠ s%"total-cost") → Req.numericFluents ∈ rs ∨ Req.fluents ∈ rs) := by
  unfold checkTotalCost
  cases d with
  | nil => simp
  | cons q d =>
    rw [if_neg (by simp)]
    split
    · next h =>
      simp only [List.any_eq_true, decide_eq_true_eq] at h
      rw [bind_unit_ok, check_ok, decide_eq_true_eq]
      constructor
      · rintro ⟨h1, h2⟩
        refine ⟨fun _ => h1, fun h3 => ?_⟩
        rw [if_pos (by simpa only [List.any_eq_true, Bool.not_eq_true', decide_eq_false_iff_not] using h3),
          check_ok, decide_eq_true_eq, numeric_extend] at h2
        exact h2
      · rintro ⟨h1, h2⟩
        refine ⟨h1 h, ?_⟩
        split
        · next h3 =>
          simp only [List.any_eq_true, Bool.not_eq_true', decide_eq_false_iff_not] at h3
          rw [check_ok, decide_eq_true_eq, numeric_extend]
          exact h2 h3
        · rfl
    · next h =>
      simp only [List.any_eq_true, decide_eq_true_eq, not_exists, not_and] at h
      rw [check_ok, decide_eq_true_eq, numeric_extend]
      constructor
      · intro h1
        exact ⟨fun ⟨p, hp, e⟩ => absurd e (h p hp), fun _ => h1⟩
      · rintro ⟨_, h2⟩
        exact h2 ⟨q, by simp, h q (by simp)⟩

/-! ### Domains -/

theorem dedup_firstOcc {α} {eq : α → α → Bool} (h : Equivalence (fun a b => eq a b = true)) (l : List α) :
    dedupBy eq l = firstOcc eq l := by
  unfold dedupBy
  rw [dedupAux_firstOcc (eq := eq) (fun a b c h1 h2 => h.trans h1 h2)]
  simp [memBy]

theorem hierarchyOk_congr {d : TypeDict} {rs rs' : List Req} (h : ∀ r, r ∈ rs ↔ r ∈ rs') :
    HierarchyOk d rs ↔ HierarchyOk d rs' :=
  ⟨fun k => ⟨fun e => (h _).mp (k.typing e), k.object, k.acyclic⟩,
   fun k => ⟨fun e => (h _).mpr (k.typing e), k.object, k.acyclic⟩⟩

theorem wellTypedTerm_congr {p q : Str → Prop} (hp : ∀ x, p x ↔ q x) {rs rs' : List Req}
    (h : ∀ r, r ∈ rs ↔ r ∈ rs') (t : Term) : WellTypedTerm p rs t ↔ WellTypedTerm q rs' t := by
  unfold WellTypedTerm HasTyping
  simp only [hp, h]

/-- The domain object made from the arguments. -/
def domainOf (a : DomainArgs) : Domain :=
  { name := a.name, reqs := reqSet a.reqs, types := cleanDict a.types
    constants := dedupBy Term.pyEq a.constants
    predicates := dedupBy Pred.pyEq a.predicates
    functions := a.functions
    derived := dedupBy Derived.pyEq a.derived
    actions := dedupBy Action.pyEq a.actions }

theorem mkDomain_ok {a : DomainArgs} {d : Domain} (ht : IsDict a.types) :
    mkDomain a = .ok d ↔
      ValidName a.name ∧ TypeNamesOk a.types ∧ HierarchyOk a.types a.reqs ∧
      (((∃ p ∈ a.functions, p.1.name = s%"total-cost") → Req.actionCosts ∈ a.reqs) ∧
       ((∃ p ∈ a.functions, p.1.name ≠ s%"total-cost") → Req.numericFluents ∈ a.reqs ∨ Req.fluents ∈ a.reqs)) ∧
      (∀ t ∈ firstOcc Term.pyEq a.constants, WellTypedTerm (Declared a.types) a.reqs t) ∧
      (∀ p ∈ firstOcc Pred.pyEq a.predicates, ∀ t ∈ p.terms, WellTypedTerm (Declared a.types) a.reqs t) ∧
      (∀ x ∈ firstOcc Action.pyEq a.actions, x.pre ≠ none ∧ x.eff ≠ none ∧
        WellTypedAction (Declared a.types) a.reqs x) ∧
      (∀ x ∈ firstOcc Derived.pyEq a.derived, ∀ t ∈ x.pred.terms, ∀ y ∈ t.tags, Declared a.types y) ∧
      d = domainOf a := by
  have hw : ∀ t, WellTypedTerm (fun x => Declared a.types x) (reqSet a.reqs) t ↔
      WellTypedTerm (Declared a.types) a.reqs t := fun t =>
    wellTypedTerm_congr (fun x => Iff.rfl) (fun r => mem_reqSet) t
  have hcons : (domainOf a).checkConsistency = .ok () ↔
      (∀ t ∈ firstOcc Term.pyEq a.constants, WellTypedTerm (Declared a.types) a.reqs t) ∧
      (∀ p ∈ firstOcc Pred.pyEq a.predicates, ∀ t ∈ p.terms, WellTypedTerm (Declared a.types) a.reqs t) ∧
      (∀ x ∈ firstOcc Action.pyEq a.actions, x.pre ≠ none ∧ x.eff ≠ none ∧
        WellTypedAction (Declared a.types) a.reqs x) ∧
      (∀ x ∈ firstOcc Derived.pyEq a.derived, ∀ t ∈ x.pred.terms, ∀ y ∈ t.tags, Declared a.types y) := by
    unfold Domain.checkConsistency
    simp only [bind_unit_ok, checkEach_ok, checkTerm_ok, checkHasTerms_ok, List.mem_map,
      forall_exists_index, and_imp, forall_apply_eq_imp_iff₂, checkExpr_ok, checkAction_ok, WellTyped,
      terms, WellTypedAction, domainOf, hw, dedup_firstOcc eqv_term, dedup_firstOcc eqv_pred,
      dedup_firstOcc eqv_action, dedup_firstOcc eqv_derived, mem_typesAll]
    constructor
    · rintro ⟨h1, h2, h3, _, h5⟩
      exact ⟨h1, h2, h3, h5⟩
    · rintro ⟨h1, h2, h3, h5⟩
      refine ⟨h1, h2, h3, ?_, h5⟩
      intro x hx t ht y hy
      exact ((h3 x hx).2.2 t (by simp [ht])).1 y hy
  unfold mkDomain
  rw [bind_ok_iff]
  constructor
  · rintro ⟨n, hn, h⟩
    obtain ⟨rfl, hv⟩ := parseName_ok.mp hn
    simp only at h
    rw [bind_ok_iff] at h
    obtain ⟨ts, h1, h⟩ := h
    obtain ⟨h2, h3, rfl⟩ := (mkTypes_ok ht).mp h1
    rw [bind_ok_iff] at h
    obtain ⟨_, h4, h⟩ := h
    rw [bind_ok_iff] at h
    obtain ⟨_, h5, h⟩ := h
    simp only [pure_ok, Except.ok.injEq] at h
    have h4' := checkTotalCost_ok.mp h4
    simp only [mem_reqSet] at h4'
    obtain ⟨c1, c2, c3, c4⟩ := hcons.mp h5
    exact ⟨hv, h2, (hierarchyOk_congr (fun r => mem_reqSet)).mp h3, h4', c1, c2, c3, c4, h.symm⟩
  · rintro ⟨hv, h2, h3, h4, c1, c2, c3, c4, rfl⟩
    refine ⟨a.name, parseName_of_valid hv, ?_⟩
    simp only
    rw [(mkTypes_ok ht).mpr ⟨h2, (hierarchyOk_congr (fun r => mem_reqSet)).mpr h3, rfl⟩, ok_bind]
    rw [show checkTotalCost a.functions (reqSet a.reqs) = .ok () from
      checkTotalCost_ok.mpr (by simpa only [mem_reqSet] using h4), ok_bind]
    have h5 := hcons.mpr ⟨c1, c2, c3, c4⟩
    unfold domainOf at h5
    rw [h5]
    rfl

end Pddl
