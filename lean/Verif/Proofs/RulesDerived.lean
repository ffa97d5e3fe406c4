/-
Derived predicates obey the rules.
-/
import Verif.Proofs.RulesAction

namespace Pddl.Rules
open Spec Spec.Rules Spec.Grammar

/-! ### Other types -/

theorem update_consistent {env : VarTypes} {e S} (he : EnvOf e S env) (hs : ScopeNodup S env) {f g : Expr}
    (hn : NoEffect f) (hb : ∀ v ∈ binders f, v.tags.Nodup) (h : f.updateTags e = .ok g) : AtomsConsistent (retagged S env f) := by
  have hl : ∀ {e S} (as bs : List Expr),
      (∀ a ∈ as, NoEffect a → (∀ v ∈ binders a, v.tags.Nodup) → ∀ b, a.updateTags e = .ok b → AtomsConsistent (retagged S env a)) →
      NoEffects as → (∀ v ∈ bindersAll as, v.tags.Nodup) → List.Forall₂ (fun a b => a.updateTags e = .ok b) as bs →
      AtomsConsistents (retaggeds S env as) := by
    intro e S as bs ih hn hb h2
    rw [atomsConsistents_iff, retaggeds_eq_map, List.forall_mem_map]
    intro a ha
    obtain ⟨b, _, hab⟩ := forall2_mem' h2 a ha
    exact ih a ha (noEffects_iff.1 hn a ha) (fun v hv => hb v (mem_bindersAll.2 ⟨a, ha, hv⟩)) b hab
  induction f using Expr.ind generalizing e S g with
  | hpred p =>
    rw [Expr.updateTags, bind_ok_iff] at h
    obtain ⟨ts, h1, h⟩ := h
    rw [bind_ok_iff] at h
    obtain ⟨p', h2, h⟩ := h
    obtain ⟨_, hc, _⟩ := mkPred_ok.mp h2
    rw [retags_ok he hs h1] at hc
    exact consistent_iff.1 hc
  | heq l r =>
    rw [Expr.updateTags, bind_ok_iff] at h
    obtain ⟨l', h1, h⟩ := h
    rw [bind_ok_iff] at h
    obtain ⟨r', h2, h⟩ := h
    obtain ⟨hc, _⟩ := mkEq_ok.mp h
    rw [retag_ok he hs h1, retag_ok he hs h2] at hc
    exact consistent_iff.1 hc
  | hnfun => trivial
  | hnum => trivial
  | hbfun o as ih =>
    obtain ⟨bs, h2, _⟩ := update_bfun_ok.1 h
    exact hl as bs (fun a ha hn hb b h => ih a ha he hs hn hb h) hn hb h2
  | hbin o as ih =>
    obtain ⟨bs, h2, _⟩ := update_bin_ok.1 h
    exact hl as bs (fun a ha hn hb b h => ih a ha he hs hn hb h) hn hb h2
  | hnot a ih =>
    obtain ⟨b, h1, _⟩ := update_not_ok.1 h
    exact ih he hs hn hb h1
  | hquant q vs c ih =>
    obtain ⟨b, h1, _⟩ := update_quant_ok.1 h
    simp only [binders, List.mem_append] at hb
    refine ih (he.bind vs) ?_ hn (fun v hv => hb v (.inr hv)) h1
    intro n l e'
    rw [scopeTypes] at e'
    split at e'
    · rename_i v hf
      simp only [Option.some.injEq] at e'
      subst e'
      exact hb v (.inl (by simpa using List.mem_of_find?_eq_some hf))
    · exact hs n l e'
  | hwhen => simp [NoEffect] at hn
  | hfall => simp [NoEffect] at hn

/-! ### Subtypes -/

theorem checkSubtypes_iff {types : Option TypeDict} {ls rs : List Str} : checkSubtypes types ls rs = .ok () ↔
    (rs ≠ [] → ∀ t ∈ ls, t ∈ rs ∨ ∃ d, types = some d ∧ ∃ u ∈ rs, dictGet d t = some (some u)) := by
  induction ls with
  | nil => simp [checkSubtypes]
  | cons t ls ih =>
    rw [checkSubtypes.eq_def]
    simp only
    by_cases hr : rs = []
    · simp [hr]
    · have hr' : ¬ rs.length = 0 := by simpa using hr
      rw [if_neg hr']
      by_cases ht : t ∈ rs
      · rw [if_pos ht, ih]
        simp [hr, ht]
      · rw [if_neg ht]
        cases types with
        | none => simp [hr, ht]
        | some d =>
          simp only
          cases hd : (dictGet d t).join with
          | none =>
            simp only [reduceCtorEq, false_iff]
            intro h
            rcases h hr t (by simp) with h | ⟨d', e, u, _, h⟩
            · exact ht h
            · cases e
              rw [h] at hd
              cases hd
          | some p =>
            have hd' : dictGet d t = some (some p) := Option.join_eq_some_iff.1 hd
            by_cases hp : p ∈ rs
            · simp only [if_pos hp]
              rw [ih]
              constructor
              · intro h _ s hs
                rcases List.mem_cons.1 hs with rfl | hs
                · exact .inr ⟨d, rfl, p, hp, hd'⟩
                · exact h hr s hs
              · intro h _ s hs
                exact h hr s (by simp [hs])
            · simp only [if_neg hp, reduceCtorEq, false_iff]
              intro h
              rcases h hr t (by simp) with h | ⟨d', e, u, hu, h⟩
              · exact ht h
              · cases e
                rw [hd'] at h
                simp only [Option.some.injEq] at h
                exact hp (h ▸ hu)

/-! ### The types of the variables of a head -/

/-- A term of the head and of the declaration, and what is written there. -/
def HeadRel (x : Term × Term) (z : (Str × List Str) × (Str × List Str)) : Prop :=
  ∃ v : Var, x.1 = .var v ∧ v.name = z.1.1 ∧ SameTypes v.tags z.1.2 ∧ TagsOk v.tags ∧ SameTypes x.2.tags z.2.2 ∧ TagsOk x.2.tags

theorem sameTypes_nil {a b : List Str} (h : SameTypes a b) : a = [] ↔ b = [] := by
  constructor
  · rintro rfl
    exact List.eq_nil_iff_forall_not_mem.2 fun x hx => by simpa using (h x).2 hx
  · rintro rfl
    exact List.eq_nil_iff_forall_not_mem.2 fun x hx => by simpa using (h x).1 hx

/-- The subtypes that are asked for. -/
def SubIn (T : TypeDict) (z : (Str × List Str) × (Str × List Str)) : Prop :=
  z.2.2 ≠ [] → ∀ t ∈ z.1.2, t ∈ z.2.2 ∨ ∃ u ∈ z.2.2, (t, some u) ∈ T

theorem subtypes_in {D : Decls} {types : Option TypeDict} (ht : (types = none ∧ D.types = []) ∨ types = some D.types)
    (hd : IsDict D.types) {x : Term × Term} {z : (Str × List Str) × (Str × List Str)} {v : Var} (h1 : SameTypes v.tags z.1.2)
    (h2 : SameTypes x.2.tags z.2.2) : checkSubtypes types v.tags x.2.tags = .ok () ↔ SubIn D.types z := by
  rw [checkSubtypes_iff]
  unfold SubIn
  refine imp_congr (not_congr (sameTypes_nil h2)) ⟨fun h t htz => ?_, fun h t htz => ?_⟩
  · refine (h t ((h1 t).2 htz)).imp (h2 t).1 ?_
    rintro ⟨d, rfl, u, hu, e⟩
    refine ⟨u, (h2 u).1 hu, ?_⟩
    rcases ht with ⟨ht, _⟩ | ht
    · cases ht
    · cases ht
      exact mem_of_dictGet e
  · refine (h t ((h1 t).1 htz)).imp (h2 t).2 ?_
    rintro ⟨u, hu, e⟩
    rcases ht with ⟨_, ht⟩ | ht
    · rw [ht] at e; simp at e
    · exact ⟨_, ht, u, (h2 u).2 hu, dictGet_of_mem hd e⟩

theorem headTypes_mem {Z : List ((Str × List Str) × (Str × List Str))} {p : Str × List Str} :
    p ∈ Spec.Rules.headTypes Z ↔ ∃ z ∈ Z, p.1 = z.1.1 ∧ p.2 ≠ [] ∧ ((z.1.2 ≠ [] ∧ p.2 = z.1.2) ∨ (z.1.2 = [] ∧ p.2 = z.2.2)) := by
  unfold Spec.Rules.headTypes
  rw [List.mem_filterMap]
  refine exists_congr fun z => and_congr Iff.rfl ?_
  obtain ⟨⟨a, b⟩, ⟨c, d⟩⟩ := z
  obtain ⟨x, y⟩ := p
  simp only
  by_cases hb : b = []
  · by_cases hd : d = []
    · simp only [hb, hd, ne_eq, not_true, if_false, reduceCtorEq, false_iff]
      rintro ⟨_, h, h' | h'⟩
      · exact h'.1
      · exact h h'.2
    · simp only [hb, hd, ne_eq, not_true, if_false, not_false_iff, if_true, Option.some.injEq, Prod.mk.injEq, false_and, true_and, false_or]
      constructor
      · rintro ⟨rfl, rfl⟩; exact ⟨rfl, hd, rfl⟩
      · rintro ⟨rfl, _, rfl⟩; exact ⟨rfl, rfl⟩
  · simp only [hb, ne_eq, not_false_iff, if_true, Option.some.injEq, Prod.mk.injEq, true_and, false_and, or_false]
    constructor
    · rintro ⟨rfl, rfl⟩; exact ⟨rfl, hb, rfl⟩
    · rintro ⟨rfl, _, rfl⟩; exact ⟨rfl, rfl⟩

theorem lookup_or (a b : List (Str × List Str)) (n : Str) : (a ++ b).lookup n = (a.lookup n).or (b.lookup n) := by
  induction a with
  | nil => simp
  | cons p a ih =>
    obtain ⟨k, v⟩ := p
    simp only [List.cons_append, List.lookup_cons]
    cases n == k
    · exact ih
    · rfl

theorem derivedEnv_iff {D : Decls} {types : Option TypeDict} (ht : (types = none ∧ D.types = []) ∨ types = some D.types)
    (hd : IsDict D.types) {L : List (Term × Term)} {Z : List ((Str × List Str) × (Str × List Str))} (h : List.Forall₂ HeadRel L Z) :
    ∀ {env0 : VarTypes} {τ0 : Str → Option (List Str)}, (∀ n, Option.Rel SameTypes (dictGet env0 n) (τ0 n)) →
    (∀ n l, dictGet env0 n = some l → TagsOk l) →
    ((∃ env, derivedEnv types L env0 = .ok env) ↔ ∀ z ∈ Z, SubIn D.types z) ∧
    ∀ env, derivedEnv types L env0 = .ok env →
      (∀ n, Option.Rel SameTypes (dictGet env n) (((Spec.Rules.headTypes Z).reverse.lookup n).or (τ0 n))) ∧
      ∀ n l, dictGet env n = some l → TagsOk l := by
  induction h with
  | nil =>
    intro env0 τ0 h0 hk
    refine ⟨by simp [derivedEnv], ?_⟩
    intro env he
    simp only [derivedEnv, pure_ok, Except.ok.injEq] at he
    subst he
    exact ⟨by simpa [Spec.Rules.headTypes] using h0, hk⟩
  | @cons x z L Z hx _ ih =>
    intro env0 τ0 h0 hk
    obtain ⟨t, d⟩ := x
    obtain ⟨v, rfl, hv1, hv2, hv3, hv4, hv5⟩ := hx
    simp only at hv4 hv5
    have hsub := subtypes_in ht hd (x := (Term.var v, d)) (z := z) (v := v) hv2 hv4
    have hrev : ∀ p : Str × List Str, (if z.1.2 ≠ [] then some z.1 else if z.2.2 ≠ [] then some (z.1.1, z.2.2) else none) = some p →
        ∀ n, ((Spec.Rules.headTypes (z :: Z)).reverse.lookup n) = ((Spec.Rules.headTypes Z).reverse.lookup n).or ([p].lookup n) := by
      intro p hp n
      have : Spec.Rules.headTypes (z :: Z) = p :: Spec.Rules.headTypes Z := by
        unfold Spec.Rules.headTypes
        rw [List.filterMap_cons, hp]
      rw [this, List.reverse_cons, lookup_or]
    have step : ∀ tags types', SameTypes tags types' → TagsOk tags → ∀ n,
        Option.Rel SameTypes (dictGet (dictSet env0 v.name tags) n) (([(z.1.1, types')].lookup n).or (τ0 n)) := by
      intro tags types' hs _ n
      rw [dictGet_dictSet]
      by_cases hn : v.name = n
      · rw [if_pos hn]
        have : (n == z.1.1) = true := by rw [← hn, hv1]; simp
        simp only [List.lookup_cons, this, Option.some_or]
        exact .some hs
      · rw [if_neg hn]
        have : (n == z.1.1) = false := by rw [← hv1]; simpa using fun e => hn e.symm
        simp only [List.lookup_cons, this, List.lookup_nil, Option.none_or]
        exact h0 n
    have stepOk : ∀ tags, TagsOk tags → ∀ n l, dictGet (dictSet env0 v.name tags) n = some l → TagsOk l := by
      intro tags hs n l hl
      rw [dictGet_dictSet] at hl
      split at hl
      · simp only [Option.some.injEq] at hl; subst hl; exact hs
      · exact hk n l hl
    rw [derivedEnv]
    by_cases h1 : v.tags = []
    · have h1' : v.tags.length = 0 := by simp [h1]
      have hz1 : z.1.2 = [] := (sameTypes_nil hv2).1 h1
      have hs : SubIn D.types z := by intro _ t ht'; rw [hz1] at ht'; simp at ht'
      simp only [if_pos h1']
      by_cases h2 : d.tags = []
      · have hz2 : z.2.2 = [] := (sameTypes_nil hv4).1 h2
        have hc : Spec.Rules.headTypes (z :: Z) = Spec.Rules.headTypes Z := by
          unfold Spec.Rules.headTypes
          rw [List.filterMap_cons]
          simp [hz1, hz2]
        simp only [h2, List.length_nil, ne_eq, not_true, if_false, hc, List.forall_mem_cons]
        obtain ⟨i1, i2⟩ := ih h0 hk
        exact ⟨by rw [i1]; simp [hs], i2⟩
      · have hz2 : z.2.2 ≠ [] := fun e => h2 ((sameTypes_nil hv4).2 e)
        have h2' : d.tags.length ≠ 0 := by simpa using h2
        simp only [if_pos h2']
        obtain ⟨i1, i2⟩ := ih (step d.tags z.2.2 hv4 hv5) (stepOk d.tags hv5)
        refine ⟨by rw [i1, List.forall_mem_cons]; simp [hs], ?_⟩
        intro env he
        refine ⟨fun n => ?_, (i2 env he).2⟩
        rw [hrev (z.1.1, z.2.2) (by simp [hz1, hz2]) n, Option.or_assoc]
        exact (i2 env he).1 n
    · have h1' : ¬ v.tags.length = 0 := by simpa using h1
      have hz1 : z.1.2 ≠ [] := fun e => h1 ((sameTypes_nil hv2).2 e)
      simp only [if_neg h1']
      obtain ⟨i1, i2⟩ := ih (step v.tags z.1.2 hv2 hv3) (stepOk v.tags hv3)
      refine ⟨?_, ?_⟩
      · simp only [bind_ok_iff, List.forall_mem_cons]
        rw [← hsub, ← i1]
        exact ⟨fun ⟨env, _, h1, h2⟩ => ⟨h1, env, h2⟩, fun ⟨h1, env, h2⟩ => ⟨env, (), h1, h2⟩⟩
      · intro env he
        obtain ⟨_, _, he⟩ := bind_ok_iff.1 he
        refine ⟨fun n => ?_, (i2 env he).2⟩
        rw [hrev z.1 (by simp [hz1]) n, Option.or_assoc]
        exact (i2 env he).1 n

/-! ### Heads -/

theorem formulaSkeleton_iff {t : Tree} (hw : WordsOk t) {p : Pred} : formulaSkeleton t = .ok p ↔
    ∃ n vs tl, t = .node (word n :: vs) ∧ ValidName n ∧ VarsText vs tl ∧ tl.Ok ∧ Compatible tl.itemsOf ∧
      p = ⟨n, (builtVars tl).map Term.var⟩ := by
  constructor
  · intro h
    unfold formulaSkeleton at h
    split at h
    · rename_i n b
      obtain ⟨vs, hv, h⟩ := bind_ok_iff.1 h
      obtain ⟨h1, _, rfl⟩ := mkPred_ok.1 h
      obtain ⟨l, hl, h3, h4, rfl⟩ := parseTypedVars_ok (fun w h => hw w (.node (.tail _ h) .refl)) hv
      exact ⟨n, b, l, rfl, parseName_iff.1 h1, hl, h3, h4, rfl⟩
    · cases h
  · rintro ⟨n, vs, tl, rfl, hn, hl, hok, hc, rfl⟩
    simp only [formulaSkeleton, word]
    rw [parseTypedVars_eq hl hok hc, ok_bind]
    refine mkPred_ok.2 ⟨parseName_iff.2 hn, consistent_iff.2 ?_, rfl⟩
    intro a ha b hb e
    obtain ⟨v, hv, rfl⟩ := List.mem_map.1 ha
    obtain ⟨w, hw', rfl⟩ := List.mem_map.1 hb
    exact (built_ok hok hc).2 v hv w hw' e

theorem headRel_zip {tl : TypedList} (hok : tl.Ok) (hc : Compatible tl.itemsOf) {p : Pred} {dl : List (Str × List Str)}
    (hp : PredIn p dl) : List.Forall₂ HeadRel (((builtVars tl).map Term.var).zip p.terms) (tl.vars.zip dl) := by
  have hb : ∀ q ∈ tl.vars, TagsOk (dd q.2) := fun q hq =>
    ((built_ok hok hc).1 ⟨q.1, dd q.2⟩ (List.mem_map.2 ⟨q, hq, rfl⟩)).2
  unfold builtVars
  rw [List.map_map]
  unfold PredIn at hp
  clear hok hc
  generalize tl.vars = l at hb
  generalize p.terms = ts at hp
  induction hp generalizing l with
  | nil => simp
  | cons h _ ih =>
    cases l with
    | nil => exact .nil
    | cons q l =>
      obtain ⟨v, rfl, _, h2, h3⟩ := h
      exact .cons ⟨_, rfl, rfl, fun x => dd_mem, hb q (by simp), h2, h3⟩ (ih l (fun q hq => hb q (by simp [hq])))

/-- The types of the head after the declared types are filled in. -/
theorem head_types {D : Decls} {tl : TypedList} (hc : Compatible tl.itemsOf) {dl : List (Str × List Str)}
    (hlen : dl.length = tl.vars.length)
    (hdl : ∀ q ∈ dl, ∀ t ∈ q.2, Declared D.types t) {env : VarTypes}
    (he : ∀ n, Option.Rel SameTypes (dictGet env n) ((Spec.Rules.headTypes (tl.vars.zip dl)).reverse.lookup n)) :
    (∀ t ∈ ((builtVars tl).map Term.var).map (retagTerm [] env), ∀ x ∈ t.tags, Declared D.types x) ↔
      ∀ v ∈ builtVars tl, ∀ x ∈ v.tags, Declared D.types x := by
  have hget : ∀ {n l}, dictGet env n = some l → ∃ l', (n, l') ∈ Spec.Rules.headTypes (tl.vars.zip dl) ∧ SameTypes l l' := by
    intro n l hl
    have := he n
    rw [hl] at this
    generalize hx : (Spec.Rules.headTypes (tl.vars.zip dl)).reverse.lookup n = y at this
    cases this with
    | some h => exact ⟨_, by simpa using mem_of_dictGet (d := (Spec.Rules.headTypes (tl.vars.zip dl)).reverse) hx, h⟩
  have hnone : ∀ {n}, dictGet env n = none → ∀ p ∈ Spec.Rules.headTypes (tl.vars.zip dl), p.1 ≠ n := by
    intro n hn p hp e
    have := he n
    rw [hn] at this
    generalize hx : (Spec.Rules.headTypes (tl.vars.zip dl)).reverse.lookup n = y at this
    cases this
    obtain ⟨v, hv⟩ := dictGet_of_key (d := (Spec.Rules.headTypes (tl.vars.zip dl)).reverse) (k := n)
      (List.mem_map.2 ⟨p, by simpa using hp, e⟩)
    rw [dictGet, hx] at hv
    cases hv
  constructor
  · intro h v hv x hx
    obtain ⟨q, hq, rfl⟩ := List.mem_map.1 hv
    have hxq : x ∈ q.2 := dd_mem.1 hx
    refine h (retagTerm [] env (.var ⟨q.1, dd q.2⟩)) (List.mem_map_of_mem (List.mem_map_of_mem hv)) x ?_
    show x ∈ (dictGet env q.1).getD (dd q.2)
    cases hg : dictGet env q.1 with
    | none => exact hx
    | some l =>
      obtain ⟨l', hm, hs⟩ := hget hg
      obtain ⟨z, hz, e1, _, e2⟩ := headTypes_mem.1 hm
      simp only at e1 e2
      have hzq := compatible_vars hc (p := z.1) (q := q) (List.of_mem_zip hz).1 hq e1.symm
      have hxz := (hzq x).2 hxq
      simp only [Option.getD_some]
      rcases e2 with ⟨_, rfl⟩ | ⟨e2, _⟩
      · exact (hs x).2 hxz
      · rw [e2] at hxz; simp at hxz
  · intro h t ht x hx
    obtain ⟨u, hu, rfl⟩ := List.mem_map.1 ht
    obtain ⟨v, hv, rfl⟩ := List.mem_map.1 hu
    have hx : x ∈ (dictGet env v.name).getD v.tags := hx
    cases hg : dictGet env v.name with
    | none => rw [hg] at hx; exact h v hv x hx
    | some l =>
      rw [hg] at hx
      simp only [Option.getD_some] at hx
      obtain ⟨l', hm, hs⟩ := hget hg
      obtain ⟨z, hz, e1, _, e2⟩ := headTypes_mem.1 hm
      have hx' := (hs x).1 hx
      rcases e2 with ⟨_, e2⟩ | ⟨_, e2⟩
      · simp only at e2
        subst e2
        exact h ⟨z.1.1, dd z.1.2⟩ (List.mem_map.2 ⟨z.1, (List.of_mem_zip hz).1, rfl⟩) x (dd_mem.2 hx')
      · simp only at e2
        subst e2
        exact hdl z.2 (List.of_mem_zip hz).2 x hx'

theorem head_ok {tl : TypedList} (hok : tl.Ok) (hc : Compatible tl.itemsOf) {n : Str} (hn : ValidName n) {env : VarTypes} :
    mkPred n (((builtVars tl).map Term.var).map (retagTerm [] env)) =
      .ok ⟨n, ((builtVars tl).map Term.var).map (retagTerm [] env)⟩ := by
  refine mkPred_ok.2 ⟨parseName_iff.2 hn, consistent_iff.2 ?_, rfl⟩
  intro a ha b hb e x
  obtain ⟨a', ha', rfl⟩ := List.mem_map.1 ha
  obtain ⟨b', hb', rfl⟩ := List.mem_map.1 hb
  obtain ⟨v, hv, rfl⟩ := List.mem_map.1 ha'
  obtain ⟨w, hw, rfl⟩ := List.mem_map.1 hb'
  have e : v.name = w.name := e
  show x ∈ (dictGet env v.name).getD v.tags ↔ x ∈ (dictGet env w.name).getD w.tags
  rw [← e]
  cases dictGet env v.name with
  | none => exact (built_ok hok hc).2 v hv w hw e x
  | some l => exact Iff.rfl

/-! ### Derived predicates -/

theorem lookup_mem {D : Decls} {n : Str} {dl : List (Str × List Str)} (h : D.preds.reverse.lookup n = some dl) : (n, dl) ∈ D.preds := by
  simpa using mem_of_dictGet (d := D.preds.reverse) h

/-- What `update_type_tags` of the condition needs. -/
theorem update_iff {Γ : Scope} {E : GEnv} (hE : EnvIn Γ E) {t : Tree} {e : Expr} (hw : WordsOk t) (h : E.gd t = .ok e)
    {env : VarTypes} (hk : ∀ n l, dictGet env n = some l → TagsOk l) :
    (∃ g, e.updateTags env = .ok g) ↔ fits (fun n => dictGet env n) e := by
  have hr := Pddl.gd_iff.1 h
  obtain ⟨hq, hn⟩ := GRel.qok hE hr hw
  have hs : ScopeOk [] env := fun n l e => hk n l e
  have hb := qOk_binders hq
  have hf : fits (fun n => dictGet env n) e ↔ AtomsConsistent (retagged [] env e) := fits_scope (S := []) (env := env) hn
  rw [hf]
  constructor
  · rintro ⟨g, hg⟩
    exact update_consistent (.base env) hs.nodup hn (fun v hv => (hb v hv).1) hg
  · intro hc
    refine update_succeeds (.base env) hs hr.good hn ?_ hb hc
    intro v hv
    unfold occurrences at hv
    obtain ⟨x, hx, hv⟩ := List.mem_flatMap.1 hv
    obtain ⟨t', ht, hv⟩ := List.mem_flatMap.1 hv
    have hfr := hr.from x hx t' ht
    cases t' with
    | const n tag => simp [varOf] at hv
    | var w =>
      simp only [varOf, List.mem_singleton] at hv
      subst hv
      rcases hfr with ⟨n, h'⟩ | ⟨n, h'⟩
      · obtain ⟨_, e'⟩ := hE.constFn n _ h'
        cases e'
      · obtain ⟨w', e', hv'⟩ := hE.varFn n _ h'
        cases e'
        exact hv'

theorem StateIn.derived_in {D : Decls} {ps : List (Str × List Str)} {σ : PState} (h : StateIn D ps σ) {F : FloatOf} {b : List Tree}
    {d : Derived} (hw : WordsOk (section_ s%"derived" b)) (hd : derivedDef F σ b = .ok d)
    (ht : ∀ t ∈ d.pred.terms, ∀ x ∈ t.tags, Declared D.types x) : ∃ hd c, b = [hd, c] ∧ DerivedIn F D ps hd c := by
  obtain ⟨t, c, head, cond, rfl, h1, h2, h3⟩ := derivedDef_ok hd
  refine ⟨t, c, rfl, ?_⟩
  have hwc : WordsOk c := hw.sub (by simp)
  obtain ⟨n, vs, tl, rfl, hn, hl, hok, hc, rfl⟩ := (formulaSkeleton_iff (hw.sub (by simp))).1 h1
  have hE := h.env F (fun _ => True)
  unfold derivedPredicate at h3
  simp only at h3
  have hp := h.pred n
  split at h3
  · cases h3
  rename_i p hpn
  rw [hpn] at hp
  generalize hdl : D.preds.reverse.lookup n = y at hp
  cases hp with
  | @some _ dl hp =>
  split at h3
  · cases h3
  rename_i hlen
  simp only [ne_eq, not_not, List.length_map] at hlen
  have hlen' : dl.length = tl.vars.length := by
    have e1 := hp.length_eq
    have e2 : (builtVars tl).length = tl.vars.length := by simp [builtVars]
    omega
  obtain ⟨env, h4, h3⟩ := bind_ok_iff.1 h3
  obtain ⟨ts, h5, h3⟩ := bind_ok_iff.1 h3
  obtain ⟨head', h6, h3⟩ := bind_ok_iff.1 h3
  obtain ⟨c', h7, h3⟩ := bind_ok_iff.1 h3
  simp only [pure_ok, Except.ok.injEq] at h3
  subst h3
  obtain ⟨i1, i2⟩ := derivedEnv_iff h.types h.dict (headRel_zip hok hc hp) (env0 := []) (τ0 := fun _ => none)
    (fun _ => .none) (by simp [dictGet])
  obtain ⟨i3, i4⟩ := i2 env h4
  simp only [Option.or_none] at i3
  have hs : ScopeOk [] env := fun n l e => i4 n l e
  rw [retags_ok (.base env) hs.nodup h5, head_ok hok hc hn] at h6
  simp only [Except.ok.injEq] at h6
  subst h6
  have hdecl := (head_types hc hlen' (fun q hq t ht => (h.predOk _ (lookup_mem hdl) q hq t ht).1) i3).1 ht
  refine ⟨n, vs, tl.vars, dl, rfl, hn, in_vars hl hok hc hdecl, hdl, hlen', fun z hz => i1.1 ⟨env, h4⟩ z hz, ?_⟩
  refine (hE.gd_iff (ρ := some _) hwc).1 ⟨cond, h2, by simp [BindersOk], ?_⟩
  intro τ e
  simp only [Option.some.injEq] at e
  subst e
  have hr := Pddl.gd_iff.1 h2
  exact fits_norm hE.constFn hE.varFn (GRel.reg hE hr hwc) (GRel.reg hE hr hwc) rfl i3 ((update_iff hE hwc h2 i4).1 ⟨c', h7⟩)

theorem StateIn.in_derived {D : Decls} {ps : List (Str × List Str)} {σ : PState} (h : StateIn D ps σ) {F : FloatOf} {t c : Tree}
    (hw : WordsOk (section_ s%"derived" [t, c])) (hd : DerivedIn F D ps t c) :
    ∃ d, derivedDef F σ [t, c] = .ok d ∧ ∀ t ∈ d.pred.terms, ∀ x ∈ t.tags, Declared D.types x := by
  have hwc : WordsOk c := hw.sub (by simp)
  have hwt : WordsOk t := hw.sub (by simp)
  obtain ⟨n, vs, l, dl, rfl, hn, hv, hdl, hlen, hsub, hg⟩ := hd
  obtain ⟨tl, hl, rfl, hok, hc⟩ := vars_in hv
  have hE := h.env F (fun _ => True)
  obtain ⟨cond, h2, _, h3⟩ := (hE.gd_iff (ρ := some _) hwc).2 hg
  have hfit := h3 _ rfl
  have hsk := (formulaSkeleton_iff hwt).2 ⟨n, vs, tl, rfl, hn, hl, hok, hc, rfl⟩
  have hp := h.pred n
  rw [hdl] at hp
  generalize hpn : dictGet σ.preds n = y at hp
  cases hp with
  | @some p _ hp =>
  obtain ⟨i1, i2⟩ := derivedEnv_iff h.types h.dict (headRel_zip hok hc hp) (env0 := []) (τ0 := fun _ => none)
    (fun _ => .none) (by simp [dictGet])
  obtain ⟨env, h4⟩ := i1.2 (fun z hz => hsub z hz)
  obtain ⟨i3, i4⟩ := i2 env h4
  simp only [Option.or_none] at i3
  have hs : ScopeOk [] env := fun n l e => i4 n l e
  have h5 := retags_succeed (.base env) hs (ts := (builtVars tl).map Term.var) (by
    intro v hv'
    obtain ⟨u, hu, hv'⟩ := List.mem_flatMap.1 hv'
    obtain ⟨w, hw', rfl⟩ := List.mem_map.1 hu
    simp only [varOf, List.mem_singleton] at hv'
    subst hv'
    exact ((built_ok hok hc).1 v hw').1)
  have hr := Pddl.gd_iff.1 h2
  obtain ⟨c', h7⟩ := (update_iff hE hwc h2 i4).2
    (fits_norm hE.constFn hE.varFn (GRel.reg hE hr hwc) (GRel.reg hE hr hwc) rfl (TypesLike.symm i3) hfit)
  have hlen' : p.terms.length = ((builtVars tl).map Term.var).length := by
    have e1 := hp.length_eq
    have e2 : (builtVars tl).length = tl.vars.length := by simp [builtVars]
    simp only [List.length_map]
    omega
  refine ⟨⟨⟨n, ((builtVars tl).map Term.var).map (retagTerm [] env)⟩, c'⟩, ?_, ?_⟩
  · simp only [derivedDef, hsk, ok_bind, h2, derivedPredicate, hpn, hlen', ne_eq, not_true, if_false, h4, h5, head_ok hok hc hn, h7, pure_ok]
  · refine (head_types hc hlen (fun q hq t ht => (h.predOk _ (lookup_mem hdl) q hq t ht).1) i3).2 ?_
    intro v hv' x hx
    obtain ⟨q, hq, rfl⟩ := List.mem_map.1 hv'
    exact ((hv.2.1 q hq).2 x (dd_mem.1 hx)).2

end Pddl.Rules
