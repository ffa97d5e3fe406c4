/-
Properties of formulas that pass through the simplifying constructor, and those that the rules for accepted
texts need.
-/
import Verif.Spec.Rules
import Verif.Proofs.Tags
import Verif.Proofs.Provenance

namespace Pddl.Rules
open Pddl Spec Spec.Rules

/-! ### The simplifying constructor -/

theorem flattenEs_iff {P : Expr → Prop} (hP : ∀ c as, P (.ofCls c as) ↔ ∀ a ∈ as, P a) (c : Cls) (as : List Expr) :
    (∀ x ∈ flattenEs c as, P x) ↔ ∀ a ∈ as, P a := by
  have key : ∀ n, ∀ as : List Expr, Expr.sizes as = n → ((∀ x ∈ flattenEs c as, P x) ↔ ∀ a ∈ as, P a) := by
    intro n
    induction n using Nat.strongRecOn with
    | _ n ih =>
      intro as hn
      match as with
      | [] => simp [flattenEs]
      | e :: rest =>
        have hpos : 0 < e.size := by cases e <;> simp [Expr.size]
        simp only [Expr.sizes] at hn
        rw [flattenEs, List.forall_mem_append, ih (Expr.sizes rest) (by omega) rest rfl, List.forall_mem_cons]
        refine and_congr ?_ Iff.rfl
        cases h : e.operandsIf c with
        | none => rw [flattenE_none h]; simp
        | some bs =>
          rw [flattenE_some h]
          have := Expr.size_operands h
          rw [ih (Expr.sizes bs) (by omega) bs rfl]
          rw [ofCls_operandsIf] at h
          rw [h, hP]
  exact key _ as rfl

theorem construct_keeps {P : Expr → Prop} (hP : ∀ c as, P (.ofCls c as) ↔ ∀ a ∈ as, P a) {c : Cls} {es : List Expr}
    (h : ∀ e ∈ es, P e) : P (construct c es) := by
  obtain ⟨l, h1, h2⟩ := construct_content c es
  have hl : ∀ x ∈ l, P x := by
    rcases h2 with rfl | rfl | rfl
    · exact h
    · exact fun x hx => h x (dedupBy_subset hx)
    · exact fun x hx => (flattenEs_iff hP c es).2 h x (dedupBy_subset hx)
  rcases h1 with h1 | h1
  · rw [h1]; exact (hP c l).2 hl
  · exact hl _ (by rw [h1]; simp)

theorem construct_iff {P Q : Expr → Prop} (hP : ∀ c as, P (.ofCls c as) ↔ ∀ a ∈ as, P a)
    (hQ : ∀ c as, Q (.ofCls c as) ↔ ∀ a ∈ as, Q a) (hn : ∀ a b, Q a → Q b → a.norm = b.norm → P a → P b)
    {c : Cls} {es : List Expr} (h : ∀ e ∈ es, Q e) : P (construct c es) ↔ ∀ e ∈ es, P e := by
  refine ⟨?_, construct_keeps hP⟩
  intro hp
  obtain ⟨l, h1, h2⟩ := construct_content c es
  have hl : ∀ x ∈ l, P x := by
    rcases h1 with h1 | h1
    · rw [h1] at hp; exact (hP c l).1 hp
    · rw [h1]; simpa using hp
  have dd : ∀ {as : List Expr}, (∀ a ∈ as, Q a) → (∀ x ∈ dedupBy Expr.pyEq as, P x) → ∀ a ∈ as, P a := by
    intro as hq hx a ha
    obtain ⟨b, hb, e⟩ := memBy_iff.mp (dedupBy_cover (eq := Expr.pyEq) Expr.pyEq_refl ha)
    exact hn b a (hq b (dedupBy_subset hb)) (hq a ha) ((Expr.pyEq_iff _ _).mp e).symm (hx b hb)
  rcases h2 with rfl | rfl | rfl
  · exact hl
  · exact dd h hl
  · exact (flattenEs_iff hP c es).1 (dd ((flattenEs_iff hQ c es).2 h) hl)

/-! ### The types of bound variables -/

/-- All types of bound variables are such. -/
def BindersOk (ok : Str → Prop) (e : Expr) : Prop := ∀ v ∈ binders e, ∀ x ∈ v.tags, ok x

theorem bindersOk_cls {ok : Str → Prop} (c : Cls) (as : List Expr) :
    BindersOk ok (.ofCls c as) ↔ ∀ a ∈ as, BindersOk ok a := by
  have : binders (.ofCls c as) = bindersAll as := by cases c <;> rfl
  unfold BindersOk
  rw [this]
  constructor
  · intro h a ha v hv; exact h v (mem_bindersAll.2 ⟨a, ha, hv⟩)
  · intro h v hv
    obtain ⟨a, ha, hv⟩ := mem_bindersAll.1 hv
    exact h a ha v hv

theorem varsNorm_mem {vs ws : List Var} (h : varsNorm vs = varsNorm ws) {v : Var} (hv : v ∈ vs) :
    ∃ w ∈ ws, w.norm = v.norm := by
  have : v.norm ∈ varsNorm vs := by simp only [varsNorm, List.mem_toFinset]; exact List.mem_map_of_mem hv
  rw [h] at this
  simp only [varsNorm, List.mem_toFinset, List.mem_map] at this
  exact this

theorem norm_tags {v w : Var} (h : v.norm = w.norm) : v.name = w.name ∧ SameTypes v.tags w.tags := by
  simp only [Var.norm, Prod.mk.injEq] at h
  refine ⟨h.1, fun x => ?_⟩
  have := congrArg (fun s => x ∈ s) h.2
  simpa using this

theorem bindersOk_norm {ok : Str → Prop} {a b : Expr} (h : a.norm = b.norm) : BindersOk ok a → BindersOk ok b := by
  have hv : ∀ {vs ws : List Var}, varsNorm vs = varsNorm ws → (∀ v ∈ vs, ∀ x ∈ v.tags, ok x) → ∀ v ∈ ws, ∀ x ∈ v.tags, ok x := by
    intro vs ws h hk w hw x hx
    obtain ⟨v, hv, e⟩ := varsNorm_mem h.symm hw
    exact hk v hv x (((norm_tags e).2 x).2 hx)
  have hl : ∀ (as bs : List Expr), (∀ a ∈ as, ∀ b : Expr, a.norm = b.norm → BindersOk ok a → BindersOk ok b) →
      Expr.norms as = Expr.norms bs → (∀ a ∈ as, BindersOk ok a) → ∀ b ∈ bs, BindersOk ok b := by
    intro as
    induction as with
    | nil => intro bs _ h _; cases bs <;> simp [Expr.norms] at h ⊢
    | cons a as ih' =>
      intro bs ih h ha
      cases bs with
      | nil => simp
      | cons b bs =>
        simp only [Expr.norms, List.cons.injEq] at h
        rw [List.forall_mem_cons]
        exact ⟨ih a (by simp) b h.1 (ha a (by simp)), ih' bs (fun x hx => ih x (List.mem_cons_of_mem _ hx)) h.2
          (fun x hx => ha x (List.mem_cons_of_mem _ hx))⟩
  induction a using Expr.ind generalizing b with
  | hbfun o as ih =>
    cases b <;> simp only [Expr.norm, NExpr.bfun.injEq, reduceCtorEq] at h
    intro hk
    exact (bindersOk_cls (.fop _) _).2 (hl as _ (fun a ha b h => ih a ha h) h.2 ((bindersOk_cls (.fop o) as).1 hk))
  | hbin o as ih =>
    cases b <;> simp only [Expr.norm, NExpr.bin.injEq, reduceCtorEq] at h
    intro hk
    exact (bindersOk_cls (.bop _) _).2 (hl as _ (fun a ha b h => ih a ha h) h.2 ((bindersOk_cls (.bop o) as).1 hk))
  | hnot a ih =>
    cases b <;> simp only [Expr.norm, NExpr.not.injEq, reduceCtorEq] at h
    rename_i b
    exact fun hk => ih (b := b) h hk
  | hquant q vs c ih =>
    cases b <;> simp only [Expr.norm, NExpr.quant.injEq, reduceCtorEq] at h
    simp only [BindersOk, binders, List.forall_mem_append]
    exact fun ⟨h1, h2⟩ => ⟨hv h.2.1 h1, ih h.2.2 h2⟩
  | hwhen c e ih1 ih2 =>
    cases b <;> simp only [Expr.norm, NExpr.when.injEq, reduceCtorEq] at h
    simp only [BindersOk, binders, List.forall_mem_append]
    exact fun ⟨h1, h2⟩ => ⟨ih1 h.1 h1, ih2 h.2 h2⟩
  | hfall vs e ih =>
    cases b <;> simp only [Expr.norm, NExpr.fall.injEq, reduceCtorEq] at h
    simp only [BindersOk, binders, List.forall_mem_append]
    exact fun ⟨h1, h2⟩ => ⟨hv h.1 h1, ih h.2 h2⟩
  | _ => cases b <;> simp only [Expr.norm, reduceCtorEq] at h <;> intro _ <;> simp [BindersOk, binders]

theorem bindersOk_construct {ok : Str → Prop} {c : Cls} {es : List Expr} :
    BindersOk ok (construct c es) ↔ ∀ e ∈ es, BindersOk ok e :=
  construct_iff (Q := fun _ => True) bindersOk_cls (by simp) (fun _ _ _ _ h => bindersOk_norm h) (by simp)

/-! ### Regular quantifiers -/

/-- Variables with names and types, where equal names have equal types. -/
def VsOk (vs : List Var) : Prop :=
  (∀ v ∈ vs, ValidName v.name ∧ TagsOk v.tags) ∧ ∀ v ∈ vs, ∀ w ∈ vs, v.name = w.name → SameTypes v.tags w.tags

mutual
/-- All quantifiers have such variables. -/
def QOk : Expr → Prop
  | .bfun _ as => QOks as
  | .bin _ as => QOks as
  | .not a => QOk a
  | .quant _ vs c => VsOk vs ∧ QOk c
  | .when c e => QOk c ∧ QOk e
  | .fall vs e => VsOk vs ∧ QOk e
  | _ => True
def QOks : List Expr → Prop
  | [] => True
  | a :: as => QOk a ∧ QOks as
end

theorem qOks_iff {as : List Expr} : QOks as ↔ ∀ a ∈ as, QOk a := by
  induction as with
  | nil => simp [QOks]
  | cons a as ih => simp [QOks, ih]

theorem qOk_cls (c : Cls) (as : List Expr) : QOk (.ofCls c as) ↔ ∀ a ∈ as, QOk a := by
  rw [← qOks_iff]; cases c <;> rfl

theorem qOk_binders {e : Expr} (h : QOk e) : ∀ v ∈ binders e, TagsOk v.tags := by
  induction e using Expr.ind with
  | hbfun o as ih =>
    intro v hv
    obtain ⟨a, ha, hv⟩ := mem_bindersAll.1 hv
    exact ih a ha (qOks_iff.1 h a ha) v hv
  | hbin o as ih =>
    intro v hv
    obtain ⟨a, ha, hv⟩ := mem_bindersAll.1 hv
    exact ih a ha (qOks_iff.1 h a ha) v hv
  | hnot a ih => exact ih h
  | hquant q vs c ih =>
    intro v hv
    simp only [binders, List.mem_append] at hv
    rcases hv with hv | hv
    · exact (h.1.1 v hv).2
    · exact ih h.2 v hv
  | hwhen c e ih1 ih2 =>
    intro v hv
    simp only [binders, List.mem_append] at hv
    rcases hv with hv | hv
    · exact ih1 h.1 v hv
    · exact ih2 h.2 v hv
  | hfall vs c ih =>
    intro v hv
    simp only [binders, List.mem_append] at hv
    rcases hv with hv | hv
    · exact (h.1.1 v hv).2
    · exact ih h.2 v hv
  | _ => simp [binders]

/-! ### Retyping -/

/-- The scope with the variables of a quantifier: the last one of a name counts. -/
def bindVars (vs : List Var) (τ : Str → Option (List Str)) : Str → Option (List Str) := fun n =>
  match vs.reverse.find? (fun v => decide (v.name = n)) with
  | some v => some v.tags
  | none => τ n

mutual
/-- With the other types, no predicate has a name with different types. -/
def fits (τ : Str → Option (List Str)) : Expr → Prop
  | .pred p => Consistent (p.terms.map (retype τ))
  | .eq l r => Consistent [retype τ l, retype τ r]
  | .bfun _ as => fitss τ as
  | .bin _ as => fitss τ as
  | .not a => fits τ a
  | .quant _ vs c => fits (bindVars vs τ) c
  | _ => True
def fitss (τ : Str → Option (List Str)) : List Expr → Prop
  | [] => True
  | a :: as => fits τ a ∧ fitss τ as
end

theorem fitss_iff {τ : Str → Option (List Str)} {as : List Expr} : fitss τ as ↔ ∀ a ∈ as, fits τ a := by
  induction as with
  | nil => simp [fitss]
  | cons a as ih => simp [fitss, ih]

theorem fits_cls {τ : Str → Option (List Str)} (c : Cls) (as : List Expr) : fits τ (.ofCls c as) ↔ ∀ a ∈ as, fits τ a := by
  rw [← fitss_iff]; cases c <;> rfl

theorem retype_scope (S : List (List Var)) (env : VarTypes) (t : Term) : retype (scopeTypes S env) t = retagTerm S env t := by
  cases t <;> rfl

theorem fits_scope {e : Expr} : ∀ {S : List (List Var)} {env : VarTypes}, NoEffect e →
    (fits (scopeTypes S env) e ↔ AtomsConsistent (retagged S env e)) := by
  have hl : ∀ (S : List (List Var)) (env : VarTypes) (as : List Expr),
      (∀ a ∈ as, NoEffect a → (fits (scopeTypes S env) a ↔ AtomsConsistent (retagged S env a))) →
      NoEffects as → (fitss (scopeTypes S env) as ↔ AtomsConsistents (retaggeds S env as)) := by
    intro S env as ih hn
    rw [fitss_iff, atomsConsistents_iff, retaggeds_eq_map, List.forall_mem_map]
    exact forall₂_congr fun a ha => ih a ha (noEffects_iff.1 hn a ha)
  induction e using Expr.ind with
  | hpred p =>
    intro S env _
    rw [fits, retagged, AtomsConsistent]
    exact iff_of_eq (congrArg _ (List.map_congr_left fun t _ => retype_scope S env t))
  | heq l r => intro S env _; rw [fits, retagged, AtomsConsistent, retype_scope, retype_scope]
  | hnfun f => intro S env _; simp [fits, retagged, AtomsConsistent]
  | hnum n => intro S env _; simp [fits, retagged, AtomsConsistent]
  | hbfun o as ih => intro S env hn; exact hl S env as (fun a ha => ih a ha) hn
  | hbin o as ih => intro S env hn; exact hl S env as (fun a ha => ih a ha) hn
  | hnot a ih => intro S env hn; exact ih hn
  | hquant q vs c ih =>
    intro S env hn
    have : bindVars vs (scopeTypes S env) = scopeTypes (vs :: S) env := by
      funext n; rw [bindVars, scopeTypes]; cases vs.reverse.find? (fun v => decide (v.name = n)) <;> rfl
    rw [fits, this, retagged, AtomsConsistent]
    exact ih hn
  | hwhen c e _ _ => intro S env hn; exact absurd hn (by simp [NoEffect])
  | hfall vs e _ => intro S env hn; exact absurd hn (by simp [NoEffect])

/-! ### Equal types -/

/-- The same types for every name. -/
def TypesLike (τ τ' : Str → Option (List Str)) : Prop := ∀ n, Option.Rel SameTypes (τ n) (τ' n)

theorem sameTypes_refl (l : List Str) : SameTypes l l := fun _ => Iff.rfl
theorem sameTypes_symm {a b : List Str} (h : SameTypes a b) : SameTypes b a := fun x => (h x).symm
theorem sameTypes_trans {a b c : List Str} (h : SameTypes a b) (h' : SameTypes b c) : SameTypes a c :=
  fun x => (h x).trans (h' x)

theorem TypesLike.refl (τ : Str → Option (List Str)) : TypesLike τ τ := by
  intro n
  cases τ n with
  | none => exact .none
  | some l => exact .some (sameTypes_refl l)

theorem TypesLike.symm {τ τ' : Str → Option (List Str)} (h : TypesLike τ τ') : TypesLike τ' τ := by
  intro n
  have h1 := h n
  revert h1
  generalize τ n = a; generalize τ' n = b
  intro h1
  cases h1 with
  | none => exact .none
  | some h => exact .some (sameTypes_symm h)

theorem TypesLike.trans {τ τ' τ'' : Str → Option (List Str)} (h : TypesLike τ τ') (h' : TypesLike τ' τ'') : TypesLike τ τ'' := by
  intro n
  have h1 := h n
  have h2 := h' n
  revert h1 h2
  generalize τ n = a; generalize τ' n = b; generalize τ'' n = c
  intro h1 h2
  cases h1 with
  | none => exact h2
  | some h1 =>
    cases h2 with
    | some h2 => exact .some (sameTypes_trans h1 h2)

/-- The same term up to the representation of sets of types. -/
inductive SameT : Term → Term → Prop
  | const (n t) : SameT (.const n t) (.const n t)
  | var {v w : Var} : v.name = w.name → SameTypes v.tags w.tags → SameT (.var v) (.var w)

theorem SameT.refl (t : Term) : SameT t t := by
  cases t with
  | const n t => exact .const n t
  | var v => exact .var rfl (sameTypes_refl _)

theorem SameT.symm {t u : Term} (h : SameT t u) : SameT u t := by
  cases h with
  | const n t => exact .const n t
  | var h1 h2 => exact .var h1.symm (sameTypes_symm h2)

theorem SameT.name {t u : Term} (h : SameT t u) : t.name = u.name := by
  cases h with
  | const => rfl
  | var h _ => exact h

theorem SameT.tags {t u : Term} (h : SameT t u) : SameTypes t.tags u.tags := by
  cases h with
  | const => exact sameTypes_refl _
  | var _ h => exact h

theorem SameT.retype {t u : Term} (h : SameT t u) {τ τ' : Str → Option (List Str)} (ht : TypesLike τ τ') :
    SameT (retype τ t) (retype τ' u) := by
  cases h with
  | const n t => exact .const n t
  | @var v w h1 h2 =>
    refine .var h1 ?_
    show SameTypes ((τ v.name).getD v.tags) ((τ' w.name).getD w.tags)
    have := ht v.name
    rw [← h1]
    revert this
    generalize τ v.name = a; generalize τ' v.name = b
    intro this
    cases this with
    | none => exact h2
    | some h => exact h

theorem forall₂_map_same {ts us : List Term} (h : List.Forall₂ SameT ts us) {τ τ' : Str → Option (List Str)}
    (ht : TypesLike τ τ') : List.Forall₂ SameT (ts.map (retype τ)) (us.map (retype τ')) := by
  induction h with
  | nil => exact .nil
  | cons h _ ih => exact .cons (h.retype ht) ih

theorem consistent_same {ts us : List Term} (h : List.Forall₂ SameT ts us) : Consistent ts ↔ Consistent us := by
  have key : ∀ {ts us : List Term}, List.Forall₂ SameT ts us → Consistent ts → Consistent us := by
    intro ts us h hc a ha b hb hn x
    obtain ⟨a', ha', e1⟩ := forall2_mem h a ha
    obtain ⟨b', hb', e2⟩ := forall2_mem h b hb
    have := hc a' ha' b' hb' (by rw [e1.name, e2.name, hn]) x
    rw [← e1.tags x, ← e2.tags x]; exact this
  exact ⟨key h, key (List.Forall₂.flip (h.imp fun _ _ h => h.symm))⟩

/-- The variables of a quantifier and the list they are made from. -/
def Matches (vs : List Var) (l : List (Str × List Str)) : Prop :=
  (∀ v ∈ vs, ∃ p ∈ l, p.1 = v.name ∧ SameTypes v.tags p.2) ∧ ∀ p ∈ l, ∃ v ∈ vs, v.name = p.1 ∧ SameTypes v.tags p.2

theorem lookup_some_of_mem {l : List (Str × List Str)} {p : Str × List Str} (hp : p ∈ l) :
    ∃ x, l.lookup p.1 = some x ∧ (p.1, x) ∈ l := by
  obtain ⟨v, hv⟩ := dictGet_of_key (List.mem_map_of_mem (f := Prod.fst) hp)
  exact ⟨v, hv, mem_of_dictGet hv⟩

theorem bind_like {vs : List Var} {l : List (Str × List Str)} (hm : Matches vs l)
    (hl : ∀ p ∈ l, ∀ q ∈ l, p.1 = q.1 → SameTypes p.2 q.2) {τ τ' : Str → Option (List Str)} (ht : TypesLike τ τ') :
    TypesLike (bindVars vs τ) (Spec.Rules.bindTypes l τ') := by
  intro n
  unfold bindVars Spec.Rules.bindTypes
  cases hf : vs.reverse.find? (fun v => decide (v.name = n)) with
  | some v =>
    have hv : v ∈ vs := by simpa using List.mem_of_find?_eq_some hf
    have hn : v.name = n := by simpa using List.find?_some hf
    obtain ⟨p, hp, e1, e2⟩ := hm.1 v hv
    obtain ⟨x, hx, hxl⟩ := lookup_some_of_mem hp
    rw [e1, hn] at hx
    rw [hx, Option.some_or]
    exact .some (sameTypes_trans e2 (hl p hp _ hxl rfl))
  | none =>
    have hno : l.lookup n = none := by
      cases h : l.lookup n with
      | none => rfl
      | some x =>
        obtain ⟨v, hv, e, _⟩ := hm.2 _ (mem_of_dictGet h)
        rw [List.find?_eq_none] at hf
        exact absurd e (by simpa using hf v (by simpa using hv))
    rw [hno, Option.none_or]
    exact ht n

theorem bindVars_like {vs ws : List Var} (h : varsNorm vs = varsNorm ws) (hw : VsOk ws)
    {τ τ' : Str → Option (List Str)} (ht : TypesLike τ τ') : TypesLike (bindVars vs τ) (bindVars ws τ') := by
  have fn : ∀ p ∈ ws.map (fun w => (w.name, w.tags)), ∀ q ∈ ws.map (fun w => (w.name, w.tags)), p.1 = q.1 → SameTypes p.2 q.2 := by
    intro p hp q hq
    obtain ⟨w, hw1, rfl⟩ := List.mem_map.1 hp
    obtain ⟨w', hw2, rfl⟩ := List.mem_map.1 hq
    exact hw.2 w hw1 w' hw2
  have m1 : Matches vs (ws.map (fun w => (w.name, w.tags))) := by
    constructor
    · intro v hv
      obtain ⟨w, hw, e⟩ := varsNorm_mem h hv
      exact ⟨_, List.mem_map.2 ⟨w, hw, rfl⟩, (norm_tags e).1, sameTypes_symm (norm_tags e).2⟩
    · intro p hp
      obtain ⟨w, hw1, rfl⟩ := List.mem_map.1 hp
      obtain ⟨v, hv, e⟩ := varsNorm_mem h.symm hw1
      exact ⟨v, hv, norm_tags e⟩
  have m2 : Matches ws (ws.map (fun w => (w.name, w.tags))) := by
    constructor
    · intro w hw; exact ⟨_, List.mem_map.2 ⟨w, hw, rfl⟩, rfl, sameTypes_refl _⟩
    · intro p hp
      obtain ⟨w, hw1, rfl⟩ := List.mem_map.1 hp
      exact ⟨w, hw1, rfl, sameTypes_refl _⟩
  exact (bind_like m1 fn ht).trans (bind_like m2 fn (TypesLike.refl τ')).symm

/-! ### Formulas whose terms come from one environment -/

/-- A constant from the environment is determined by its name. -/
def ConstFn (E : GEnv) : Prop := ∀ n t, E.constant n = .ok t → ∃ tag, t = .const n tag

/-- Variables from the environment are variables. -/
def VarFn (E : GEnv) : Prop := ∀ n t, E.variable n = .ok t → ∃ v : Var, t = .var v ∧ ValidName v.name

theorem same_of_norm {E : GEnv} (hc : ConstFn E) (hv : VarFn E) {t u : Term} (ht : FromEnv E t) (hu : FromEnv E u)
    (h : t.norm = u.norm) : SameT t u := by
  have inv : ∀ {n tag}, FromEnv E (.const n tag) → E.constant n = .ok (.const n tag) := by
    intro n tag h
    rcases h with ⟨m, h⟩ | ⟨m, h⟩
    · obtain ⟨_, e⟩ := hc m _ h
      cases e
      exact h
    · obtain ⟨_, e, _⟩ := hv m _ h
      cases e
  cases t with
  | const n tag =>
    cases u with
    | const m tag' =>
      simp only [Term.norm, NTerm.const.injEq] at h
      subst h
      have := (inv ht).symm.trans (inv hu)
      injection this with e
      rw [e]
      exact .refl _
    | var w => simp [Term.norm] at h
  | var v =>
    cases u with
    | const m tag' => simp [Term.norm] at h
    | var w =>
      simp only [Term.norm, NTerm.var.injEq] at h
      exact .var (norm_tags h).1 (norm_tags h).2

theorem same_of_norms {E : GEnv} (hc : ConstFn E) (hv : VarFn E) {ts us : List Term} (ht : ∀ t ∈ ts, FromEnv E t)
    (hu : ∀ t ∈ us, FromEnv E t) (h : ts.map Term.norm = us.map Term.norm) : List.Forall₂ SameT ts us := by
  induction ts generalizing us with
  | nil => cases us <;> simp at h; exact .nil
  | cons t ts ih =>
    cases us with
    | nil => simp at h
    | cons u us =>
      simp only [List.map_cons, List.cons.injEq] at h
      exact .cons (same_of_norm hc hv (ht t (by simp)) (hu u (by simp)) h.1)
        (ih (fun x hx => ht x (List.mem_cons_of_mem _ hx)) (fun x hx => hu x (List.mem_cons_of_mem _ hx)) h.2)

/-- What is used of formulas from one environment. -/
def Reg (E : GEnv) (e : Expr) : Prop := AllFrom E e ∧ QOk e

theorem allFrom_cls {E : GEnv} (c : Cls) (as : List Expr) : AllFrom E (.ofCls c as) ↔ ∀ a ∈ as, AllFrom E a := by
  unfold AllFrom
  rw [atoms_ofCls]
  constructor
  · intro h a ha x hx; exact h x (mem_atomsAll.2 ⟨a, ha, hx⟩)
  · intro h x hx
    obtain ⟨a, ha, hx⟩ := mem_atomsAll.1 hx
    exact h a ha x hx

theorem reg_cls {E : GEnv} (c : Cls) (as : List Expr) : Reg E (.ofCls c as) ↔ ∀ a ∈ as, Reg E a := by
  unfold Reg
  rw [allFrom_cls, qOk_cls]
  exact ⟨fun h a ha => ⟨h.1 a ha, h.2 a ha⟩, fun h => ⟨fun a ha => (h a ha).1, fun a ha => (h a ha).2⟩⟩

theorem fits_norm {E : GEnv} (hc : ConstFn E) (hv : VarFn E) {a b : Expr} (ha : Reg E a) (hb : Reg E b)
    (h : a.norm = b.norm) {τ τ' : Str → Option (List Str)} (ht : TypesLike τ τ') : fits τ a → fits τ' b := by
  have hl : ∀ {τ τ' : Str → Option (List Str)}, TypesLike τ τ' → ∀ (as bs : List Expr),
      (∀ a ∈ as, ∀ b : Expr, Reg E a → Reg E b → a.norm = b.norm → fits τ a → fits τ' b) →
      Expr.norms as = Expr.norms bs → (∀ a ∈ as, Reg E a) → (∀ b ∈ bs, Reg E b) → (∀ a ∈ as, fits τ a) → ∀ b ∈ bs, fits τ' b := by
    intro τ τ' _ as
    induction as with
    | nil => intro bs _ h _ _ _; cases bs <;> simp [Expr.norms] at h ⊢
    | cons a as ih' =>
      intro bs ih h ha hb hf
      cases bs with
      | nil => simp
      | cons b bs =>
        simp only [Expr.norms, List.cons.injEq] at h
        rw [List.forall_mem_cons]
        exact ⟨ih a (by simp) b (ha a (by simp)) (hb b (by simp)) h.1 (hf a (by simp)),
          ih' bs (fun x hx => ih x (List.mem_cons_of_mem _ hx)) h.2
          (fun x hx => ha x (List.mem_cons_of_mem _ hx)) (fun x hx => hb x (List.mem_cons_of_mem _ hx))
          (fun x hx => hf x (List.mem_cons_of_mem _ hx))⟩
  induction a using Expr.ind generalizing b τ τ' with
  | hpred p =>
    cases b <;> simp only [Expr.norm, NExpr.pred.injEq, reduceCtorEq] at h
    rename_i q
    have := same_of_norms hc hv (ha.1 (p.name, p.terms) (by simp [atoms])) (hb.1 (q.name, q.terms) (by simp [atoms])) h.2
    exact (consistent_same (forall₂_map_same this ht)).1
  | heq l r =>
    cases b <;> simp only [Expr.norm, NExpr.eq.injEq, reduceCtorEq] at h
    rename_i l' r'
    have := same_of_norms hc hv (ts := [l, r]) (us := [l', r']) (ha.1 (s%"=", [l, r]) (by simp [atoms]))
      (hb.1 (s%"=", [l', r']) (by simp [atoms])) (by simp [h.1, h.2])
    exact (consistent_same (forall₂_map_same this ht)).1
  | hbfun o as ih =>
    cases b <;> simp only [Expr.norm, NExpr.bfun.injEq, reduceCtorEq] at h
    intro hf
    exact (fits_cls (.fop _) _).2 (hl ht as _ (fun a ha b r1 r2 h => ih a ha r1 r2 h ht) h.2 ((reg_cls (.fop o) as).1 ha)
      ((reg_cls (.fop _) _).1 hb) ((fits_cls (.fop o) as).1 hf))
  | hbin o as ih =>
    cases b <;> simp only [Expr.norm, NExpr.bin.injEq, reduceCtorEq] at h
    intro hf
    exact (fits_cls (.bop _) _).2 (hl ht as _ (fun a ha b r1 r2 h => ih a ha r1 r2 h ht) h.2 ((reg_cls (.bop o) as).1 ha)
      ((reg_cls (.bop _) _).1 hb) ((fits_cls (.bop o) as).1 hf))
  | hnot a ih =>
    cases b <;> simp only [Expr.norm, NExpr.not.injEq, reduceCtorEq] at h
    rename_i b
    exact ih (b := b) ha hb h ht
  | hquant q vs c ih =>
    cases b <;> simp only [Expr.norm, NExpr.quant.injEq, reduceCtorEq] at h
    rename_i b
    exact ih (b := b) ⟨ha.1, ha.2.2⟩ ⟨hb.1, hb.2.2⟩ h.2.2 (bindVars_like h.2.1 hb.2.1 ht)
  | _ => cases b <;> simp only [Expr.norm, reduceCtorEq] at h <;> intro _ <;> simp [fits]

/-- The types of bound variables are such, and with the other types no predicate has a name with different ones. -/
def Acc (ok : Str → Prop) (ρ : Retyping) (e : Expr) : Prop := BindersOk ok e ∧ ∀ τ, ρ = some τ → fits τ e

theorem acc_construct {E : GEnv} (hc : ConstFn E) (hv : VarFn E) {ok : Str → Prop} {ρ : Retyping} {c : Cls} {es : List Expr}
    (h : ∀ e ∈ es, Reg E e) : Acc ok ρ (construct c es) ↔ ∀ e ∈ es, Acc ok ρ e := by
  refine construct_iff (Q := Reg E) ?_ reg_cls ?_ h
  · intro c as
    unfold Acc
    rw [bindersOk_cls]
    constructor
    · intro h a ha; exact ⟨h.1 a ha, fun τ e => (fits_cls c as).1 (h.2 τ e) a ha⟩
    · intro h; exact ⟨fun a ha => (h a ha).1, fun τ e => (fits_cls c as).2 fun a ha => (h a ha).2 τ e⟩
  · intro a b ra rb hn ha
    exact ⟨bindersOk_norm hn ha.1, fun τ e => fits_norm hc hv ra rb hn (TypesLike.refl τ) (ha.2 τ e)⟩

end Pddl.Rules
