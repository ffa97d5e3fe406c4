/- `_update_type_tags`. -/
import Verif.Spec.Tags
import Verif.Proofs.Consistent

namespace Pddl
open Spec

variable {env : VarTypes}

/-! ### The mapping inside quantifiers -/

theorem dictGet_dictSet {β} (d : List (Str × β)) (k k' : Str) (v : β) :
    dictGet (dictSet d k v) k' = if k = k' then some v else dictGet d k' := by
  unfold dictSet
  by_cases hh : dictHas d k = true
  · rw [if_pos hh]
    induction d with
    | nil => simp [dictHas] at hh
    | cons p d ih =>
      obtain ⟨a, b⟩ := p
      simp only [dictGet, List.map_cons, List.lookup] at ih ⊢
      by_cases ha : a = k
      · subst ha
        simp only [if_true]
        by_cases hk : a = k'
        · subst hk; simp
        · have : (k' == a) = false := by simpa using fun e => hk e.symm
          simp only [this, if_neg hk]
          by_cases hd : dictHas d a = true
          · have := ih hd; simpa [hk] using this
          · have hn : d.map (fun p => if p.1 = a then (a, v) else p) = d := by
              conv_rhs => rw [← List.map_id d]
              apply List.map_congr_left
              intro p hp
              have : p.1 ≠ a := by
                intro e; apply hd; simp only [dictHas, List.any_eq_true, decide_eq_true_eq]; exact ⟨p, hp, e⟩
              simp [this]
            rw [hn]
      · have hd : dictHas d k = true := by simpa [dictHas, ha] using hh
        simp only [if_neg ha]
        have := ih hd
        by_cases hk : k' = a
        · simp [hk, Ne.symm ha]
        · have hb : (k' == a) = false := by simpa using hk
          simp only [hb]; exact this
  · rw [if_neg hh, dictGet_append_single]
    by_cases hk : k = k'
    · subst hk
      have : dictGet d k = none := by
        rw [dictGet, List.lookup_eq_none_iff]
        intro p hp
        simp only [bne_iff_ne, ne_eq]
        simp only [dictHas, List.any_eq_true, decide_eq_true_eq, not_exists, not_and] at hh
        simpa using fun e : k = p.1 => hh p hp e.symm
      simp [this]
    · simp [hk]

theorem dictGet_bindTypes (env : VarTypes) (vs : List Var) (n : Str) :
    dictGet (bindTypes env vs) n =
      match vs.reverse.find? (fun v => decide (v.name = n)) with
      | some v => some v.tags
      | none => dictGet env n := by
  induction vs generalizing env with
  | nil => simp [bindTypes]
  | cons v vs ih =>
    have : bindTypes env (v :: vs) = bindTypes (dictSet env v.name v.tags) vs := rfl
    rw [this, ih, List.reverse_cons, List.find?_append]
    cases h : vs.reverse.find? (fun v => decide (v.name = n)) with
    | some w => simp
    | none =>
      simp only [Option.none_or, dictGet_dictSet, List.find?_singleton]
      by_cases hn : v.name = n <;> simp [hn]

/-- The mapping `e` agrees with the scopes `S` over `env`. -/
def EnvOf (e : VarTypes) (S : List (List Var)) (env : VarTypes) : Prop :=
  ∀ n, dictGet e n = scopeTypes S env n

theorem EnvOf.base (env : VarTypes) : EnvOf env [] env := fun _ => rfl

theorem EnvOf.bind {e S} (h : EnvOf e S env) (vs : List Var) : EnvOf (bindTypes e vs) (vs :: S) env := by
  intro n
  rw [dictGet_bindTypes, scopeTypes]
  cases vs.reverse.find? (fun v => decide (v.name = n)) with
  | some v => rfl
  | none => exact h n

/-! ### Terms -/

/-- Valid tag collections for the scope. -/
def ScopeOk (S : List (List Var)) (env : VarTypes) : Prop :=
  ∀ n l, scopeTypes S env n = some l → TagsOk l

/-- Valid as sets only. -/
def ScopeNodup (S : List (List Var)) (env : VarTypes) : Prop :=
  ∀ n l, scopeTypes S env n = some l → l.Nodup

theorem ScopeOk.nodup {S} (h : ScopeOk S env) : ScopeNodup S env := fun n l e => (h n l e).1

theorem mkVar_set_ok {n : Str} {l : List Str} {v : Var} : mkVar n (.set l) = .ok v ↔
    ValidName n ∧ (∀ t ∈ l, ValidType t) ∧ v = ⟨n, dedupBy (fun a b => decide (a = b)) l⟩ := by
  unfold mkVar
  rw [bind_ok_iff]
  constructor
  · rintro ⟨n', h1, h⟩
    obtain ⟨rfl, hv⟩ := parseName_ok.mp h1
    simp only [checkedTags, ok_bind, bind_ok_iff] at h
    obtain ⟨l', h2, h⟩ := h
    obtain ⟨rfl, ht⟩ := toType_ok.mp h2
    simp at h
    exact ⟨hv, ht, h.symm⟩
  · rintro ⟨h1, h2, rfl⟩
    refine ⟨n, parseName_of_valid h1, ?_⟩
    simp only [checkedTags, ok_bind, bind_ok_iff]
    exact ⟨l, toType_ok.mpr ⟨rfl, h2⟩, rfl⟩

theorem retag_ok {e S} (he : EnvOf e S env) (hs : ScopeNodup S env) {t u : Term} (h : t.retag e = .ok u) :
    u = retagTerm S env t := by
  cases t with
  | const n t => simp [Term.retag] at h; simp [retagTerm, h]
  | var v =>
    rw [Term.retag, he] at h
    cases hl : scopeTypes S env v.name with
    | none => rw [hl] at h; simp at h; simp [retagTerm, hl, ← h]
    | some l =>
      rw [hl] at h
      simp only [bind_ok_iff] at h
      obtain ⟨v', h1, h⟩ := h
      obtain ⟨_, _, rfl⟩ := mkVar_set_ok.mp h1
      simp at h
      simp [retagTerm, hl, ← h, dedup_of_nodup (hs _ _ hl)]

theorem retag_succeeds {e S} (he : EnvOf e S env) (hs : ScopeOk S env) {t : Term}
    (hn : ∀ v ∈ varOf t, ValidName v.name) : t.retag e = .ok (retagTerm S env t) := by
  cases t with
  | const n t => simp [Term.retag, retagTerm]
  | var v =>
    rw [Term.retag, he]
    cases hl : scopeTypes S env v.name with
    | none => simp [retagTerm, hl]
    | some l =>
      have := (hs _ _ hl)
      simp only [bind_ok_iff]
      exact ⟨_, mkVar_set_ok.mpr ⟨hn v (by simp [varOf]), this.2, rfl⟩,
        by simp [retagTerm, hl, dedup_of_nodup this.1]⟩

theorem mapM_ok_iff {α β ε} {f : α → Except ε β} {l : List α} {r : List β} :
    l.mapM f = .ok r ↔ List.Forall₂ (fun a b => f a = .ok b) l r := by
  induction l generalizing r with
  | nil => simp [eq_comm]
  | cons a l ih =>
    rw [List.mapM_cons, bind_ok_iff]
    constructor
    · rintro ⟨b, h1, h⟩
      rw [bind_ok_iff] at h
      obtain ⟨bs, h2, h⟩ := h
      simp at h; subst h
      exact .cons h1 (ih.mp h2)
    · intro h
      cases h with
      | cons h1 h2 => exact ⟨_, h1, by rw [ih.mpr h2]; rfl⟩

theorem retags_ok {e S} (he : EnvOf e S env) (hs : ScopeNodup S env) {ts us : List Term}
    (h : ts.mapM (Term.retag e) = .ok us) : us = ts.map (retagTerm S env) := by
  rw [mapM_ok_iff] at h
  induction h with
  | nil => rfl
  | cons h _ ih => rw [retag_ok he hs h, ih]; rfl

theorem retags_succeed {e S} (he : EnvOf e S env) (hs : ScopeOk S env) {ts : List Term}
    (hn : ∀ v ∈ ts.flatMap varOf, ValidName v.name) :
    ts.mapM (Term.retag e) = .ok (ts.map (retagTerm S env)) := by
  rw [mapM_ok_iff]
  induction ts with
  | nil => exact .nil
  | cons t ts ih =>
    refine .cons (retag_succeeds he hs fun v hv => hn v ?_) (ih fun v hv => hn v ?_)
    · simp [hv]
    · rw [List.flatMap_cons]; exact List.mem_append_right _ hv

/-! ### Inversion -/

theorem updateTagss_ok {e : VarTypes} {as bs : List Expr} :
    Expr.updateTagss e as = .ok bs ↔ List.Forall₂ (fun a b => a.updateTags e = .ok b) as bs := by
  induction as generalizing bs with
  | nil => simp [Expr.updateTagss, eq_comm]
  | cons a as ih =>
    rw [Expr.updateTagss, bind_ok_iff]
    constructor
    · rintro ⟨a', h1, h⟩
      rw [bind_ok_iff] at h
      obtain ⟨as', h2, h⟩ := h
      simp at h; subst h
      exact .cons h1 (ih.mp h2)
    · intro h
      cases h with
      | cons h1 h2 => exact ⟨_, h1, by rw [ih.mpr h2]; rfl⟩

theorem update_pred_ok {e S} (he : EnvOf e S env) (hs : ScopeNodup S env) {p : Pred} {r : Expr}
    (h : (Expr.pred p).updateTags e = .ok r) : r = retagged S env (.pred p) := by
  rw [Expr.updateTags, bind_ok_iff] at h
  obtain ⟨ts, h1, h⟩ := h
  rw [bind_ok_iff] at h
  obtain ⟨p', h2, h⟩ := h
  simp at h; subst h
  obtain ⟨_, _, rfl⟩ := mkPred_ok.mp h2
  rw [retags_ok he hs h1]; rfl

theorem update_eq_ok {e S} (he : EnvOf e S env) (hs : ScopeNodup S env) {l r : Term} {x : Expr}
    (h : (Expr.eq l r).updateTags e = .ok x) : x = retagged S env (.eq l r) := by
  rw [Expr.updateTags, bind_ok_iff] at h
  obtain ⟨l', h1, h⟩ := h
  rw [bind_ok_iff] at h
  obtain ⟨r', h2, h⟩ := h
  obtain ⟨_, rfl⟩ := mkEq_ok.mp h
  rw [retag_ok he hs h1, retag_ok he hs h2]; rfl

theorem update_nfun_ok {e S} (he : EnvOf e S env) (hs : ScopeNodup S env) {p : NFun} {r : Expr}
    (h : (Expr.nfun p).updateTags e = .ok r) : r = retagged S env (.nfun p) := by
  rw [Expr.updateTags, bind_ok_iff] at h
  obtain ⟨ts, h1, h⟩ := h
  rw [bind_ok_iff] at h
  obtain ⟨p', h2, h⟩ := h
  simp at h; subst h
  obtain ⟨_, rfl⟩ := mkNFun_ok.mp h2
  rw [retags_ok he hs h1]; rfl

theorem update_cls_ok {e : VarTypes} {c : Cls} {as : List Expr} {r : Expr} :
    (Expr.ofCls c as).updateTags e = .ok r ↔
    ∃ bs, List.Forall₂ (fun a b => a.updateTags e = .ok b) as bs ∧ r = construct c bs := by
  have : (Expr.ofCls c as).updateTags e =
      (do let as' ← Expr.updateTagss e as; pure (construct c as')) := by
    cases c <;> rw [Expr.ofCls, Expr.updateTags]
  rw [this, bind_ok_iff]
  simp only [updateTagss_ok, pure_ok, Except.ok.injEq]
  exact ⟨fun ⟨b, h1, h2⟩ => ⟨b, h1, h2.symm⟩, fun ⟨b, h1, h2⟩ => ⟨b, h1, h2.symm⟩⟩

theorem update_bfun_ok {e : VarTypes} {o : FOp} {as : List Expr} {r : Expr} :
    (Expr.bfun o as).updateTags e = .ok r ↔
    ∃ bs, List.Forall₂ (fun a b => a.updateTags e = .ok b) as bs ∧ r = construct (.fop o) bs :=
  update_cls_ok (c := .fop o)

theorem update_bin_ok {e : VarTypes} {o : BOp} {as : List Expr} {r : Expr} :
    (Expr.bin o as).updateTags e = .ok r ↔
    ∃ bs, List.Forall₂ (fun a b => a.updateTags e = .ok b) as bs ∧ r = construct (.bop o) bs :=
  update_cls_ok (c := .bop o)

theorem update_not_ok {e : VarTypes} {a : Expr} {r : Expr} : (Expr.not a).updateTags e = .ok r ↔
    ∃ b, a.updateTags e = .ok b ∧ r = .not b := by
  rw [Expr.updateTags, bind_ok_iff]
  simp only [pure_ok, Except.ok.injEq]
  exact ⟨fun ⟨b, h1, h2⟩ => ⟨b, h1, h2.symm⟩, fun ⟨b, h1, h2⟩ => ⟨b, h1, h2.symm⟩⟩

theorem update_quant_ok {e : VarTypes} {q : QOp} {vs : List Var} {a : Expr} {r : Expr} :
    (Expr.quant q vs a).updateTags e = .ok r ↔
      ∃ b, a.updateTags (bindTypes e vs) = .ok b ∧ r = mkQuant q b vs := by
  rw [Expr.updateTags, bind_ok_iff]
  simp only [pure_ok, Except.ok.injEq]
  exact ⟨fun ⟨b, h1, h2⟩ => ⟨b, h1, h2.symm⟩, fun ⟨b, h1, h2⟩ => ⟨b, h1, h2.symm⟩⟩

theorem retaggeds_eq_map (S : List (List Var)) (env : VarTypes) (as : List Expr) :
    retaggeds S env as = as.map (retagged S env) := by
  induction as with
  | nil => rfl
  | cons a as ih => simp [retaggeds, ih]

theorem mem_bindersAll {v : Var} {as : List Expr} : v ∈ bindersAll as ↔ ∃ a ∈ as, v ∈ binders a := by
  induction as with
  | nil => simp [bindersAll]
  | cons a as ih => simp [bindersAll, ih]

theorem ScopeNodup.bind {S} (h : ScopeNodup S env) {vs : List Var} (hv : ∀ v ∈ vs, v.tags.Nodup) :
    ScopeNodup (vs :: S) env := by
  intro n l e
  rw [scopeTypes] at e
  cases hf : vs.reverse.find? (fun v => decide (v.name = n)) with
  | none => rw [hf] at e; exact h n l e
  | some v =>
    rw [hf] at e; simp at e; subst e
    exact hv v (by simpa using List.mem_of_find?_eq_some hf)

theorem ScopeOk.bind {S} (h : ScopeOk S env) {vs : List Var} (hv : ∀ v ∈ vs, TagsOk v.tags) :
    ScopeOk (vs :: S) env := by
  intro n l e
  rw [scopeTypes] at e
  cases hf : vs.reverse.find? (fun v => decide (v.name = n)) with
  | none => rw [hf] at e; exact h n l e
  | some v =>
    rw [hf] at e; simp at e; subst e
    exact hv v (by simpa using List.mem_of_find?_eq_some hf)

/-! ### Atoms -/

theorem update_atoms {e S} (he : EnvOf e S env) (hs : ScopeNodup S env) {f g : Expr}
    (hb : ∀ v ∈ binders f, v.tags.Nodup) (h : f.updateTags e = .ok g) :
    (∀ x ∈ atoms g, x ∈ atoms (retagged S env f)) ∧
    (∀ y ∈ atoms (retagged S env f), ∃ x ∈ atoms g, natom x = natom y) := by
  have hl : ∀ {e S} (he : EnvOf e S env) (hs : ScopeNodup S env) (c : Cls) (as bs : List Expr),
      (∀ a ∈ as, ∀ b : Expr, (∀ v ∈ binders a, v.tags.Nodup) → a.updateTags e = .ok b →
        (∀ x ∈ atoms b, x ∈ atoms (retagged S env a)) ∧
        (∀ y ∈ atoms (retagged S env a), ∃ x ∈ atoms b, natom x = natom y)) →
      (∀ v ∈ bindersAll as, v.tags.Nodup) →
      List.Forall₂ (fun a b => a.updateTags e = .ok b) as bs →
      (∀ x ∈ atoms (construct c bs), x ∈ atomsAll (retaggeds S env as)) ∧
      (∀ y ∈ atomsAll (retaggeds S env as), ∃ x ∈ atoms (construct c bs), natom x = natom y) := by
    intro e S he hs c as bs ih hb h2
    constructor
    · intro x hx
      obtain ⟨b, hb', hx⟩ := mem_atomsAll.mp (atoms_construct_sub hx)
      obtain ⟨a, ha, e⟩ := forall2_mem h2 b hb'
      have := (ih a ha b (fun v hv => hb v (mem_bindersAll.mpr ⟨a, ha, hv⟩)) e).1 x hx
      rw [retaggeds_eq_map]
      exact mem_atomsAll.mpr ⟨_, List.mem_map_of_mem ha, this⟩
    · intro y hy
      rw [retaggeds_eq_map] at hy
      obtain ⟨a', ha', hy⟩ := mem_atomsAll.mp hy
      obtain ⟨a, ha, rfl⟩ := List.mem_map.mp ha'
      obtain ⟨b, hb', e⟩ := forall2_mem' h2 a ha
      obtain ⟨x, hx, e'⟩ := (ih a ha b (fun v hv => hb v (mem_bindersAll.mpr ⟨a, ha, hv⟩)) e).2 y hy
      obtain ⟨z, hz, e''⟩ := atoms_construct_cover (c := c) (mem_atomsAll.mpr ⟨b, hb', hx⟩)
      exact ⟨z, hz, e''.trans e'⟩
  induction f using Expr.ind generalizing g e S with
  | hpred p => rw [update_pred_ok he hs h]; exact ⟨fun x hx => hx, fun x hx => ⟨x, hx, rfl⟩⟩
  | heq l r => rw [update_eq_ok he hs h]; exact ⟨fun x hx => hx, fun x hx => ⟨x, hx, rfl⟩⟩
  | hnfun f => rw [update_nfun_ok he hs h]; exact ⟨fun x hx => hx, fun x hx => ⟨x, hx, rfl⟩⟩
  | hnum n => simp [Expr.updateTags] at h; subst h; simp [atoms, retagged]
  | hbfun o as ih =>
    obtain ⟨bs, h2, rfl⟩ := update_bfun_ok.mp h
    exact hl he hs (.fop o) as bs (fun a ha b hb h => ih a ha he hs hb h) hb h2
  | hbin o as ih =>
    obtain ⟨bs, h2, rfl⟩ := update_bin_ok.mp h
    exact hl he hs (.bop o) as bs (fun a ha b hb h => ih a ha he hs hb h) hb h2
  | hnot a ih => obtain ⟨b, h1, rfl⟩ := update_not_ok.mp h; simp only [atoms, retagged]; exact ih he hs hb h1
  | hquant q vs c ih =>
    obtain ⟨b, h1, rfl⟩ := update_quant_ok.mp h
    simp only [mkQuant, atoms, retagged]
    simp only [binders, List.mem_append] at hb
    exact ih (he.bind vs) (hs.bind fun v hv => hb v (Or.inl hv)) (fun v hv => hb v (Or.inr hv)) h1
  | hwhen c e _ _ => rw [Expr.updateTags] at h; simp at h
  | hfall vs e _ => rw [Expr.updateTags] at h; simp at h

/-! ### Exactness -/

theorem occurrences_cls {c : Cls} {as : List Expr} {τ : Str → List Str} :
    Uniform τ (Expr.ofCls c as) ↔ ∀ a ∈ as, Uniform τ a := by
  unfold Uniform occurrences
  rw [atoms_ofCls]
  constructor
  · intro h a ha v hv
    apply h v
    rw [List.mem_flatMap] at hv ⊢
    obtain ⟨x, hx, hv⟩ := hv
    exact ⟨x, mem_atomsAll.mpr ⟨a, ha, hx⟩, hv⟩
  · intro h v hv
    rw [List.mem_flatMap] at hv
    obtain ⟨x, hx, hv⟩ := hv
    obtain ⟨a, ha, hx⟩ := mem_atomsAll.mp hx
    exact h a ha v (List.mem_flatMap.mpr ⟨x, hx, hv⟩)

theorem retagTerm_inj {τ : Str → List Str} {S S' env env'} {a b : Term}
    (ha : ∀ v ∈ varOf a, ∀ x, x ∈ v.tags ↔ x ∈ τ v.name) (hb : ∀ v ∈ varOf b, ∀ x, x ∈ v.tags ↔ x ∈ τ v.name)
    (h : (retagTerm S env a).norm = (retagTerm S' env' b).norm) : a.norm = b.norm := by
  rcases a with v | n <;> rcases b with w | m <;> simp [retagTerm, Term.norm, Var.norm] at h ⊢
  · refine ⟨h.1, ?_⟩
    ext x
    have h1 := ha v (by simp [varOf]) x
    have h2 := hb w (by simp [varOf]) x
    rw [h.1] at h1
    simp [h1, h2]
  · exact h

theorem retagTerms_inj {τ : Str → List Str} {S S' env env'} {as bs : List Term}
    (ha : ∀ v ∈ as.flatMap varOf, ∀ x, x ∈ v.tags ↔ x ∈ τ v.name)
    (hb : ∀ v ∈ bs.flatMap varOf, ∀ x, x ∈ v.tags ↔ x ∈ τ v.name)
    (h : (as.map (retagTerm S env)).map Term.norm = (bs.map (retagTerm S' env')).map Term.norm) :
    as.map Term.norm = bs.map Term.norm := by
  induction as generalizing bs with
  | nil => cases bs <;> simp at h ⊢
  | cons a as ih =>
    cases bs with
    | nil => simp at h
    | cons b bs =>
      simp only [List.map_cons, List.cons.injEq] at h ⊢
      simp only [List.flatMap_cons, List.mem_append] at ha hb
      exact ⟨retagTerm_inj (fun v hv => ha v (Or.inl hv)) (fun v hv => hb v (Or.inl hv)) h.1,
        ih (fun v hv => ha v (Or.inr hv)) (fun v hv => hb v (Or.inr hv)) h.2⟩

/-- Among formulas whose occurrences carry the types `τ`, retagging is injective up to `==`. -/
theorem retagged_inj {τ : Str → List Str} {S S' env env'} {a b : Expr} (ha : Uniform τ a) (hb : Uniform τ b)
    (h : (retagged S env a).norm = (retagged S' env' b).norm) : a.norm = b.norm := by
  have hl : ∀ {S S' : List (List Var)} (as bs : List Expr),
      (∀ a ∈ as, ∀ b : Expr, Uniform τ a → Uniform τ b →
        (retagged S env a).norm = (retagged S' env' b).norm → a.norm = b.norm) →
      (∀ a ∈ as, Uniform τ a) → (∀ a ∈ bs, Uniform τ a) →
      Expr.norms (retaggeds S env as) = Expr.norms (retaggeds S' env' bs) → Expr.norms as = Expr.norms bs := by
    intro S S' as
    induction as with
    | nil => intro bs _ _ _ h; cases bs <;> simp [retaggeds, Expr.norms] at h ⊢
    | cons a as ih' =>
      intro bs ih ha hb h
      cases bs with
      | nil => simp [retaggeds, Expr.norms] at h
      | cons b bs =>
        simp only [retaggeds, Expr.norms, List.cons.injEq] at h ⊢
        exact ⟨ih a (by simp) b (ha a (by simp)) (hb b (by simp)) h.1,
          ih' bs (fun x hx => ih x (List.mem_cons_of_mem _ hx)) (fun x hx => ha x (List.mem_cons_of_mem _ hx))
            (fun x hx => hb x (List.mem_cons_of_mem _ hx)) h.2⟩
  induction a using Expr.ind generalizing b S S' with
  | hpred p =>
    cases b <;> simp only [retagged, Expr.norm, NExpr.pred.injEq, reduceCtorEq] at h ⊢
    simp only [Uniform, occurrences, atoms, List.flatMap_cons, List.flatMap_nil, List.append_nil] at ha hb
    exact ⟨h.1, retagTerms_inj ha hb h.2⟩
  | heq l r =>
    cases b <;> simp only [retagged, Expr.norm, NExpr.eq.injEq, reduceCtorEq] at h ⊢
    simp only [Uniform, occurrences, atoms, List.flatMap_cons, List.flatMap_nil, List.append_nil,
      List.mem_append] at ha hb
    exact ⟨retagTerm_inj (fun v hv => ha v (Or.inl hv)) (fun v hv => hb v (Or.inl hv)) h.1,
      retagTerm_inj (fun v hv => ha v (Or.inr hv)) (fun v hv => hb v (Or.inr hv)) h.2⟩
  | hnfun f =>
    cases b <;> simp only [retagged, Expr.norm, NExpr.nfun.injEq, reduceCtorEq] at h ⊢
    simp only [Uniform, occurrences, atoms, List.flatMap_cons, List.flatMap_nil, List.append_nil] at ha hb
    exact ⟨h.1, retagTerms_inj ha hb h.2⟩
  | hnum n => cases b <;> simp only [retagged, Expr.norm, reduceCtorEq] at h ⊢; exact h
  | hbfun o as ih =>
    cases b <;> simp only [retagged, Expr.norm, NExpr.bfun.injEq, reduceCtorEq] at h ⊢
    exact ⟨h.1, hl as _ (fun a ha b h1 h2 h => ih a ha h1 h2 h) (occurrences_cls (c := .fop o).mp ha)
      (occurrences_cls (c := .fop _).mp hb) h.2⟩
  | hbin o as ih =>
    cases b <;> simp only [retagged, Expr.norm, NExpr.bin.injEq, reduceCtorEq] at h ⊢
    exact ⟨h.1, hl as _ (fun a ha b h1 h2 h => ih a ha h1 h2 h) (occurrences_cls (c := .bop o).mp ha)
      (occurrences_cls (c := .bop _).mp hb) h.2⟩
  | hnot a ih =>
    cases b <;> simp only [retagged, Expr.norm, NExpr.not.injEq, reduceCtorEq] at h ⊢
    exact ih ha hb h
  | hquant q vs c ih =>
    cases b <;> simp only [retagged, Expr.norm, NExpr.quant.injEq, reduceCtorEq] at h ⊢
    exact ⟨h.1, h.2.1, ih ha hb h.2.2⟩
  | hwhen c e ih1 ih2 =>
    cases b <;> simp only [retagged, Expr.norm, NExpr.when.injEq, reduceCtorEq] at h ⊢
    simp only [Uniform, occurrences, atoms, List.flatMap_append, List.mem_append] at ha hb
    exact ⟨ih1 (fun v hv => ha v (Or.inl hv)) (fun v hv => hb v (Or.inl hv)) h.1,
      ih2 (fun v hv => ha v (Or.inr hv)) (fun v hv => hb v (Or.inr hv)) h.2⟩
  | hfall vs e ih =>
    cases b <;> simp only [retagged, Expr.norm, NExpr.fall.injEq, reduceCtorEq] at h ⊢
    exact ⟨h.1, ih ha hb h.2⟩

/-- A stable list of at least two operands of a simplifying class is canonical. -/
theorem Stable.canonical2 {c : Cls} {as : List Expr} (g : Stable c as) (hm : c.isMeta = true)
    (hl : 2 ≤ as.length) : Canonical c as := by
  by_cases hi : c.idempotent = true
  · exact (Stable.canonical hm hi g).1
  · have hs := simplOperands_loop (c := c) (args := as) (by simpa [hi] using hl)
    simp only [hi, Bool.false_eq_true, if_false] at hs
    have hcd := canonical_dedup c as
    rw [← hs] at hcd
    unfold Stable construct at g
    simp only [hm, if_true, hi, Bool.false_eq_true, if_false] at g
    have inj : ∀ {l l' : List Expr}, Expr.ofCls c l = Expr.ofCls c l' → l = l' := by
      intro l l' e; cases c <;> simpa [Expr.ofCls] using e
    have e : simplOperands c as = as := by
      revert g
      generalize simplOperands c as = l
      match l with
      | [] => exact inj
      | [x] => exact inj
      | _ :: _ :: _ => exact inj
    rw [e] at hcd; exact hcd

theorem retagged_operandsIf {S env} {c : Cls} {a : Expr} (h : a.operandsIf c = none) :
    (retagged S env a).operandsIf c = none := by
  cases c <;> cases a <;> simp_all [Expr.operandsIf, retagged]

/-- Retagging operands keeps the list stable. -/
theorem retag_stable {τ : Str → List Str} {S env} {c : Cls} {as : List Expr} (g : Stable c as)
    (hu : ∀ a ∈ as, Uniform τ a) : Stable c (as.map (retagged S env)) := by
  by_cases hm : c.isMeta = true
  · by_cases hl : 2 ≤ as.length
    · have hc := g.canonical2 hm hl
      apply Canonical.stable
      · refine ⟨?_, ?_⟩
        · intro e he
          obtain ⟨a, ha, rfl⟩ := List.mem_map.mp he
          exact retagged_operandsIf (hc.flat a ha)
        · rw [List.pairwise_map]
          refine List.Pairwise.imp_of_mem ?_ hc.distinct
          intro a b ha hb hab
          cases hp : (retagged S env b).pyEq (retagged S env a) with
          | false => rfl
          | true =>
            have := retagged_inj (hu b hb) (hu a ha) ((Expr.pyEq_iff _ _).mp hp)
            rw [(Expr.pyEq_iff _ _).mpr this] at hab; simp at hab
      · intro _; simp; omega
    · match as, hl, g with
      | [], _, _ => simp [Stable, construct, hm, simplOperands, dedupBy, dedupAux]
      | [x], _, g =>
        cases hi : c.idempotent with
        | false => simp [Stable, construct, hm, simplOperands, hi]
        | true =>
          exfalso
          simp only [Stable, construct, hm, simplOperands, hi, if_true, dedupBy_length_one] at g
          have := congrArg Expr.size g
          rw [Expr.size_operands (operandsIf_ofCls c [x])] at this
          simp [Expr.sizes] at this
      | _ :: _ :: _, hl, _ => simp at hl
  · simp [Stable, construct, hm]

/-- When all occurrences of a name carried the same types before, the result is the
formula itself with the types of the scopes. -/
theorem update_exact {τ : Str → List Str} {e S} (he : EnvOf e S env) (hs : ScopeNodup S env) {f g : Expr}
    (hg : f.Good) (hu : Uniform τ f) (hb : ∀ v ∈ binders f, v.tags.Nodup) (h : f.updateTags e = .ok g) :
    g = retagged S env f := by
  have hl : ∀ {e S} (as bs : List Expr),
      (∀ a ∈ as, ∀ b : Expr, a.Good → Uniform τ a → (∀ v ∈ binders a, v.tags.Nodup) →
        a.updateTags e = .ok b → b = retagged S env a) →
      (∀ a ∈ as, a.Good) → (∀ a ∈ as, Uniform τ a) → (∀ v ∈ bindersAll as, v.tags.Nodup) →
      List.Forall₂ (fun a b => a.updateTags e = .ok b) as bs → bs = as.map (retagged S env) := by
    intro e S as bs ih hg hu hb h2
    induction h2 with
    | nil => rfl
    | cons h _ ihl =>
      simp only [bindersAll, List.mem_append] at hb
      rw [List.map_cons, ih _ (by simp) _ (hg _ (by simp)) (hu _ (by simp)) (fun v hv => hb v (Or.inl hv)) h,
        ihl (fun a ha => ih a (List.mem_cons_of_mem _ ha)) (fun a ha => hg a (List.mem_cons_of_mem _ ha))
          (fun a ha => hu a (List.mem_cons_of_mem _ ha)) (fun v hv => hb v (Or.inr hv))]
  induction f using Expr.ind generalizing g e S with
  | hpred p => exact update_pred_ok he hs h
  | heq l r => exact update_eq_ok he hs h
  | hnfun f => exact update_nfun_ok he hs h
  | hnum n => simp [Expr.updateTags] at h; subst h; rfl
  | hbfun o as ih =>
    obtain ⟨bs, h2, rfl⟩ := update_bfun_ok.mp h
    have hu' := occurrences_cls (c := .fop o).mp hu
    have := hl (S := S) as bs (fun a ha b g u hb h => ih a ha he hs g u hb h) (goods_iff.mp hg.2) hu' hb h2
    rw [this, retag_stable hg.1 hu', retagged, retaggeds_eq_map]; rfl
  | hbin o as ih =>
    obtain ⟨bs, h2, rfl⟩ := update_bin_ok.mp h
    have hu' := occurrences_cls (c := .bop o).mp hu
    have := hl (S := S) as bs (fun a ha b g u hb h => ih a ha he hs g u hb h) (goods_iff.mp hg.2) hu' hb h2
    rw [this, retag_stable hg.1 hu', retagged, retaggeds_eq_map]; rfl
  | hnot a ih => obtain ⟨b, h1, rfl⟩ := update_not_ok.mp h; rw [ih he hs hg hu hb h1]; rfl
  | hquant q vs c ih =>
    obtain ⟨b, h1, rfl⟩ := update_quant_ok.mp h
    simp only [binders, List.mem_append] at hb
    rw [ih (he.bind vs) (hs.bind fun v hv => hb v (Or.inl hv)) hg.2 hu (fun v hv => hb v (Or.inr hv)) h1,
      mkQuant, dedupBy_eq_self hg.1]
    rfl
  | hwhen c e _ _ => rw [Expr.updateTags] at h; simp at h
  | hfall vs e _ => rw [Expr.updateTags] at h; simp at h

/-! ### Success -/

theorem consistent_iff {ts : List Term} : termsConsistent [] ts = true ↔ Consistent ts := by
  rw [termsConsistent_nil]
  constructor
  · intro h
    have hp : ∀ l : List Term, l.Pairwise Agree → ∀ a ∈ l, ∀ b ∈ l, Agree a b := by
      intro l hl
      induction hl with
      | nil => simp
      | cons h1 _ ih =>
        intro a ha b hb
        rcases List.mem_cons.mp ha with ea | ha <;> rcases List.mem_cons.mp hb with eb | hb
        · rw [ea, eb]; exact fun _ _ => Iff.rfl
        · rw [ea]; exact h1 b hb
        · rw [eb]; exact fun e z => (h1 a ha e.symm z).symm
        · exact ih a ha b hb
    exact hp ts h
  · intro h
    apply List.Pairwise.imp_of_mem (R := fun _ _ => True)
    · intro a b ha hb _; exact h a ha b hb
    · exact List.pairwise_of_forall (fun _ _ => trivial)

theorem atomsConsistents_iff {as : List Expr} : AtomsConsistents as ↔ ∀ a ∈ as, AtomsConsistent a := by
  induction as with
  | nil => simp [AtomsConsistents]
  | cons a as ih => simp [AtomsConsistents, ih]

theorem update_succeeds {e S} (he : EnvOf e S env) (hs : ScopeOk S env) {f : Expr} (hg : f.Good)
    (hn : NoEffect f) (hv : ∀ v ∈ occurrences f, ValidName v.name) (hb : ∀ v ∈ binders f, TagsOk v.tags)
    (hc : AtomsConsistent (retagged S env f)) : ∃ g, f.updateTags e = .ok g := by
  have hl : ∀ {e S} (as : List Expr),
      (∀ a ∈ as, a.Good → NoEffect a → (∀ v ∈ occurrences a, ValidName v.name) →
        (∀ v ∈ binders a, TagsOk v.tags) → AtomsConsistent (retagged S env a) → ∃ b, a.updateTags e = .ok b) →
      (∀ a ∈ as, a.Good) → NoEffects as → (∀ v ∈ (atomsAll as).flatMap (fun a => a.2.flatMap varOf), ValidName v.name) →
      (∀ v ∈ bindersAll as, TagsOk v.tags) → AtomsConsistents (retaggeds S env as) →
      ∃ bs, List.Forall₂ (fun a b => a.updateTags e = .ok b) as bs := by
    intro e S as ih hg hn hv hb hc
    induction as with
    | nil => exact ⟨[], .nil⟩
    | cons a as ih' =>
      simp only [bindersAll, atomsAll, List.flatMap_append, List.mem_append] at hb hv
      obtain ⟨b, hb1⟩ := ih a (by simp) (hg a (by simp)) hn.1 (fun v h => hv v (Or.inl h))
        (fun v h => hb v (Or.inl h)) hc.1
      obtain ⟨bs, hbs⟩ := ih' (fun x hx => ih x (List.mem_cons_of_mem _ hx))
        (fun x hx => hg x (List.mem_cons_of_mem _ hx)) hn.2 (fun v h => hv v (Or.inr h))
        (fun v h => hb v (Or.inr h)) hc.2
      exact ⟨b :: bs, .cons hb1 hbs⟩
  induction f using Expr.ind generalizing e S with
  | hpred p =>
    simp only [occurrences, atoms, List.flatMap_cons, List.flatMap_nil, List.append_nil] at hv
    have h1 := retags_succeed he hs hv
    rw [Expr.updateTags, h1]
    have := mkPred_ok.mpr ⟨hg.1, consistent_iff.mpr hc, rfl⟩
    exact ⟨_, by rw [ok_bind, this]; rfl⟩
  | heq l r =>
    simp only [occurrences, atoms, List.flatMap_cons, List.flatMap_nil, List.append_nil, List.mem_append] at hv
    rw [Expr.updateTags, retag_succeeds he hs (fun v h => hv v (Or.inl h)),
      retag_succeeds he hs (fun v h => hv v (Or.inr h))]
    exact ⟨_, mkEq_ok.mpr ⟨consistent_iff.mpr hc, rfl⟩⟩
  | hnfun f =>
    simp only [occurrences, atoms, List.flatMap_cons, List.flatMap_nil, List.append_nil] at hv
    have h1 := retags_succeed he hs hv
    rw [Expr.updateTags, h1]
    have := mkNFun_ok.mpr ⟨hg, (rfl : NFun.mk f.name (f.terms.map (retagTerm S env)) = _)⟩
    exact ⟨_, by rw [ok_bind, this]; rfl⟩
  | hnum n => exact ⟨_, rfl⟩
  | hbfun o as ih =>
    obtain ⟨bs, h2⟩ := hl as (fun a ha g n v b c => ih a ha he hs g n v b c) (goods_iff.mp hg.2) hn hv hb hc
    exact ⟨_, update_bfun_ok.mpr ⟨bs, h2, rfl⟩⟩
  | hbin o as ih =>
    obtain ⟨bs, h2⟩ := hl as (fun a ha g n v b c => ih a ha he hs g n v b c) (goods_iff.mp hg.2) hn hv hb hc
    exact ⟨_, update_bin_ok.mpr ⟨bs, h2, rfl⟩⟩
  | hnot a ih =>
    obtain ⟨b, h⟩ := ih he hs hg hn hv hb hc
    exact ⟨_, update_not_ok.mpr ⟨b, h, rfl⟩⟩
  | hquant q vs c ih =>
    simp only [binders, List.mem_append] at hb
    obtain ⟨b, h⟩ := ih (he.bind vs) (hs.bind fun v hv => hb v (Or.inl hv)) hg.2 hn hv
      (fun v hv => hb v (Or.inr hv)) hc
    exact ⟨_, update_quant_ok.mpr ⟨b, h, rfl⟩⟩
  | hwhen c e _ _ => exact absurd hn (by simp [NoEffect])
  | hfall vs e _ => exact absurd hn (by simp [NoEffect])

/-! ### The meaning does not change -/

theorem denote_retag {D} (I : Interp D) (ρ : Str → D) (S env) (t : Term) :
    denote I ρ (retagTerm S env t) = denote I ρ t := by cases t <;> rfl

theorem value_retagged {D} (I : Interp D) (ρ : Str → D) (S env) (e : Expr) :
    value I ρ (retagged S env e) = value I ρ e := by
  induction e using Expr.ind with
  | hnfun f => simp [retagged, value, denote_retag, Function.comp_def]
  | hbfun o as ih =>
    have : values I ρ (retaggeds S env as) = values I ρ as := by
      induction as with
      | nil => rfl
      | cons a as ih' =>
        rw [retaggeds, values, values, ih a (by simp), ih' (fun x hx => ih x (List.mem_cons_of_mem _ hx))]
    simp [retagged, value, this]
  | _ => simp [retagged, value]

theorem values_retagged {D} (I : Interp D) (ρ : Str → D) (S env) (as : List Expr) :
    values I ρ (retaggeds S env as) = values I ρ as := by
  induction as with
  | nil => rfl
  | cons a as ih => rw [retaggeds, values, values, value_retagged, ih]

theorem holds_retagged {D} (I : Interp D) (S env) (e : Expr) (ρ : Str → D) :
    holds I (retagged S env e) ρ ↔ holds I e ρ := by
  induction e using Expr.ind generalizing S ρ with
  | hpred p => simp [retagged, holds, denote_retag, Function.comp_def]
  | heq l r => simp [retagged, holds, denote_retag]
  | hbfun o as ih => simp [retagged, holds, values_retagged]
  | hbin o as ih =>
    rw [retagged]
    cases o with
    | and =>
      simp only [holds, holdsAll_iff, retaggeds_eq_map, List.forall_mem_map]
      exact ⟨fun h a ha => (ih a ha S ρ).mp (h a ha), fun h a ha => (ih a ha S ρ).mpr (h a ha)⟩
    | or =>
      simp only [holds, holdsSome_iff, retaggeds_eq_map, List.mem_map, exists_exists_and_eq_and]
      exact ⟨fun ⟨a, ha, h⟩ => ⟨a, ha, (ih a ha S ρ).mp h⟩, fun ⟨a, ha, h⟩ => ⟨a, ha, (ih a ha S ρ).mpr h⟩⟩
    | oneof => simp [holds]
    | imply =>
      match as, ih with
      | [], _ => simp [holds, retaggeds, holdsImply]
      | [_], _ => simp [holds, retaggeds, holdsImply]
      | [a, b], ih => simp [holds, retaggeds, holdsImply, ih]
      | _ :: _ :: _ :: _, _ => simp [holds, retaggeds, holdsImply]
  | hnot a ih => simp [retagged, holds, ih]
  | hquant q vs c ih => cases q <;> simp [retagged, holds, ih]
  | _ => simp [retagged, holds]

/-! ### Derived predicates -/

theorem derivedEnv_ok {types : Option TypeDict} {l : List (Term × Term)} {env0 env : VarTypes}
    (h : derivedEnv types l env0 = .ok env)
    (hd : ((l.map Prod.fst).map Term.name).Nodup) (n : Str) :
    dictGet env n = (dictGet (headTypes l) n).or (dictGet env0 n) := by
  induction l generalizing env0 with
  | nil => simp [derivedEnv] at h; subst h; simp [headTypes, dictGet]
  | cons p l ih =>
    obtain ⟨t, d⟩ := p
    cases t with
    | const => simp [derivedEnv] at h
    | var v =>
      simp only [List.map_cons, List.nodup_cons] at hd
      have hout : ∀ n, dictGet (headTypes l) n ≠ none → n ∈ (l.map Prod.fst).map Term.name := by
        intro n hn
        clear * - hn
        induction l with
        | nil => simp [headTypes, dictGet] at hn
        | cons q l ih =>
          obtain ⟨u, d'⟩ := q
          cases u with
          | const a b => simp only [headTypes] at hn; simp; exact Or.inr (by simpa using ih hn)
          | var w =>
            simp only [headTypes] at hn
            by_cases hw : w.name = n
            · simp [Term.name, hw]
            · have hw' : (n == w.name) = false := by simpa using fun e => hw e.symm
              have : dictGet (headTypes l) n ≠ none := by
                split at hn
                · simpa [dictGet, List.lookup, hw'] using hn
                · split at hn
                  · simpa [dictGet, List.lookup, hw'] using hn
                  · exact hn
              have := ih this
              simp only [List.map_cons, List.mem_cons]; exact Or.inr this
      have hv : dictGet (headTypes l) v.name = none := by
        by_contra hc; exact hd.1 (hout _ hc)
      have step : ∀ tags, derivedEnv types l (dictSet env0 v.name tags) = .ok env →
          dictGet env n = (dictGet ((v.name, tags) :: headTypes l) n).or (dictGet env0 n) := by
        intro tags h
        rw [ih h hd.2, dictGet_dictSet]
        by_cases hn : v.name = n
        · subst hn; simp [hv]; simp [dictGet]
        · have hw' : (n == v.name) = false := by simpa using fun e => hn e.symm
          have : dictGet ((v.name, tags) :: headTypes l) n = dictGet (headTypes l) n := by
            simp [dictGet, List.lookup, hw']
          rw [this]; simp [hn]
      rw [derivedEnv] at h
      rw [headTypes]
      by_cases h1 : v.tags.length = 0
      · have h1' : v.tags = [] := by simpa using h1
        simp only [if_pos h1] at h
        simp only [h1', ne_eq, not_true, if_false]
        by_cases h2 : d.tags.length = 0
        · have h2' : d.tags = [] := by simpa using h2
          simp only [h2, ne_eq, not_true, if_false] at h
          simp only [h2', not_true, if_false]
          exact ih h hd.2
        · have h2' : d.tags ≠ [] := by simpa using h2
          simp only [ne_eq, h2, not_false_iff, if_true] at h
          simp only [h2', not_false_iff, if_true]
          exact step _ h
      · have h1' : v.tags ≠ [] := by simpa using h1
        simp only [if_neg h1, bind_ok_iff] at h
        obtain ⟨_, _, h⟩ := h
        simp only [ne_eq, h1', not_false_iff, if_true]
        exact step _ h

theorem headTypes_nodup {l : List (Term × Term)} (h : ∀ p ∈ l, p.1.tags.Nodup ∧ p.2.tags.Nodup) :
    ∀ p ∈ headTypes l, p.2.Nodup := by
  induction l with
  | nil => simp [headTypes]
  | cons q l ih =>
    obtain ⟨t, d⟩ := q
    have ih' := ih (fun p hp => h p (List.mem_cons_of_mem _ hp))
    have hq := h (t, d) (by simp)
    cases t with
    | const => exact ih'
    | var v =>
      rw [headTypes]
      split
      · intro p hp
        rcases List.mem_cons.mp hp with rfl | hp
        · exact hq.1
        · exact ih' p hp
      · split
        · intro p hp
          rcases List.mem_cons.mp hp with rfl | hp
          · exact hq.2
          · exact ih' p hp
        · exact ih'

theorem scopeNodup_base {env : VarTypes} (h : ∀ p ∈ env, p.2.Nodup) : ScopeNodup [] env := by
  intro n l e
  simp only [scopeTypes] at e
  induction env with
  | nil => simp at e
  | cons p env ih =>
    obtain ⟨k, b⟩ := p
    rw [List.lookup] at e
    split at e
    · simp at e; subst e; exact h (k, b) (by simp)
    · exact ih (fun p hp => h p (List.mem_cons_of_mem _ hp)) e

theorem scopeOk_base {env : VarTypes} (h : EnvOk env) : ScopeOk [] env := by
  intro n l e
  simp only [scopeTypes] at e
  induction env with
  | nil => simp at e
  | cons p env ih =>
    obtain ⟨k, b⟩ := p
    rw [List.lookup] at e
    split at e
    · simp at e; subst e; exact h (k, b) (by simp)
    · exact ih (fun p hp => h p (List.mem_cons_of_mem _ hp)) e

end Pddl
