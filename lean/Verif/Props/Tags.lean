/- C32, C33: derived predicates. -/
import Verif.Proofs.Tags
import Verif.Proofs.Subtypes
import Verif.Proofs.DecEq

namespace Pddl.Props
open Pddl Spec

/-! ### C32 -/

/-- The result is the same formula, each variable occurrence carrying the types of its
innermost enclosing quantifier, else those of the mapping, else its own; nothing else
changes. `Uniform`: before, all occurrences of a name carried the same types; the parser
makes occurrences by name, so conditions read from text are such. -/
theorem C32_scope (env : VarTypes) (f g : Expr) (τ : Str → List Str)
    (hf : Built f) (hu : Uniform τ f) (henv : ∀ p ∈ env, p.2.Nodup)
    (hb : ∀ v ∈ binders f, v.tags.Nodup) (h : f.updateTags env = .ok g) :
    g = retagged [] env f :=
  update_exact (EnvOf.base env) (scopeNodup_base henv) hf.good hu hb h

/-- For any formula: the atoms of the result are those of the retagged formula (an atom
may disappear when it becomes equal to another operand of the same `and`/`or`). -/
theorem C32_atoms (env : VarTypes) (f g : Expr) (henv : ∀ p ∈ env, p.2.Nodup)
    (hb : ∀ v ∈ binders f, v.tags.Nodup) (h : f.updateTags env = .ok g) :
    (∀ x ∈ atoms g, x ∈ atoms (retagged [] env f)) ∧
    (∀ y ∈ atoms (retagged [] env f), ∃ x ∈ atoms g, x.1 = y.1 ∧ termsEq x.2 y.2 = true) := by
  obtain ⟨h1, h2⟩ := update_atoms (EnvOf.base env) (scopeNodup_base henv) hb h
  refine ⟨h1, fun y hy => ?_⟩
  obtain ⟨x, hx, e⟩ := h2 y hy
  simp only [natom, Prod.mk.injEq] at e
  exact ⟨x, hx, e.1, termsEq_iff.mpr e.2⟩

/-- The meaning of the formula does not change. -/
theorem C32_meaning {D} (I : Interp D) (env : VarTypes) (f g : Expr) (τ : Str → List Str)
    (hf : Built f) (hu : Uniform τ f) (henv : ∀ p ∈ env, p.2.Nodup)
    (hb : ∀ v ∈ binders f, v.tags.Nodup) (h : f.updateTags env = .ok g) (ρ : Str → D) :
    holds I g ρ ↔ holds I f ρ := by
  rw [C32_scope env f g τ hf hu henv hb h]; exact holds_retagged I [] env f ρ

/-- It succeeds on every condition without conditional or universal effects, with valid
names and types, whose atoms are consistent once retagged. -/
theorem C32_succeeds (env : VarTypes) (f : Expr) (hf : Built f) (hn : NoEffect f) (henv : EnvOk env)
    (hv : ∀ v ∈ occurrences f, ValidName v.name) (hb : ∀ v ∈ binders f, TagsOk v.tags)
    (hc : AtomsConsistent (retagged [] env f)) : ∃ g, f.updateTags env = .ok g :=
  update_succeeds (EnvOf.base env) (scopeOk_base henv) hf.good hn hv hb hc

theorem retagged_congr {env env' : VarTypes} (h : ∀ n, env.lookup n = env'.lookup n) (e : Expr) :
    ∀ S, retagged S env e = retagged S env' e := by
  have hs : ∀ S n, scopeTypes S env n = scopeTypes S env' n := by
    intro S n
    induction S with
    | nil => exact h n
    | cons vs S ih => simp only [scopeTypes, ih]
  have ht : ∀ S, retagTerm S env = retagTerm S env' := by
    intro S; funext t; cases t <;> simp [retagTerm, hs]
  induction e using Expr.ind with
  | hbfun o as ih =>
    intro S; simp only [retagged, retaggeds_eq_map]
    rw [List.map_congr_left (fun a ha => ih a ha S)]
  | hbin o as ih =>
    intro S; simp only [retagged, retaggeds_eq_map]
    rw [List.map_congr_left (fun a ha => ih a ha S)]
  | hnot a ih => intro S; simp only [retagged, ih S]
  | hquant q vs c ih => intro S; simp only [retagged, ih (vs :: S)]
  | hwhen c e ih1 ih2 => intro S; simp only [retagged, ih1 S, ih2 S]
  | hfall vs e ih => intro S; simp only [retagged, ih S]
  | _ => intro S; simp [retagged, ht]

/-- A derived predicate whose head variables have different names: the variables of the
head, and those of the condition that no quantifier binds, carry the types written in
the head, else those of the predicate's declaration. -/
theorem C32_derived (types : Option TypeDict) (preds : List (Str × Pred)) (head p : Pred) (c : Expr)
    (d : Derived) (τ : Str → List Str) (hp : preds.lookup head.name = some p)
    (hf : Built c) (hu : Uniform τ c) (hb : ∀ v ∈ binders c, v.tags.Nodup)
    (hh : ∀ t ∈ head.terms ++ p.terms, t.tags.Nodup) (hd : (head.terms.map Term.name).Nodup)
    (h : derivedPredicate types preds head c = .ok d) :
    d = ⟨⟨head.name, head.terms.map (retagTerm [] (headTypes (head.terms.zip p.terms)))⟩,
      retagged [] (headTypes (head.terms.zip p.terms)) c⟩ := by
  unfold derivedPredicate at h
  rw [dictGet, hp] at h
  simp only at h
  split at h
  · simp at h
  · rename_i hlen
    have hlen' : p.terms.length = head.terms.length := by simpa using hlen
    rw [bind_ok_iff] at h
    obtain ⟨env, h1, h⟩ := h
    rw [bind_ok_iff] at h
    obtain ⟨ts, h2, h⟩ := h
    rw [bind_ok_iff] at h
    obtain ⟨hd', h3, h⟩ := h
    rw [bind_ok_iff] at h
    obtain ⟨c', h4, h⟩ := h
    simp at h; subst h
    obtain ⟨_, _, rfl⟩ := mkPred_ok.mp h3
    have hfst : (head.terms.zip p.terms).map Prod.fst = head.terms := List.map_fst_zip (by omega)
    have he : EnvOf env [] (headTypes (head.terms.zip p.terms)) := by
      intro n
      rw [derivedEnv_ok h1 (by rw [hfst]; exact hd) n]
      simp [scopeTypes, dictGet]
    have hs : ScopeNodup [] (headTypes (head.terms.zip p.terms)) := by
      apply scopeNodup_base
      apply headTypes_nodup
      rintro ⟨a, b⟩ hab
      have := List.of_mem_zip hab
      exact ⟨hh a (List.mem_append_left _ this.1), hh b (List.mem_append_right _ this.2)⟩
    rw [retags_ok he hs h2, update_exact he hs hf.good hu hb h4]

/-- A predicate that is not declared, or declared with another arity, is rejected. -/
theorem C32_derived_undeclared (types : Option TypeDict) (preds : List (Str × Pred)) (head : Pred) (c : Expr)
    (h : ∀ p, preds.lookup head.name = some p → p.terms.length ≠ head.terms.length) :
    derivedPredicate types preds head c = .error .undefined := by
  unfold derivedPredicate
  cases hp : dictGet preds head.name with
  | none => rfl
  | some p => simp only; rw [if_pos (h p hp)]

section Examples
def px (tags : List Str) : Expr := .pred ⟨s%"p", [.var ⟨s%"x", tags⟩]⟩
/-- `(and (p ?x) (exists (?x - u) (p ?x)))` with `?x` mapped to type `t`. -/
example : (Expr.bin .and [px [], .quant .ex [⟨s%"x", [s%"u"]⟩] (px [])]).updateTags [(s%"x", [s%"t"])] =
    .ok (Expr.bin .and [px [s%"t"], .quant .ex [⟨s%"x", [s%"u"]⟩] (px [s%"u"])]) := by decide +kernel
example : retagged [] [(s%"x", [s%"t"])] (Expr.bin .and [px [], .quant .ex [⟨s%"x", [s%"u"]⟩] (px [])]) =
    Expr.bin .and [px [s%"t"], .quant .ex [⟨s%"x", [s%"u"]⟩] (px [s%"u"])] := by decide +kernel
/-- Without `Uniform` two operands may become equal, and `and` drops one. -/
example : (Expr.bin .and [px [], px [s%"t"]]).updateTags [(s%"x", [s%"t"])] = .ok (px [s%"t"]) := by
  decide +kernel
example : Uniform (fun _ => []) (Expr.bin .and [px [], .quant .ex [⟨s%"x", [s%"u"]⟩] (px [])]) := by
  intro v hv x
  simp [occurrences, atoms, atomsAll, px, varOf] at hv
  simp [hv]
example : (∃ d, derivedPredicate (some []) [(s%"p", ⟨s%"p", [.var ⟨s%"z", [s%"t"]⟩]⟩)]
    ⟨s%"p", [.var ⟨s%"x", []⟩]⟩ (px []) = .ok d) := ⟨⟨⟨s%"p", [.var ⟨s%"x", [s%"t"]⟩]⟩, px [s%"t"]⟩, rfl⟩
end Examples

/-! ### C33 -/

/-- The full statement: the check returns after finitely many rounds of its loops, and
accepts iff each annotated type is a subtype of a declared type. -/
def C33_full : Prop := ∀ (d : TypeDict) (left right : List Str), checkTypeDict d [.typing] = .ok () →
  ∃ n r, checkSubtypesN n (some d) left right = some r ∧ (r = .ok () ↔ SubtypesOk d left right)

/-- It is false: for a grandchild of the declared type the loop never ends, since it does
not move up the hierarchy. -/
theorem C33_fails : ¬ C33_full := by
  intro h
  obtain ⟨n, r, h1, _⟩ := h [(s%"a", some s%"b"), (s%"b", some s%"c"), (s%"c", none)] [s%"a"] [s%"c"]
    (by decide +kernel)
  have h2 : checkSubtypes (some [(s%"a", some s%"b"), (s%"b", some s%"c"), (s%"c", none)]) [s%"a"] [s%"c"] =
      .error .diverges := by decide +kernel
  have h3 := checkSubtypesN_mono (checkSubtypesN_mono h1)
  rw [(subtypesN_iff _ _ _).2.mp h2 n] at h3
  simp at h3

/-- The same for a type outside the declared one with a supertype: no error is reported. -/
theorem C33_reject_fails : ∀ n, checkSubtypesN n
    (some [(s%"a", some s%"b"), (s%"b", none), (s%"c", none)]) [s%"a"] [s%"c"] = none := by
  intro n
  cases h : checkSubtypesN n (some [(s%"a", some s%"b"), (s%"b", none), (s%"c", none)]) [s%"a"] [s%"c"] with
  | none => rfl
  | some r =>
    have h2 : checkSubtypes (some [(s%"a", some s%"b"), (s%"b", none), (s%"c", none)]) [s%"a"] [s%"c"] =
        .error .diverges := by decide +kernel
    have h3 := checkSubtypesN_mono (checkSubtypesN_mono h)
    rw [(subtypesN_iff _ _ _).2.mp h2 n] at h3
    simp at h3

/-- When the check returns, its answer is right: acceptance means subtype, the parsing
error means not. Missing from the full statement: it need not return. -/
theorem C33_partial (d : TypeDict) (left right : List Str) (n : Nat) (r : Except Exc Unit)
    (h : checkSubtypesN n (some d) left right = some r) :
    (r = .ok () ∧ SubtypesOk d left right) ∨ (r = .error .parsing ∧ ¬ SubtypesOk d left right) := by
  have h3 := checkSubtypesN_mono (checkSubtypesN_mono h)
  rw [checkSubtypesN_eq] at h3
  split at h3
  · simp at h3
  · rename_i hnd
    simp only [Option.some.injEq] at h3
    rcases checkSubtypes_some d left right with h4 | h4 | h4
    · left
      refine ⟨by rw [← h3, h4], ?_⟩
      by_cases hr : right = []
      · exact Or.inl hr
      · right
        intro a ha
        rcases (checkSubtypes_ok hr).mp h4 a ha with hm | ⟨p, hp, e⟩
        · exact ⟨a, hm, .refl⟩
        · exact ⟨p, hp, .single e⟩
    · right
      refine ⟨by rw [← h3, h4], ?_⟩
      obtain ⟨hr, t, ht, hnt, hl⟩ := checkSubtypes_parsing h4
      rintro (e | e)
      · exact hr e
      · obtain ⟨b, hb, hs⟩ := e t ht
        rw [not_subtype hl hs] at hb; exact hnt hb
    · exact absurd h4 hnd

/-- Exactly when it accepts: nothing is declared, or each annotated type is a declared one
or has a declared one as its immediate supertype. -/
theorem C33_accepts_partial (d : TypeDict) (left right : List Str) :
    (∃ n, checkSubtypesN n (some d) left right = some (.ok ())) ↔
      right = [] ∨ ∀ a ∈ left, a ∈ right ∨ ∃ b ∈ right, d.lookup a = some (some b) := by
  rw [returns_iff _ _ _ _ (by simp)]
  by_cases hr : right = []
  · subst hr; simp [checkSubtypes_nil]
  · rw [checkSubtypes_ok hr]; simp [hr]

/-- When each annotated type is declared, has no supertype, or has a declared type as its
immediate supertype, the check returns the right answer. -/
theorem C33_returns_partial (d : TypeDict) (left right : List Str)
    (h : ∀ a ∈ left, a ∈ right ∨ (∀ b, d.lookup a ≠ some (some b)) ∨ ∃ b ∈ right, d.lookup a = some (some b)) :
    ∃ n r, checkSubtypesN n (some d) left right = some r ∧ (r = .ok () ↔ SubtypesOk d left right) := by
  have hd : checkSubtypes (some d) left right ≠ .error .diverges := by
    induction left with
    | nil => simp [checkSubtypes]
    | cons t ts ih =>
      rw [checkSubtypes_cons]
      have ih := ih (fun a ha => h a (List.mem_cons_of_mem _ ha))
      split
      · simp
      · split
        · exact ih
        · rename_i ht
          rcases h t (by simp) with h1 | h1 | ⟨b, hb, h1⟩
          · exact absurd h1 ht
          · cases hj : (dictGet d t).join with
            | none => simp [hj]
            | some p => exact absurd (join_eq_some.mp hj) (h1 p)
          · simp only [join_eq_some.mpr h1, if_pos hb]; exact ih
  obtain ⟨n, hn⟩ := (returns_iff (some d) left right _ hd).mpr rfl
  refine ⟨n, _, hn, ?_⟩
  rcases C33_partial d left right n _ hn with ⟨h1, h2⟩ | ⟨h1, h2⟩
  · simp [h1, h2]
  · simp [h1, h2]

example : checkSubtypes (some [(s%"a", some s%"b"), (s%"b", none)]) [s%"a"] [s%"b"] = .ok () := by
  decide +kernel
example : checkSubtypes (some [(s%"a", some s%"b"), (s%"b", none)]) [s%"b"] [s%"a"] = .error .parsing := by
  decide +kernel

end Pddl.Props
