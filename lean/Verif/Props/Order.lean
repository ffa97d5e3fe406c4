/- C06: ordering of terms and predicates. -/
import Verif.Proofs.Order
import Verif.Spec.Built

namespace Pddl.Props
open Pddl Spec

/-- Exactly one of `a < b`, `a == b`, `b < a`. -/
def ExactlyOne (p q r : Bool) : Prop :=
  (p = true ∧ q = false ∧ r = false) ∨ (p = false ∧ q = true ∧ r = false) ∨
  (p = false ∧ q = false ∧ r = true)

/-- The full property for a class of objects. -/
def StrictTotal {α} (P : α → Prop) (eq lt : α → α → Bool) : Prop :=
  (∀ a b, P a → P b → ExactlyOne (lt a b) (eq a b) (lt b a)) ∧
  (∀ a b c, P a → P b → P c → lt a b = true → lt b c = true → lt a c = true)

theorem strictTotal_of_laws {α} {P : α → Prop} {eq lt : α → α → Bool} (h : OrdLaws P eq lt) :
    StrictTotal P eq lt := by
  refine ⟨fun a b pa pb => ?_, fun a b c pa pb pc => h.trans a b c pa pb pc⟩
  rcases h.tri a b pa pb with e | e | e
  · exact Or.inr (Or.inl ⟨h.irrefl a b pa pb e, e, h.irrefl b a pb pa (h.symm _ _ e)⟩)
  · refine Or.inl ⟨e, ?_, h.asymm a b pa pb e⟩
    cases h' : eq a b with
    | false => rfl
    | true => simp [h.irrefl a b pa pb h'] at e
  · refine Or.inr (Or.inr ⟨h.asymm b a pb pa e, ?_, e⟩)
    cases h' : eq a b with
    | false => rfl
    | true => simp [h.irrefl b a pb pa (h.symm _ _ h')] at e

/-- Tags of constructed terms contain no duplicates (they are a frozenset). -/
theorem builtTerm_nodup {t : Term} (h : BuiltTerm t) : t.tags.Nodup := by
  cases h with
  | var h =>
    unfold mkVar at h
    rw [bind_ok_iff] at h
    obtain ⟨_, _, h⟩ := h
    rw [bind_ok_iff] at h
    obtain ⟨_, _, h⟩ := h
    rw [bind_ok_iff] at h
    obtain ⟨_, _, h⟩ := h
    simp at h
    subst h
    exact dedup_nodup _
  | const h =>
    unfold mkConst at h
    rw [bind_ok_iff] at h
    obtain ⟨_, _, h⟩ := h
    split at h
    · simp at h; subst h; simp [Term.tags]
    · rw [bind_ok_iff] at h
      obtain ⟨_, _, h⟩ := h
      simp at h; subst h; simp [Term.tags]

/-- The full statement for terms. -/
def C06_full : Prop := StrictTotal BuiltTerm Term.pyEq Term.lt

/-- It is false: two constants with the same name and different types are `==`
and one is `<` the other. -/
theorem C06_fails : ¬ C06_full := by
  intro h
  have ha : mkConst (s%"a") (some (s%"t")) = .ok (.const (s%"a") (some (s%"t"))) := by decide +kernel
  have hb : mkConst (s%"a") (some (s%"u")) = .ok (.const (s%"a") (some (s%"u"))) := by decide +kernel
  have := h.1 _ _ (.const ha) (.const hb)
  have e1 : (Term.const (s%"a") (some (s%"t"))).pyEq (.const (s%"a") (some (s%"u"))) = true := by
    decide +kernel
  have e2 : (Term.const (s%"a") (some (s%"t"))).lt (.const (s%"a") (some (s%"u"))) = true := by
    simp [Term.lt, Term.cls, Term.name, Term.tags, sortedStr_singleton]
    decide
  rw [e1, e2] at this
  rcases this with ⟨_, h, _⟩ | ⟨h, _⟩ | ⟨h, _⟩ <;> simp at h

/-- Requirements: `<` holds between a requirement and itself. -/
theorem C06_requirements_fails (r : Req) : Req.lt r r = true := strLe_refl _

/-- What is missing from the full statement is exactly the pairs of equal-named
constants: on variables, and between terms that are not `==`, it holds. -/
theorem C06_terms_partial :
    StrictTotal (fun t => BuiltTerm t ∧ ∃ v, t = .var v) Term.pyEq Term.lt ∧
    (∀ a b, BuiltTerm a → BuiltTerm b → a.pyEq b = false →
      (a.lt b = true ∧ b.lt a = false) ∨ (a.lt b = false ∧ b.lt a = true)) ∧
    (∀ a b c, BuiltTerm a → BuiltTerm b → BuiltTerm c → a.lt b = true → b.lt c = true →
      a.lt c = true) := by
  refine ⟨?_, ?_, ?_⟩
  · have := strictTotal_of_laws Var.lt_laws
    exact ⟨fun a b pa pb => this.1 a b ⟨builtTerm_nodup pa.1, pa.2⟩ ⟨builtTerm_nodup pb.1, pb.2⟩,
      fun a b c pa pb pc => this.2 a b c ⟨builtTerm_nodup pa.1, pa.2⟩
        ⟨builtTerm_nodup pb.1, pb.2⟩ ⟨builtTerm_nodup pc.1, pc.2⟩⟩
  · intro a b ha hb e
    have h := Term.keyLt_laws
    have pa := builtTerm_nodup ha; have pb := builtTerm_nodup hb
    have e' : b.pyEq a = false := by
      cases x : b.pyEq a with
      | false => rfl
      | true => rw [h.symm _ _ x] at e; simp at e
    rw [Term.lt_eq_keyLt e, Term.lt_eq_keyLt e']
    rcases h.tri a b pa pb with x | x | x
    · simp [e] at x
    · exact Or.inl ⟨x, h.asymm _ _ pa pb x⟩
    · exact Or.inr ⟨h.asymm _ _ pb pa x, x⟩
  · intro a b c ha hb hc
    exact Term.lt_laws.trans a b c (builtTerm_nodup ha) (builtTerm_nodup hb) (builtTerm_nodup hc)

/-- Predicates: `<` is a strict total order compatible with `==`. -/
theorem C06_predicates : StrictTotal (fun p : Pred => ∀ t ∈ p.terms, BuiltTerm t) Pred.pyEq Pred.lt := by
  have := strictTotal_of_laws Pred.lt_laws
  have up : ∀ p : Pred, (∀ t ∈ p.terms, BuiltTerm t) → ∀ t ∈ p.terms, t.TagsNodup :=
    fun p h t ht => builtTerm_nodup (h t ht)
  exact ⟨fun a b pa pb => this.1 a b (up a pa) (up b pb),
    fun a b c pa pb pc => this.2 a b c (up a pa) (up b pb) (up c pc)⟩

/-- `sorted` of a set of predicates does not depend on the iteration order. -/
theorem C06_sorted_predicates (l l' : List Pred) (hp : l.Perm l')
    (hb : ∀ p ∈ l, ∀ t ∈ p.terms, BuiltTerm t)
    (hset : l.Pairwise (fun a b => a.pyEq b = false)) :
    sortedBy Pred.lt l = sortedBy Pred.lt l' :=
  Pred.lt_laws.sorted_perm hp (fun p h t ht => builtTerm_nodup (hb p h t ht)) hset

/-- `sorted` of a set of terms does not depend on the iteration order. -/
theorem C06_sorted_terms (l l' : List Term) (hp : l.Perm l') (hb : ∀ t ∈ l, BuiltTerm t)
    (hset : l.Pairwise (fun a b => a.pyEq b = false)) :
    sortedBy Term.lt l = sortedBy Term.lt l' := by
  refine Term.lt_laws.sorted_perm hp (fun t h => builtTerm_nodup (hb t h)) ?_
  refine List.Pairwise.imp_of_mem ?_ hset
  intro a b ha hb' hab
  rw [Bool.eq_false_iff]
  intro e
  rw [Term.pyEq_key (builtTerm_nodup (hb a ha)) (builtTerm_nodup (hb b hb'))] at hab
  simp only [Bool.and_eq_true, decide_eq_true_eq] at e
  have : a.eqTags = b.eqTags := by
    cases a <;> cases b <;> simp_all [Term.cls, Term.eqTags, Term.tags]
  simp [e.1, e.2.1, this] at hab

example : ∃ l : List Pred, 2 ≤ l.length ∧ (∀ p ∈ l, ∀ t ∈ p.terms, BuiltTerm t) ∧
    l.Pairwise (fun a b => a.pyEq b = false) := by
  have hx : mkVar (s%"x") (.set [s%"t"]) = .ok ⟨s%"x", [s%"t"]⟩ := by decide +kernel
  refine ⟨[⟨s%"p", [.var ⟨s%"x", [s%"t"]⟩]⟩, ⟨s%"q", []⟩], by simp, ?_, ?_⟩
  · simp
    exact .var hx
  · simp [Pred.pyEq]

end Pddl.Props
