/- C60: ordering of formulas and effects. -/
import Verif.Proofs.OrderFormula
import Verif.Spec.OrderFormula
import Verif.Props.Order
import Verif.Proofs.DecEq

namespace Pddl.Props
open Pddl Spec

theorem builtTerms_tidy {e : Expr} (h : BuiltTerms e) : Tidy e := fun t ht => builtTerm_nodup (h t ht)

/-- The full statement: wherever `<` returns a value, exactly one of `a < b`, `a == b`, `b < a` holds, `<=`, `>`, `>=`
agree, and `<` is transitive. -/
def C60_full : Prop :=
  (∀ a b, BuiltTerms a → BuiltTerms b → (∃ r, Returns (a.lt b) r) → Trichotomy a b) ∧
  (∀ a b c, BuiltTerms a → BuiltTerms b → BuiltTerms c → Returns (a.lt b) true → Returns (b.lt c) true →
    Returns (a.lt c) true)

/-- What holds for all formulas and effects: `<` never holds both ways or between equal objects, it returns a value in
one direction exactly if it does in the other, it is transitive, and it does not tell equal objects apart. -/
theorem C60_partial :
    (∀ a b, BuiltTerms a → BuiltTerms b → Returns (a.lt b) true → Returns (b.lt a) false ∧ a.pyEq b = false) ∧
    (∀ a b, BuiltTerms a → BuiltTerms b → ((∃ r, Returns (a.lt b) r) ↔ ∃ r, Returns (b.lt a) r)) ∧
    (∀ a b c, BuiltTerms a → BuiltTerms b → BuiltTerms c → Returns (a.lt b) true → Returns (b.lt c) true →
      Returns (a.lt c) true) ∧
    (∀ a b c, BuiltTerms a → BuiltTerms b → BuiltTerms c → a.pyEq b = true →
      a.lt c = b.lt c ∧ c.lt a = c.lt b) := by
  refine ⟨fun a b ha hb h => Expr.lt_asymm (builtTerms_tidy ha) (builtTerms_tidy hb) h, fun a b ha hb => ?_, ?_, ?_⟩
  · exact ⟨a.lt_at.swap b (builtTerms_tidy ha) (builtTerms_tidy hb), b.lt_at.swap a (builtTerms_tidy hb) (builtTerms_tidy ha)⟩
  · exact fun a b c ha hb hc => a.lt_at.trans b c (builtTerms_tidy ha) (builtTerms_tidy hb) (builtTerms_tidy hc)
  · intro a b c ha hb hc e
    have e' := (Expr.pyEq_iff a b).1 e
    exact ⟨a.lt_at.left b c (builtTerms_tidy ha) (builtTerms_tidy hb) (builtTerms_tidy hc) e',
      c.lt_at.right a b (builtTerms_tidy hc) (builtTerms_tidy ha) (builtTerms_tidy hb) e'⟩

theorem scopeless_total {a : Expr} (hs : Scopeless a) : ∀ b, Tidy a → Tidy b → a.lt b = .ok false → a.pyEq b = false →
    b.lt a = .ok true := by
  induction hs with
  | pred p =>
    intro b ta tb h e
    cases b <;> simp only [Expr.lt, pure_ok, Except.ok.injEq, reduceCtorEq] at h ⊢
    rename_i q
    have e' : p.pyEq q = false := by simpa [Expr.pyEq] using e
    rcases Pred.lt_laws.tri p q (by simpa [Tidy, terms] using ta) (by simpa [Tidy, terms] using tb) with x | x | x
    · simp [e'] at x
    · simp [h] at x
    · exact x
  | nfun p =>
    intro b ta tb h e
    cases b <;> simp only [Expr.lt, pure_ok, Except.ok.injEq, reduceCtorEq] at h ⊢
    rename_i q
    have e' : p.pyEq q = false := by simpa [Expr.pyEq] using e
    rcases NFun.lt_laws.tri p q (by simpa [Tidy, terms] using ta) (by simpa [Tidy, terms] using tb) with x | x | x
    · simp [e'] at x
    · simp [h] at x
    · exact x
  | num m =>
    intro b ta tb h e
    cases b <;> simp only [Expr.lt, reduceCtorEq] at h ⊢
    rename_i n
    refine Num.lt_total h (fun hk => ?_)
    have : (Expr.num m).pyEq (.num n) = true := (Expr.pyEq_iff _ _).2 (by simp [Expr.norm, hk])
    simp [this] at e
  | @when c f _ _ ih ih' =>
    intro b ta tb h e
    cases b <;> simp only [Expr.lt, reduceCtorEq] at h ⊢
    rename_i c' f'
    have T : ∀ {c e}, Tidy (.when c e) → Tidy c ∧ Tidy e :=
      fun h => ⟨fun t ht => h t (by simp [terms, ht]), fun t ht => h t (by simp [terms, ht])⟩
    have sym : ∀ {x y : Expr}, x.pyEq y = true → y.pyEq x = true :=
      fun h => (Expr.pyEq_iff _ _).2 ((Expr.pyEq_iff _ _).1 h).symm
    by_cases hc : c.pyEq c' = true
    · rw [if_pos hc] at h
      rw [if_pos (sym hc)]
      by_cases hf : f.pyEq f' = true
      · have : (Expr.when c f).pyEq (.when c' f') = true :=
          (Expr.pyEq_iff _ _).2 (by simp [Expr.norm, (Expr.pyEq_iff _ _).1 hc, (Expr.pyEq_iff _ _).1 hf])
        simp [this] at e
      · rw [if_neg hf] at h
        rw [if_neg (fun x => hf (sym x))]
        exact ih' f' (T ta).2 (T tb).2 h (by simpa using hf)
    · rw [if_neg hc] at h
      rw [if_neg (fun x => hc (sym x))]
      exact ih c' (T ta).1 (T tb).1 h (by simpa using hc)

/-- Without sets of variables the order is total wherever it returns, and the four comparisons agree. -/
theorem C60_total_partial (a b : Expr) (ha : BuiltTerms a) (hb : BuiltTerms b) (hs : Scopeless a)
    (h : ∃ r, Returns (a.lt b) r) : Trichotomy a b := by
  have ta := builtTerms_tidy ha
  have tb := builtTerms_tidy hb
  obtain ⟨r, hr⟩ := h
  unfold Returns at hr
  unfold Trichotomy Returns
  cases r with
  | true =>
    obtain ⟨h1, h2⟩ := Expr.lt_asymm ta tb hr
    exact .inl ⟨hr, h2, h1, by simp [Expr.le, hr], by simp [Expr.gt, hr], by simp [Expr.ge, hr]⟩
  | false =>
    cases e : a.pyEq b with
    | true =>
      have hba : b.lt a = .ok false := by
        obtain ⟨r, h⟩ := a.lt_at.swap b ta tb ⟨_, hr⟩
        cases r with
        | false => exact h
        | true => exact absurd h (b.lt_at.irrefl a tb ta ((Expr.pyEq_iff _ _).1 e).symm)
      exact .inr (.inl ⟨hr, rfl, hba, by simp [Expr.le, hr, e], by simp [Expr.gt, hr, e], by simp [Expr.ge, hr]⟩)
    | false =>
      have := scopeless_total hs b ta tb hr e
      exact .inr (.inr ⟨hr, rfl, this, by simp [Expr.le, hr, e], by simp [Expr.gt, hr, e], by simp [Expr.ge, hr]⟩)

/-- Only two objects of the same sort can be compared. -/
theorem C60_comparable (a b : Expr) :
    (∃ r, Returns (a.lt b) r) → match a, b with
      | .pred _, .pred _ | .nfun _, .nfun _ | .num _, .num _ | .quant .., .quant .. | .when .., .when .. |
        .fall .., .fall .. => True
      | _, _ => False := by
  rintro ⟨r, h⟩
  cases a <;> cases b <;> simp [Returns, Expr.lt] at h ⊢

/-- Predicates and functions can always be compared, and their order is total. -/
theorem C60_atoms :
    StrictTotal (fun f : NFun => ∀ t ∈ f.terms, BuiltTerm t) NFun.pyEq NFun.lt ∧
    (∀ p q : Pred, Expr.lt (.pred p) (.pred q) = .ok (p.lt q)) ∧
    (∀ f g : NFun, Expr.lt (.nfun f) (.nfun g) = .ok (f.lt g)) := by
  have := strictTotal_of_laws NFun.lt_laws
  have up : ∀ p : NFun, (∀ t ∈ p.terms, BuiltTerm t) → ∀ t ∈ p.terms, t.TagsNodup :=
    fun p h t ht => builtTerm_nodup (h t ht)
  exact ⟨⟨fun a b pa pb => this.1 a b (up a pa) (up b pb), fun a b c pa pb pc => this.2 a b c (up a pa) (up b pb) (up c pc)⟩,
    fun _ _ => rfl, fun _ _ => rfl⟩

private def x₀ : Var := ⟨s%"x", []⟩
private def y₀ : Var := ⟨s%"y", []⟩
private def p₀ : Pred := ⟨s%"p", []⟩
private def q₀ : Pred := ⟨s%"q", []⟩
private def r₀ : Pred := ⟨s%"r", []⟩

private theorem built_x : BuiltTerm (.var x₀) := .var (n := s%"x") (tags := .set []) (by decide +kernel)
private theorem built_y : BuiltTerm (.var y₀) := .var (n := s%"y") (tags := .set []) (by decide +kernel)

/-- Two quantifications over different single variables: `<` returns false both ways although they differ; and each is
`>` the other. -/
theorem C60_fails_sets : ∃ a b : Expr, BuiltTerms a ∧ BuiltTerms b ∧ Returns (a.lt b) false ∧ Returns (b.lt a) false ∧
    a.pyEq b = false ∧ Returns (a.gt b) true ∧ Returns (b.gt a) true := by
  refine ⟨.quant .all [x₀] (.pred p₀), .quant .all [y₀] (.pred p₀), ?_, ?_, ?_⟩
  · intro t ht; simp [terms, p₀] at ht; subst ht; exact built_x
  · intro t ht; simp [terms, p₀] at ht; subst ht; exact built_y
  · unfold Returns; decide +kernel

/-- A universal and an existential quantification of the same body: neither is `<` the other, and they are not `==`. -/
theorem C60_fails_kinds : ∃ a b : Expr, BuiltTerms a ∧ BuiltTerms b ∧ Returns (a.lt b) false ∧ Returns (b.lt a) false ∧
    a.pyEq b = false ∧ Returns (a.gt b) true ∧ Returns (b.gt a) true := by
  refine ⟨.quant .all [x₀] (.pred p₀), .quant .ex [x₀] (.pred p₀), ?_, ?_, ?_⟩
  · intro t ht; simp [terms, p₀] at ht; subst ht; exact built_x
  · intro t ht; simp [terms, p₀] at ht; subst ht; exact built_x
  · unfold Returns; decide +kernel

theorem C60_fails : ¬ C60_full := by
  intro h
  obtain ⟨a, b, ha, hb, h1, h2, h3, _⟩ := C60_fails_sets
  rcases h.1 a b ha hb ⟨_, h1⟩ with ⟨x, _⟩ | ⟨_, x, _⟩ | ⟨_, _, x, _⟩
  · unfold Returns at *; rw [h1] at x; simp at x
  · rw [h3] at x; simp at x
  · unfold Returns at *; rw [h2] at x; simp at x

/-- Conjunctions, disjunctions, implications, `oneof`, negations, equalities and arithmetic have no order: `<`, `<=`,
`>` and `>=` raise `TypeError`, even between an object and itself. -/
theorem C60_raises (a b : Expr)
    (h : match a with | .bin .. | .not _ | .eq .. | .bfun .. => True | _ => False) :
    a.lt b = .error .type_ ∧ b.lt a = .error .type_ ∧ a.le b = .error .type_ ∧ a.gt b = .error .type_ ∧
      a.ge b = .error .type_ := by
  cases a <;> simp only at h <;> cases b <;> simp [Expr.lt, Expr.le, Expr.gt, Expr.ge]

/-- Two derived predicates can each be `<` the other: the predicate of one is compared with the condition of the
other. -/
theorem C60_derived_fails : ∃ a b : Derived, Returns (a.lt b) true ∧ Returns (b.lt a) true := by
  refine ⟨⟨p₀, .pred q₀⟩, ⟨p₀, .pred r₀⟩, ?_⟩
  unfold Returns; decide +kernel

/-- A derived predicate can be `<` itself. -/
theorem C60_derived_fails_self : ∃ a : Derived, Returns (a.lt a) true := by
  refine ⟨⟨p₀, .pred q₀⟩, ?_⟩
  unfold Returns; decide +kernel

/-- Derived predicates with different predicates are ordered like these. -/
theorem C60_derived_partial (a b : Derived) (h : a.pred.pyEq b.pred = false) : Returns (a.lt b) (a.pred.lt b.pred) := by
  simp [Derived.lt, h, Returns]

example : ∃ a b c : Expr, BuiltTerms a ∧ BuiltTerms b ∧ BuiltTerms c ∧ Returns (a.lt b) true ∧ Returns (b.lt c) true ∧
    Returns (a.lt c) true := by
  refine ⟨.fall [] (.pred q₀), .fall [x₀] (.pred p₀), .fall [y₀, x₀] (.pred p₀), ?_, ?_, ?_, ?_⟩
  · intro t ht; simp [terms, q₀] at ht
  · intro t ht; simp [terms, p₀] at ht; subst ht; exact built_x
  · intro t ht; simp [terms, p₀] at ht; rcases ht with rfl | rfl
    · exact built_y
    · exact built_x
  · unfold Returns; decide +kernel

example : ∃ a b : Expr, BuiltTerms a ∧ BuiltTerms b ∧ Scopeless a ∧ Returns (a.lt b) true := by
  refine ⟨.when (.pred p₀) (.num (.int 1)), .when (.pred p₀) (.num (.flt .pinf (s%"inf"))), ?_, ?_,
    .when (.pred _) (.num _), ?_⟩
  · intro t ht; simp [terms, p₀] at ht
  · intro t ht; simp [terms, p₀] at ht
  · unfold Returns; decide +kernel

end Pddl.Props
