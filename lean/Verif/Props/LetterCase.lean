/-
C100: capital and small letters; and C83 for renamings of the names of one text.
-/
import Verif.Proofs.LetterCase
import Verif.Props.Rename

namespace Pddl.Props
open Pddl Pddl.Spec

/-! ### C83 with a renaming of the names of the text -/

/-- A renaming of the names of a text: different names get different names, and words of the language stay. -/
structure RenamingOf (t : Str) (f : Str → Str) : Prop where
  inj : ∀ a b, Tok.name a ∈ lex t → Tok.name b ∈ lex t → f a = f b → a = b
  kept : ∀ a, Tok.name a ∈ lex t → Reserved a ∨ a = s%"number" → f a = a
  fresh : ∀ a, Tok.name a ∈ lex t → Reserved (f a) ∨ f a = s%"number" → f a = a

/-- It is part of a renaming of all names. -/
theorem renamingOf_extends {f : Str → Str} {t t' : Str} (hf : RenamingOf t f) (h : Renamed f t t') :
    ∃ ρ, Renaming ρ ∧ (∀ a, Tok.name a ∈ lex t → ρ a = f a) ∧ Renamed ρ t t' := by
  obtain ⟨ρ, R, hρ⟩ := renaming_extend (N := textNames t) (f := f) (fun a ha => name_shape (mem_textNames.1 ha))
    (fun a ha => name_shape (renamed_mem h (mem_textNames.1 ha)))
    (fun a ha b hb => hf.inj a b (mem_textNames.1 ha) (mem_textNames.1 hb))
    (fun a ha => hf.kept a (mem_textNames.1 ha)) (fun a ha => hf.fresh a (mem_textNames.1 ha))
  exact ⟨ρ, R, fun a ha => hρ a (mem_textNames.2 ha), renamed_congr (fun w hw => hρ w (mem_textNames.2 hw)) h⟩

/-- C83, if only the names that are in the text are renamed one to one. -/
theorem C83_local_partial {f : Str → Str} {t t' : Str} (hf : RenamingOf t f) (h : Renamed f t t') (F : FloatOf)
    (hl : LooseText t) (hl' : LooseText t') : ∃ ρ, Renaming ρ ∧ (∀ a, Tok.name a ∈ lex t → ρ a = f a) ∧
    (parseDomain F .fresh t').map Prod.fst = (parseDomain F .fresh t).map (fun p => p.1.rename ρ) ∧
    (parseProblem F [] t').map Prod.fst = (parseProblem F [] t).map (fun p => p.1.rename ρ) := by
  obtain ⟨ρ, R, h1, h2⟩ := renamingOf_extends hf h
  exact ⟨ρ, R, h1, C83_domain_partial R F h2 hl hl', C83_problem_partial R F h2 hl hl'⟩

theorem C83_local_plan {f : Str → Str} {t t' : Str} (hf : RenamingOf t f) (h : Renamed f t t') :
    ∃ ρ, Renaming ρ ∧ (∀ a, Tok.name a ∈ lex t → ρ a = f a) ∧ parsePlan t' = (parsePlan t).map (Plan.rename ρ) := by
  obtain ⟨ρ, R, h1, h2⟩ := renamingOf_extends hf h
  exact ⟨ρ, R, h1, C83_plan R h2⟩

/-- A renaming that is one to one on the names of the text only: `x` is made `y`, and `y` stays. -/
example : RenamingOf s%"(a x)(b x)" (fun w => if w = s%"x" then s%"y" else w) ∧
    Renamed (fun w => if w = s%"x" then s%"y" else w) s%"(a x)(b x)" s%"(a y) (b y)" ∧
    (parsePlan s%"(a x)(b x)").toOption.isSome = true := by
  have e : lex s%"(a x)(b x)" = [.lpar, .name s%"a", .name s%"x", .rpar, .lpar, .name s%"b", .name s%"x", .rpar] := by decide +kernel
  have hr : ∀ w : Str, w = s%"a" ∨ w = s%"b" ∨ w = s%"x" ∨ w = s%"y" → ¬ (Reserved w ∨ w = s%"number") := by
    rintro w h (⟨r, hr, e⟩ | e)
    · have : ∀ r ∈ reserved, r.toList ≠ s%"a" ∧ r.toList ≠ s%"b" ∧ r.toList ≠ s%"x" ∧ r.toList ≠ s%"y" := by decide +kernel
      rcases h with rfl | rfl | rfl | rfl
      · exact (this r hr).1 e
      · exact (this r hr).2.1 e
      · exact (this r hr).2.2.1 e
      · exact (this r hr).2.2.2 e
    · rcases h with rfl | rfl | rfl | rfl <;> cases e
  have hm : ∀ w, Tok.name w ∈ lex s%"(a x)(b x)" → w = s%"a" ∨ w = s%"b" ∨ w = s%"x" := by
    intro w hw
    rw [e] at hw
    simp only [List.mem_cons, Tok.name.injEq, reduceCtorEq, List.not_mem_nil, or_false, false_or] at hw
    tauto
  refine ⟨⟨?_, ?_, ?_⟩, by unfold Renamed; decide +kernel, by decide +kernel⟩
  · intro a b ha hb
    rcases hm a ha with rfl | rfl | rfl <;> rcases hm b hb with rfl | rfl | rfl <;> decide +kernel
  · intro a ha hk
    exact absurd hk (hr a (by rcases hm a ha with h | h | h <;> simp [h]))
  · intro a ha hk
    exact absurd hk (hr _ (by rcases hm a ha with rfl | rfl | rfl <;> simp))

/-! ### Capital and small letters -/

/-- The full statement: texts that differ only in capital and small letters are read alike. -/
def C100_full : Prop := ∀ (F : FloatOf) (t t' : Str), SameIgnoringCase t t' →
  ((∃ r, parseDomain F .fresh t = .ok r) ↔ ∃ r, parseDomain F .fresh t' = .ok r)

/-- A name in small letters. -/
def smallLetters (w : Str) : Str := w.map Char.toLower

theorem small_rename {ρ : Str → Str} (h : ∀ w, SameIgnoringCase (ρ w) w) : smallLetters ∘ ρ = smallLetters :=
  funext fun w => h w

/-- C100, for texts in which each name is spelt in one way only and of which only names are respelt: one is accepted if
the other is, and up to capital and small letters the domains are the same; otherwise the errors are the same. Missing:
keywords in capital letters (see `C100_fails`), and a name that is spelt in two ways (see `C100_fails_names`). -/
theorem C100_domain_partial {t t' : Str} (h : RespeltText t t') (hs : SpeltAlike t) (hs' : SpeltAlike t')
    (hl : LooseText t) (hl' : LooseText t') (F : FloatOf) :
    (parseDomain F .fresh t').map (fun p => p.1.rename smallLetters) =
      (parseDomain F .fresh t).map (fun p => p.1.rename smallLetters) := by
  obtain ⟨ρ, R, hr, hc⟩ := respelt_renaming h hs hs'
  have := C83_domain_partial R F hr hl hl'
  cases h1 : parseDomain F .fresh t with
  | error e =>
    rw [h1] at this
    cases h2 : parseDomain F .fresh t' with
    | error e' =>
      rw [h2] at this
      simp only [Except.map, Except.error.injEq] at this ⊢
      exact this
    | ok p' => rw [h2] at this; cases this
  | ok p =>
    rw [h1] at this
    cases h2 : parseDomain F .fresh t' with
    | error e' => rw [h2] at this; cases this
    | ok p' =>
      rw [h2] at this
      simp only [Except.map, Except.ok.injEq] at this ⊢
      rw [this, Domain.rename_comp, small_rename hc]

/-- The problems. -/
theorem C100_problem_partial {t t' : Str} (h : RespeltText t t') (hs : SpeltAlike t) (hs' : SpeltAlike t')
    (hl : LooseText t) (hl' : LooseText t') (F : FloatOf) :
    (parseProblem F [] t').map (fun p => p.1.rename smallLetters) =
      (parseProblem F [] t).map (fun p => p.1.rename smallLetters) := by
  obtain ⟨ρ, R, hr, hc⟩ := respelt_renaming h hs hs'
  have := C83_problem_partial R F hr hl hl'
  cases h1 : parseProblem F [] t with
  | error e =>
    rw [h1] at this
    cases h2 : parseProblem F [] t' with
    | error e' =>
      rw [h2] at this
      simp only [Except.map, Except.error.injEq] at this ⊢
      exact this
    | ok p' => rw [h2] at this; cases this
  | ok p =>
    rw [h1] at this
    cases h2 : parseProblem F [] t' with
    | error e' => rw [h2] at this; cases this
    | ok p' =>
      rw [h2] at this
      simp only [Except.map, Except.ok.injEq] at this ⊢
      rw [this, Problem.rename_comp, small_rename hc]

/-- The plans. -/
theorem C100_plan_partial {t t' : Str} (h : RespeltText t t') (hs : SpeltAlike t) (hs' : SpeltAlike t') :
    (parsePlan t').map (Plan.rename smallLetters) = (parsePlan t).map (Plan.rename smallLetters) := by
  obtain ⟨ρ, R, hr, hc⟩ := respelt_renaming h hs hs'
  rw [C83_plan R hr]
  cases parsePlan t with
  | error e => rfl
  | ok p =>
    simp only [Except.map, Except.ok.injEq]
    rw [Plan.rename_comp, small_rename hc]

/-- It is false for keywords. -/
theorem C100_fails : ¬ C100_full := by
  intro H
  have h1 : (parseDomain (fun _ => none) .fresh s%"(define (domain d))").toOption.isSome = true := by decide +kernel
  have h2 : (parseDomain (fun _ => none) .fresh s%"(DEFINE (domain d))").toOption.isSome = false := by decide +kernel
  have := (H (fun _ => none) s%"(define (domain d))" s%"(DEFINE (domain d))" (by unfold SameIgnoringCase; decide +kernel)).1 (by
    cases h : parseDomain (fun _ => none) .fresh s%"(define (domain d))" with
    | error e => rw [h] at h1; cases h1
    | ok r => exact ⟨r, rfl⟩)
  obtain ⟨r, hr⟩ := this
  rw [hr] at h2
  cases h2

def spelledText : Str := s%"(define (domain d) (:requirements :typing) (:types ball) (:predicates (p ?x - ball)))"
def mixedText : Str := s%"(define (domain d) (:requirements :typing) (:types Ball) (:predicates (p ?x - ball)))"
def capitalText : Str := s%"(define (domain D) (:requirements :typing) (:types Ball) (:predicates (P ?X - Ball)))"

def respeltTest (a b : Str) : Bool := decide ((lex a).length = (lex b).length) && ((lex a).zip (lex b)).all (fun p =>
  decide (p.1 = p.2) || match p with
    | (.name a, .name b) => decide (a.map Char.toLower = b.map Char.toLower)
    | _ => false)

theorem respelt_test {a b : Str} (h : respeltTest a b = true) : RespeltText a b := by
  unfold respeltTest at h
  simp only [Bool.and_eq_true, decide_eq_true_eq] at h
  refine List.forall₂_iff_zip.2 ⟨h.1, ?_⟩
  intro x y hm
  have := List.all_eq_true.1 h.2 (x, y) hm
  simp only [Bool.or_eq_true, decide_eq_true_eq] at this
  rcases this with e | e
  · rw [e]; exact .same _
  · split at e
    · rename_i heq
      simp only [Prod.mk.injEq] at heq
      rw [heq.1, heq.2]
      simp only [decide_eq_true_eq] at e
      exact .name e
    · cases e

theorem spelt_test {t : Str}
    (h1 : ∀ a ∈ textNames t, ∀ b ∈ textNames t, a.map Char.toLower = b.map Char.toLower → a = b)
    (h2 : ∀ a ∈ textNames t, ∀ w ∈ "number" :: reserved, a.map Char.toLower = w.toList.map Char.toLower → a = w.toList) :
    SpeltAlike t := by
  refine ⟨fun a b ha hb e => h1 a (mem_textNames.2 ha) b (mem_textNames.2 hb) e, ?_⟩
  rintro a w ha (⟨r, hr, rfl⟩ | rfl) e
  · exact h2 a (mem_textNames.2 ha) r (List.mem_cons_of_mem _ hr) e
  · exact h2 a (mem_textNames.2 ha) "number" (by simp) e

theorem loose_test {t : Str} (h : ∀ w ∈ textNames t, ∀ k ∈ gluing, ¬ (k.isPrefixOf w = true ∧ k.length < w.length)) :
    LooseText t := by
  intro w hw k hk c cs e
  refine absurd ⟨?_, ?_⟩ (h w (mem_textNames.2 hw) k hk)
  · rw [e]; simp
  · rw [e]; simp

/-- And for names: `Ball` and `ball` are different types. -/
theorem C100_fails_names : ∃ t t', RespeltText t t' ∧ SpeltAlike t ∧ LooseText t ∧ LooseText t' ∧
    (∃ r, parseDomain (fun _ => none) .fresh t = .ok r) ∧ ¬ ∃ r, parseDomain (fun _ => none) .fresh t' = .ok r := by
  have h1 : (parseDomain (fun _ => none) .fresh spelledText).toOption.isSome = true := by decide +kernel
  have h2 : (parseDomain (fun _ => none) .fresh mixedText).toOption.isSome = false := by decide +kernel
  refine ⟨spelledText, mixedText, respelt_test (by decide +kernel), spelt_test (by decide +kernel) (by decide +kernel),
    loose_test (by decide +kernel), loose_test (by decide +kernel), ?_, ?_⟩
  · cases h : parseDomain (fun _ => none) .fresh spelledText with
    | error e => rw [h] at h1; cases h1
    | ok r => exact ⟨r, rfl⟩
  · rintro ⟨r, hr⟩
    rw [hr] at h2
    cases h2

/-- The hypotheses of C100 hold for a domain in small letters and with capital letters, which are both accepted. -/
example : RespeltText spelledText capitalText ∧ SpeltAlike spelledText ∧ SpeltAlike capitalText ∧ LooseText spelledText ∧
    LooseText capitalText ∧ (match parseDomain (fun _ => none) .fresh capitalText with
      | .ok (d, _) => decide (d.name = s%"D" ∧ d.predicates = [⟨s%"P", [.var ⟨s%"X", [s%"Ball"]⟩]⟩])
      | .error _ => false) = true :=
  ⟨respelt_test (by decide +kernel), spelt_test (by decide +kernel) (by decide +kernel),
    spelt_test (by decide +kernel) (by decide +kernel), loose_test (by decide +kernel), loose_test (by decide +kernel),
    by decide +kernel⟩

end Pddl.Props
