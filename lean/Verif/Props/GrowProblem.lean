/-
C93: adding objects and facts to a problem changes nothing else.
-/
import Verif.Proofs.GrowProblem
import Verif.Proofs.DecEq

namespace Pddl.Props
open Spec Spec.Rules Spec.Grammar Rules

/-! ### C93 -/

theorem parseProblem_sections {F : FloatOf} {text : Str} {t : Tree} {s : ProblemSections} {r : Problem × List (Str × Term)}
    (ht : Brackets (lex text) [t]) (hs : s.Of t) :
    ∃ ts, t = .node ts ∧ (parseProblem F [] text = .ok r ↔ problemDef F [] ts = .ok r) := by
  have hr := readText_brackets.2 ht
  obtain ⟨_, _, e⟩ := id hs
  subst e
  refine ⟨_, rfl, ?_⟩
  unfold parseProblem
  rw [hr, ok_bind]

/-- C93 for texts. Let a problem text be accepted, and let a second text have the same objects with the same types and
the same facts, and further ones, in any order. Then the second text is accepted, and its problem contains the other
one: name, domain, requirements, goal and metric are the same, all objects are there with their types, and all facts. -/
theorem C93_text {F : FloatOf} {text text' : Str} {t t' : Tree} {s s' : ProblemSections} {l l' : NameList} {p : Problem}
    {σ : List (Str × Term)} (ht : Brackets (lex text) [t]) (hs : s.Of t) (hl : s.Declares l)
    (ht' : Brackets (lex text') [t']) (hs' : s'.Of t') (hl' : s'.Declares l') (H : AddsTo F s s' l l')
    (h : parseProblem F [] text = .ok (p, σ)) :
    ∃ p' σ', parseProblem F [] text' = .ok (p', σ') ∧ ProblemContains p' p := by
  obtain ⟨ts, rfl, h1⟩ := parseProblem_sections (F := F) (r := (p, σ)) ht hs
  obtain ⟨ts', e, -⟩ := parseProblem_sections (F := F) (r := (p, σ)) ht' hs'
  subst e
  obtain ⟨p', σ', h2, h3⟩ := problemDef_grow hs hs' hl hl' H (h1.1 h)
  obtain ⟨us, e, h4⟩ := parseProblem_sections (F := F) (r := (p', σ')) ht' hs'
  injection e with e
  subst e
  exact ⟨p', σ', h4.2 h2, h3⟩

theorem untyped_wellTyped {dec : Str → Prop} {rs : List Req} {t : Term} (h : t.tags = []) : WellTypedTerm dec rs t :=
  ⟨by simp [h], fun k => absurd h k⟩

/-- What a problem that was read must satisfy to fit a domain: facts add nothing. -/
theorem fits_read {F : FloatOf} {ts : List Tree} {s : ProblemSections} {l : NameList} {p : Problem} {σ : List (Str × Term)}
    {d : Domain} (hs : s.Of (.node ts)) (hl : s.Declares l) (h : problemDef F [] ts = .ok (p, σ)) :
    Fits p d ↔ SameIgnoringCase p.domainName d.name ∧ (∀ rs, p.reqs_ = some rs → ∀ r ∈ rs, r ∈ d.reqs) ∧
      (∀ x ∈ l.pairs, ∀ ty, x.2 = some ty → Declared d.types ty ∧ HasTyping d.reqs) ∧
      WellTyped (Declared d.types) d.reqs p.goal := by
  obtain ⟨reqs, init, goal, metric, h1, h3, h4, h5, h7, rfl⟩ := problemDef_declares hs hl h
  have hob : (∀ x ∈ l.pairs, ∀ ty, x.2 = some ty → Declared d.types ty ∧ HasTyping d.reqs) ↔
      ∀ t ∈ (constsOf l).map Prod.snd, WellTypedTerm (Declared d.types) d.reqs t := by
    simp only [constsOf, List.map_map, List.mem_map]
    constructor
    · rintro H t ⟨⟨n, x⟩, hx, rfl⟩
      cases x with
      | none => exact untyped_wellTyped rfl
      | some ty =>
        obtain ⟨k1, k2⟩ := H _ hx ty rfl
        exact ⟨by simpa [Function.comp, Term.tags] using k1, fun _ => k2⟩
    · rintro H ⟨n, x⟩ hx ty e
      cases e
      obtain ⟨k1, k2⟩ := H _ ⟨_, hx, rfl⟩
      exact ⟨k1 ty (by simp [Function.comp, Term.tags]), k2 (by simp [Function.comp, Term.tags])⟩
  rw [hob]
  constructor
  · intro k
    refine ⟨k.name, k.reqs, ?_, k.goal⟩
    have := k.objects
    simp only [problemOf] at this
    rwa [constsOf_dedup hl.2] at this
  · rintro ⟨k1, k2, k3, k4⟩
    refine ⟨k1, k2, ?_, ?_, k4⟩
    · intro t ht
      exact k3 t (dedupBy_subset ht)
    · intro e he u hu
      obtain ⟨t, ht, h⟩ := forall₂_right (mapM_ok_iff.1 h3) e (dedupBy_subset he)
      rcases initEl_bare h u hu with hu | hu
      · exact k3 u hu
      · exact untyped_wellTyped hu

/-- C93 for the check: the second problem fits a domain exactly if the first one does and the types of the new objects
are declared. New facts cannot make the check fail. -/
theorem C93_check {F : FloatOf} {text text' : Str} {t t' : Tree} {s s' : ProblemSections} {l l' : NameList} {p p' : Problem}
    {σ σ' : List (Str × Term)} {d : Domain} (hd : ExistsDomain d)
    (ht : Brackets (lex text) [t]) (hs : s.Of t) (hl : s.Declares l)
    (ht' : Brackets (lex text') [t']) (hs' : s'.Of t') (hl' : s'.Declares l') (H : AddsTo F s s' l l')
    (h : parseProblem F [] text = .ok (p, σ)) (h' : parseProblem F [] text' = .ok (p', σ')) :
    p'.check d = .ok () ↔
      p.check d = .ok () ∧ ∀ x ∈ l'.pairs, x ∉ l.pairs → ∀ ty, x.2 = some ty → Declared d.types ty ∧ HasTyping d.reqs := by
  obtain ⟨p2, σ2, h2, C⟩ := C93_text ht hs hl ht' hs' hl' H h
  rw [h'] at h2
  simp only [Except.ok.injEq, Prod.mk.injEq] at h2
  obtain ⟨rfl, _⟩ := h2
  obtain ⟨ts, rfl, h1⟩ := parseProblem_sections (F := F) (r := (p, σ)) ht hs
  obtain ⟨ts', rfl, h1'⟩ := parseProblem_sections (F := F) (r := (p', σ')) ht' hs'
  rw [problemCheck_ok hd, problemCheck_ok hd, fits_read hs hl (h1.1 h), fits_read hs' hl' (h1'.1 h')]
  have e1 : p'.domainName = p.domainName := by
    simp only [Problem.domainName, C.domain, C.domainName]
  rw [e1, C.reqs, C.goal]
  constructor
  · rintro ⟨k1, k2, k3, k4⟩
    exact ⟨⟨k1, k2, (fun x hx => k3 x (H.objects x hx)), k4⟩, fun x hx _ => k3 x hx⟩
  · rintro ⟨⟨k1, k2, k3, k4⟩, k5⟩
    refine ⟨k1, k2, fun x hx => ?_, k4⟩
    by_cases hm : x ∈ l.pairs
    · exact k3 x hm
    · exact k5 x hx hm

/-- C93 for plans: what is a plan for a problem is one for a problem that contains it. -/
theorem C93_plan {p p' : Problem} {d : Domain} {pl : Plan} (C : ProblemContains p' p) (h : pl.check d p = .ok ()) :
    pl.check d p' = .ok () := by
  rw [planCheck_ok] at h ⊢
  intro s hs
  obtain ⟨a, h1, h2, h3⟩ := h s hs
  refine ⟨a, h1, h2, fun t ht => ?_⟩
  obtain ⟨o, ho, e⟩ := h3 t ht
  rcases List.mem_append.1 ho with ho | ho
  · exact ⟨o, List.mem_append_left _ (C.objects o ho), e⟩
  · exact ⟨o, List.mem_append_right _ ho, e⟩

/-! ### A case -/

/-- A problem. -/
def fewProblem : Str := s%"(define (problem p) (:domain d) (:objects a b - t) (:init (q a) (= (f a) 1)) (:goal (q b)))"

/-- The same with another object, and with facts before and after the others. -/
def moreProblem : Str :=
  s%"(define (problem p) (:domain d) (:objects c - u b a - t) (:init (q c) (= (f a) 1) (q a) (not (q b))) (:goal (q b)))"

def fewSections : ProblemSections :=
  { name := s%"p", domain := s%"d", reqs := none
    objects := some [word s%"a", word s%"b", .atom .minus, word s%"t"]
    init := [.node [word s%"q", word s%"a"], .node [.atom .eq, .node [word s%"f", word s%"a"], .atom (.num s%"1")]]
    goal := .node [word s%"q", word s%"b"], metric := none }

def moreSections : ProblemSections :=
  { fewSections with
    objects := some [word s%"c", .atom .minus, word s%"u", word s%"b", word s%"a", .atom .minus, word s%"t"]
    init := [.node [word s%"q", word s%"c"], .node [.atom .eq, .node [word s%"f", word s%"a"], .atom (.num s%"1")],
      .node [word s%"q", word s%"a"], .node [word s%"not", .node [word s%"q", word s%"b"]]] }

def fewNames : NameList := ⟨[([s%"a", s%"b"], s%"t")], []⟩
def moreNames : NameList := ⟨[([s%"c"], s%"u"), ([s%"b", s%"a"], s%"t")], []⟩

theorem few_of : ∃ t, Brackets (lex fewProblem) [t] ∧ fewSections.Of t :=
  ⟨.node (word s%"define" :: .node [word s%"problem", word s%"p"] :: section_ s%"domain" [word s%"d"] ::
      (optText s%"requirements" fewSections.reqs ++ optText s%"objects" fewSections.objects ++
        section_ s%"init" fewSections.init :: section_ s%"goal" [fewSections.goal] ::
          optText s%"metric" fewSections.metric)),
    readText_brackets.1 (by decide +kernel), _, ⟨_, rfl, .word _⟩, rfl⟩

theorem more_of : ∃ t, Brackets (lex moreProblem) [t] ∧ moreSections.Of t :=
  ⟨.node (word s%"define" :: .node [word s%"problem", word s%"p"] :: section_ s%"domain" [word s%"d"] ::
      (optText s%"requirements" moreSections.reqs ++ optText s%"objects" moreSections.objects ++
        section_ s%"init" moreSections.init :: section_ s%"goal" [moreSections.goal] ::
          optText s%"metric" moreSections.metric)),
    readText_brackets.1 (by decide +kernel), _, ⟨_, rfl, .word _⟩, rfl⟩

theorem few_declares : fewSections.Declares fewNames := by
  refine ⟨rfl, by decide, fun x hx => parseName_iff.1 ?_, fun x hx => ((parseType_ok (t := x.2)).1 ?_).2, by decide⟩
  · revert x; decide +kernel
  · revert x; decide +kernel

theorem more_declares : moreSections.Declares moreNames := by
  refine ⟨rfl, by decide, fun x hx => parseName_iff.1 ?_, fun x hx => ((parseType_ok (t := x.2)).1 ?_).2, by decide⟩
  · revert x; decide +kernel
  · revert x; decide +kernel

theorem more_adds : AddsTo (fun _ => none) fewSections moreSections fewNames moreNames := by
  refine ⟨rfl, rfl, rfl, rfl, rfl, by decide, by decide +kernel, fun t ht => ?_⟩
  refine (initIn_iff (σ := []) (fun n t h => by cases h)).1 ?_
  have : ∀ t ∈ moreSections.init, (initEl (fun _ => none) [] t).isOk = true := by decide +kernel
  have := this t ht
  cases h : initEl (fun _ => none) [] t with
  | ok e => exact ⟨e, rfl⟩
  | error e => rw [h] at this; cases this

/-- The first text is accepted, hence so is the second. -/
example : ∃ p p' σ σ', parseProblem (fun _ => none) [] fewProblem = .ok (p, σ) ∧
    parseProblem (fun _ => none) [] moreProblem = .ok (p', σ') ∧ ProblemContains p' p := by
  obtain ⟨t, ht, hs⟩ := few_of
  obtain ⟨t', ht', hs'⟩ := more_of
  have h : (parseProblem (fun _ => none) [] fewProblem).isOk = true := by decide +kernel
  cases h1 : parseProblem (fun _ => none) [] fewProblem with
  | error e => rw [h1] at h; cases h
  | ok r =>
    obtain ⟨p', σ', h2, h3⟩ := C93_text ht hs few_declares ht' hs' more_declares more_adds h1
    exact ⟨_, p', _, σ', rfl, h2, h3⟩

end Pddl.Props
