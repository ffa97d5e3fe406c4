/-
C64: more requirements do no harm.
-/
import Verif.Proofs.MoreReqs
import Verif.Proofs.Raises

namespace Pddl.Props
open Spec Spec.Grammar

/-! ### C64 -/

/-- C64 for the constructor: `Domain(...)` with more requirements succeeds as well, and the domains differ
only in the requirements. -/
theorem C64_construct {a : DomainArgs} {d : Domain} (ht : IsDict a.types) (h : mkDomain a = .ok d) {rs : List Req}
    (hsub : ∀ r ∈ a.reqs, r ∈ rs) :
    ∃ d', mkDomain { a with reqs := rs } = .ok d' ∧ (∀ r, r ∈ d'.reqs ↔ r ∈ rs) ∧ d' = { d with reqs := d'.reqs } :=
  ⟨_, mkDomain_more ht hsub h, fun _ => mem_reqSet, rfl⟩

example : ∃ d, mkDomain { name := s%"d", reqs := [.adl], types := [(s%"t", none)], constants := [.const s%"c" (some s%"t")] } = .ok d := by
  cases h : mkDomain { name := s%"d", reqs := [.adl], types := [(s%"t", none)], constants := [.const s%"c" (some s%"t")] } with
  | ok d => exact ⟨d, rfl⟩
  | error e =>
    have : (mkDomain { name := s%"d", reqs := [.adl], types := [(s%"t", none)], constants := [.const s%"c" (some s%"t")] }).toOption.isSome = true := by
      decide +kernel
    rw [h] at this
    simp [Except.toOption] at this

theorem header_tail {k : Str} {t : Tree} {r r' : List Tree} {n : Str} {rest : List Tree}
    (h : header k (word s%"define" :: t :: r) = .ok (n, rest)) : rest = r ∧ header k (word s%"define" :: t :: r') = .ok (n, r') := by
  have hd : ∀ l, dropKeyword s%"define" (word s%"define" :: l) = some l := fun l => by simp [dropKeyword, word]
  unfold header at h ⊢
  rw [hd] at h ⊢
  simp only at h ⊢
  cases t with
  | atom x => simp at h
  | node l =>
    simp only at h ⊢
    split at h
    · rename_i n' hn
      simp only [pure_ok, Except.ok.injEq, Prod.mk.injEq] at h
      obtain ⟨rfl, rfl⟩ := h
      simp
    · simp at h

theorem takeSection_rest {k : Str} {o : Option (List Tree)} {rest : List Tree} (h : ∀ b, section_ k b ∉ rest) :
    takeSection k (optText k o ++ rest) = (o, rest) := by
  cases o with
  | some b => simp [optText, takeSection, section_]
  | none =>
    simp only [optText, List.nil_append]
    unfold takeSection
    split
    · rename_i k' body l
      rw [if_neg]
      rintro rfl
      exact h body (by simp [section_])
    · rfl

/-- C64 for texts. Let a text of a domain be accepted, with or without a section `(:requirements …)`. The same
text with a section that lists at least the same requirements is accepted as well; the domain has the listed
requirements and is otherwise the same. (A parser that is used again and a text without the section: the
requirements of the text before are still in force, C35; so then there must be none.) -/
theorem C64_text {F : FloatOf} {σ σ' : PState} {text text' : Str} {t : Tree} {rs : Option (List Tree)} {b rest : List Tree} {d : Domain}
    (ht : Brackets (lex text) [.node (word s%"define" :: t :: (optText s%"requirements" rs ++ rest))])
    (ht' : Brackets (lex text') [.node (word s%"define" :: t :: section_ s%"requirements" b :: rest)])
    (hrest : ∀ b, section_ s%"requirements" b ∉ rest)
    (hb : Requirements b) (hsub : ∀ r ∈ rs.getD [], r ∈ b) (hσ : rs = none → σ.ext = [])
    (h : parseDomain F σ text = .ok (d, σ')) :
    ∃ d' σ'', parseDomain F σ text' = .ok (d', σ'') ∧ ReqsWritten b d'.reqs ∧ d' = { d with reqs := d'.reqs } := by
  obtain ⟨ts, hr, h⟩ := parseDomain_ok h
  have hts := readText_brackets.2 ht
  rw [hr] at hts
  simp only [Except.ok.injEq, List.cons.injEq, Tree.node.injEq, and_true] at hts
  subst hts
  obtain ⟨P⟩ := domainDef_ok h
  obtain ⟨rs', hrs'⟩ := parseRequirements_of hb
  have hw := parseRequirements_written hrs'
  have hhead := P.hheader
  obtain ⟨h0, h1⟩ := header_tail (r' := section_ s%"requirements" b :: rest) hhead
  have hP1 := P.h1
  rw [h0, takeSection_rest hrest] at hP1
  simp only [Prod.mk.injEq] at hP1
  obtain ⟨e1, e2⟩ := hP1
  have hsub' : ∀ r ∈ P.rs, r ∈ rs' := by
    intro r hr'
    rcases P.hreqs with ⟨_, h2, _⟩ | ⟨c, h2, h3, _⟩
    · rw [h2] at hr'; simp at hr'
    · have := (parseRequirements_written h3 r).1 hr'
      rw [hw r]
      exact hsub _ (by rw [e1, h2]; exact this)
  obtain ⟨σ'', hd⟩ := P.more (fun w hw => readText_words hr (t := .node _) (by simp) hw) hrs' hsub'
    (fun e => hσ (e1.trans e)) (ts' := word s%"define" :: t :: section_ s%"requirements" b :: rest) (by rw [← e2]; exact h1)
  refine ⟨{ d with reqs := rs' }, σ'', ?_, hw, rfl⟩
  unfold parseDomain
  rw [readText_brackets.2 ht', ok_bind]
  exact hd

/-- A text without the section, and the same text with it: the hypotheses of `C64_text` hold. -/
def plainText : Str := s%"(define (domain d) (:predicates (p)) (:action a :parameters () :precondition (p) :effect (not (p))))"
def moreText : Str :=
  s%"(define (domain d) (:requirements :adl :fluents) (:predicates (p)) (:action a :parameters () :precondition (p) :effect (not (p))))"

example : ∃ t b rest d σ', Brackets (lex plainText) [.node (word s%"define" :: t :: (optText s%"requirements" none ++ rest))] ∧
    Brackets (lex moreText) [.node (word s%"define" :: t :: section_ s%"requirements" b :: rest)] ∧
    (∀ b, section_ s%"requirements" b ∉ rest) ∧ Requirements b ∧ parseDomain (fun _ => none) .fresh plainText = .ok (d, σ') := by
  have h : (parseDomain (fun _ => none) .fresh plainText).toOption.isSome = true := by decide +kernel
  cases h' : parseDomain (fun _ => none) .fresh plainText with
  | error e => rw [h'] at h; simp [Except.toOption] at h
  | ok r =>
    refine ⟨.node [word s%"domain", word s%"d"], [.atom (.kw s%"adl"), .atom (.kw s%"fluents")],
      [section_ s%"predicates" [.node [word s%"p"]],
       section_ s%"action" [word s%"a", .atom (.kw s%"parameters"), .node [], .atom (.kw s%"precondition"), .node [word s%"p"],
         .atom (.kw s%"effect"), .node [word s%"not", .node [word s%"p"]]]], r.1, r.2,
      readText_brackets.1 (by decide +kernel), readText_brackets.1 (by decide +kernel), ?_, ?_, rfl⟩
    · intro b hb
      simp [section_] at hb
    · have hr : ∃ rs, parseRequirements [.atom (.kw s%"adl"), .atom (.kw s%"fluents")] = .ok rs := ⟨_, rfl⟩
      obtain ⟨rs, hr⟩ := hr
      exact requirements_grammar hr

end Pddl.Props
