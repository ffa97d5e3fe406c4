/-
C71: the order of declarations in a domain text.
-/
import Verif.Proofs.RearrangedDomain
import Verif.Props.DerivedOrder
import Verif.Proofs.ActionText

namespace Pddl.Props
open Pddl Spec Spec.Grammar

/-- The full statement: the order of the declarations in a text does not matter. -/
def C71_full : Prop := ∀ (F : FloatOf) (text text' : Str) (t t' : Tree) (s s' : DomainSections),
  Brackets (lex text) [t] → Brackets (lex text') [t'] → s.Of t → s'.Of t' → SameDeclarations s s' →
  s.structures.Perm s'.structures → ∀ d σ, parseDomain F .fresh text = .ok (d, σ) →
  ∃ d' σ', parseDomain F .fresh text' = .ok (d', σ') ∧ d.pyEq d' = true

/-- The sections of an accepted text are determined. -/
theorem sections_unique {F : FloatOf} {σ : PState} {ts : List Tree} {d : Domain} {σ' : PState} (P : DomainParse F σ ts d σ')
    {s : DomainSections} (hs : s.Of (.node ts)) (hos : OnlyStructures s) : s = P.sections := by
  obtain ⟨h, hh, e⟩ := hs
  simp only [Tree.node.injEq] at e
  have h0 := (congrArg (header s%"domain") e).symm.trans P.hheader
  rw [header_of hh] at h0
  simp only [List.append_assoc, Except.ok.injEq, Prod.mk.injEq] at h0
  obtain ⟨e0, e1⟩ := h0
  have h1 := P.h1
  rw [← e1, takeSection_rest (by
    intro b hb
    simp only [List.mem_append] at hb
    rcases hb with hb | hb | hb | hb | hb
    · exact notin_optText (by decide) b hb
    · exact notin_optText (by decide) b hb
    · exact notin_optText (by decide) b hb
    · exact notin_optText (by decide) b hb
    · exact notin_structures hos (by decide) (by decide) b hb)] at h1
  simp only [Prod.mk.injEq] at h1
  obtain ⟨f1, e2⟩ := h1
  have h2 := P.h2
  rw [← e2, takeSection_rest (by
    intro b hb
    simp only [List.mem_append] at hb
    rcases hb with hb | hb | hb | hb
    · exact notin_optText (by decide) b hb
    · exact notin_optText (by decide) b hb
    · exact notin_optText (by decide) b hb
    · exact notin_structures hos (by decide) (by decide) b hb)] at h2
  simp only [Prod.mk.injEq] at h2
  obtain ⟨f2, e3⟩ := h2
  have h3 := P.h3
  rw [← e3, takeSection_rest (by
    intro b hb
    simp only [List.mem_append] at hb
    rcases hb with hb | hb | hb
    · exact notin_optText (by decide) b hb
    · exact notin_optText (by decide) b hb
    · exact notin_structures hos (by decide) (by decide) b hb)] at h3
  simp only [Prod.mk.injEq] at h3
  obtain ⟨f3, e4⟩ := h3
  have h4 := P.h4
  rw [← e4, takeSection_rest (by
    intro b hb
    simp only [List.mem_append] at hb
    rcases hb with hb | hb
    · exact notin_optText (by decide) b hb
    · exact notin_structures hos (by decide) (by decide) b hb)] at h4
  simp only [Prod.mk.injEq] at h4
  obtain ⟨f4, e5⟩ := h4
  have h5 := P.h5
  rw [← e5, takeSection_rest (notin_structures hos (by decide) (by decide))] at h5
  simp only [Prod.mk.injEq] at h5
  obtain ⟨f5, e6⟩ := h5
  obtain ⟨n, r1, r2, r3, r4, r5, st⟩ := s
  simp only [DomainParse.sections, DomainSections.mk.injEq]
  exact ⟨e0, f1, f2, f3, f4, f5, e6⟩

theorem onlyStructures {ts ts' : List Tree} (h : SameStructures ts ts') :
    ∀ t ∈ ts, (∃ b, t = section_ s%"derived" b) ∨ ∃ b, t = section_ s%"action" b := by
  obtain ⟨ds, as, _, _, rfl, _, _, _, hd, ha⟩ := h
  intro t ht
  rcases List.mem_append.1 ht with ht | ht
  · exact .inl (hd t ht)
  · exact .inr (ha t ht)

theorem domain_reqs_eq {F : FloatOf} {σ : PState} {ts : List Tree} {d : Domain} {σ' : PState} (P : DomainParse F σ ts d σ')
    (hw : ∀ w, Inside (.atom (.name w)) (.node ts) → nameRegex w = true) {rs : List Req} (h : ∀ r, r ∈ P.rs ↔ r ∈ rs) :
    d.pyEq { d with reqs := rs } = true := by
  obtain ⟨hT, _⟩ := DomainParse.types_ok P hw
  have hF : IsFunDict P.funs := by
    rcases P.hfuns with ⟨_, h⟩ | ⟨b, _, h⟩
    · rw [h]; exact List.Pairwise.nil
    · exact (functions_decl h).1
  obtain ⟨_, _, _, _, _, _, _, _, he⟩ := (mkDomain_ok (by exact hT)).1 P.hdomain
  have e1 : d.types = cleanDict P.types := congrArg Domain.types he
  have e2 : d.functions = P.funs := congrArg Domain.functions he
  have e3 : d.reqs = reqSet P.rs := congrArg Domain.reqs he
  have hr : d.pyEq d = true := Domain.pyEq_refl (by rw [e1]; exact cleanDict_isDict hT) (by rw [e2]; exact hF)
  simp only [Domain.pyEq, Bool.and_eq_true, decide_eq_true_eq, reqsEq_iff] at hr ⊢
  obtain ⟨⟨⟨⟨⟨⟨⟨h1, h2⟩, h3⟩, h4⟩, h5⟩, h6⟩, h7⟩, h8⟩ := hr
  refine ⟨⟨⟨⟨⟨⟨⟨h1, ?_⟩, h3⟩, h4⟩, h5⟩, h6⟩, h7⟩, h8⟩
  intro r
  rw [← h r, e3]
  exact mem_reqSet

/-- C71 for what is read from the texts. -/
theorem rearranged_trees {F : FloatOf} {σ : PState} (hσ : ParserState F σ) {ts ts' : List Tree} {s s' : DomainSections}
    (hw : ∀ w, Inside (.atom (.name w)) (.node ts) → nameRegex w = true)
    (hw' : ∀ w, Inside (.atom (.name w)) (.node ts') → nameRegex w = true)
    (hs : s.Of (.node ts)) (hs' : s'.Of (.node ts'))
    (hr : Rearranged s s') (hd : DistinctHeads s) {d : Domain} {σ1 : PState} (h : domainDef F σ ts = .ok (d, σ1)) :
    ∃ d' σ2, domainDef F σ ts' = .ok (d', σ2) ∧ d.pyEq d' = true := by
  obtain ⟨P⟩ := domainDef_ok h
  have hos : OnlyStructures s := onlyStructures hr.structures
  obtain rfl := sections_unique P hs hos
  have hreq := hr.reqs
  rcases h1 : P.r1 with _ | b
  · have : s'.reqs = none := by
      cases hb : s'.reqs with
      | none => rfl
      | some b' => rw [hb, show P.sections.reqs = none from h1] at hreq; exact absurd hreq (by simp [SameOpt])
    exact P.rearranged hσ.constsOk hw hw' hs' hr (by rw [this, h1]) hd
  · cases hb : s'.reqs with
    | none => rw [hb, show P.sections.reqs = some b from h1] at hreq; exact absurd hreq (by simp [SameOpt])
    | some b' =>
      rw [hb, show P.sections.reqs = some b from h1] at hreq
      have hbb : ∀ t, t ∈ b ↔ t ∈ b' := hreq
      have hP : parseRequirements b = .ok P.rs := by
        rcases P.hreqs with ⟨h2, _⟩ | ⟨c, h2, h3, _⟩
        · rw [h1] at h2; cases h2
        · rw [h1] at h2; cases h2; exact h3
      obtain ⟨hb1, hb2⟩ := requirements_grammar hP
      have hb' : Requirements b' := by
        refine ⟨?_, fun t ht => hb2 t ((hbb t).2 ht)⟩
        obtain ⟨x, hx⟩ := List.exists_mem_of_ne_nil _ hb1
        exact List.ne_nil_of_mem ((hbb x).1 hx)
      obtain ⟨rs', hrs'⟩ := parseRequirements_of hb'
      have hrs : ∀ r, r ∈ P.rs ↔ r ∈ rs' := by
        intro r
        rw [parseRequirements_written hP r, parseRequirements_written hrs' r, hbb]
      obtain ⟨hd0, hh0, e0⟩ := P.sections_of
      simp only [Tree.node.injEq] at e0
      have hts1 : P.ts1 = optText s%"types" P.r2 ++ optText s%"constants" P.r3 ++ optText s%"predicates" P.r4 ++
          optText s%"functions" P.r5 ++ P.ts5 := by
        rw [opt_text P.h2, opt_text P.h3, opt_text P.h4, opt_text P.h5]
        simp
      obtain ⟨σ2, h2⟩ := P.more hw (ts' := word s%"define" :: hd0 :: section_ s%"requirements" b' :: P.ts1) hrs'
        (fun r h => (hrs r).1 h) (fun e => by rw [h1] at e; cases e) (header_of hh0)
      obtain ⟨Q⟩ := domainDef_ok h2
      have hwQ : ∀ w, Inside (.atom (.name w)) (.node (word s%"define" :: hd0 :: section_ s%"requirements" b' :: P.ts1)) →
          nameRegex w = true := by
        intro w hi
        cases hi with
        | node hm hi =>
          simp only [List.mem_cons] at hm
          rcases hm with rfl | rfl | rfl | hm
          · exact hw w (.node (by rw [e0]; exact .head _) hi)
          · exact hw w (.node (by rw [e0]; exact .tail _ (.head _)) hi)
          · refine hw' w (.node (t := section_ s%"requirements" b') ?_ hi)
            obtain ⟨_, _, e'⟩ := hs'
            simp only [Tree.node.injEq] at e'
            rw [e', hb]
            simp [optText]
          · refine hw w (.node ?_ hi)
            rw [e0]
            refine .tail _ (.tail _ ?_)
            rw [hts1] at hm
            simp only [DomainParse.sections, List.append_assoc] at hm ⊢
            exact List.mem_append_right _ hm
      have hsQ : ({ P.sections with reqs := some b' } : DomainSections).Of
          (.node (word s%"define" :: hd0 :: section_ s%"requirements" b' :: P.ts1)) := by
        refine ⟨hd0, hh0, ?_⟩
        rw [hts1]
        simp [DomainParse.sections, optText]
      have eQ := sections_unique Q hsQ hos
      have hrQ : Rearranged Q.sections s' := by
        rw [← eQ]
        refine ⟨⟨hr.name, ?_, ?_, hr.constants, hr.predicates, hr.functions⟩, hr.structures⟩
        · rw [hb]; exact fun t => Iff.rfl
        · have := hr.types
          have ht : TypingIn P.sections.reqs = TypingIn (some b') := by
            simp only [TypingIn, DomainParse.sections, h1, Option.getD_some, hbb]
          rw [ht] at this
          exact this
      have hdQ : DistinctHeads Q.sections := by rw [← eQ]; exact hd
      obtain ⟨d', σ3, h3, h4⟩ := Q.rearranged hσ.constsOk hwQ hw' hs' hrQ
        (by rw [hb]; exact (congrArg DomainSections.reqs eQ).symm) hdQ
      exact ⟨d', σ3, h3, Domain.pyEq_trans (domain_reqs_eq P hw hrs) h4⟩

/-- C71: let a text of a domain be accepted, whose derived predicates stand before the actions. The text with the
requirements, types, constants, predicates, functions, derived predicates and actions in another order is accepted as
well, and the domains are equal. With typing this is also so if a supertype `object` is left out or added. Missing: a
derived predicate after an action (see `C71_fails`, and `C71_interleaved_partial` for the conditions under which it is
allowed); two declared predicates of the same name if there are derived
predicates (see `C71_fails_heads`). -/
theorem C71_partial {F : FloatOf} {σ : PState} (hσ : ParserState F σ) {text text' : Str} {t t' : Tree}
    {s s' : DomainSections} (ht : Brackets (lex text) [t]) (ht' : Brackets (lex text') [t']) (hs : s.Of t) (hs' : s'.Of t')
    (hr : Rearranged s s') (hd : DistinctHeads s) {d : Domain} {σ1 : PState} (h : parseDomain F σ text = .ok (d, σ1)) :
    ∃ d' σ2, parseDomain F σ text' = .ok (d', σ2) ∧ d.pyEq d' = true := by
  obtain ⟨ts, hrd, h⟩ := parseDomain_ok h
  have hrd' := readText_brackets.2 ht'
  have e : [t] = [.node ts] := by
    have := readText_brackets.2 ht
    rw [hrd] at this
    exact (Except.ok.inj this).symm
  simp only [List.cons.injEq, and_true] at e
  subst e
  obtain ⟨ts', rfl⟩ : ∃ ts', t' = .node ts' := by
    obtain ⟨h, _, e⟩ := hs'
    exact ⟨_, e⟩
  have hw : ∀ w, Inside (.atom (.name w)) (.node ts) → nameRegex w = true := fun w hw =>
    readText_words hrd (t := .node ts) (by simp) hw
  have hw' : ∀ w, Inside (.atom (.name w)) (.node ts') → nameRegex w = true := fun w hw =>
    readText_words hrd' (t := .node ts') (by simp) hw
  obtain ⟨d', σ2, H, he⟩ := rearranged_trees hσ hw hw' hs hs' hr hd h
  refine ⟨d', σ2, ?_, he⟩
  unfold parseDomain
  rw [hrd', ok_bind]
  exact H

/-- The relation is symmetric, so one text is accepted exactly if the other is. -/
theorem rearranged_symm {s s' : DomainSections} (h : Rearranged s s') : Rearranged s' s := by
  obtain ⟨⟨h1, h2, h3, h4, h5, h6⟩, h7⟩ := h
  have htyp : TypingIn s.reqs ↔ TypingIn s'.reqs := by
    cases ha : s.reqs <;> cases hb : s'.reqs <;> rw [ha, hb] at h2
    · exact h2.elim
    · exact h2.elim
    · have h2 : ∀ t, t ∈ _ ↔ t ∈ _ := h2
      simp only [TypingIn, Option.getD_some, h2]
  refine ⟨⟨h1.symm, sameOpt_symm (fun _ _ h t => (h t).symm) h2, ?_, ?_, ?_, ?_⟩, ?_⟩
  · rw [show TypingIn s.reqs = TypingIn s'.reqs from propext htyp] at h3
    refine sameOpt_symm ?_ h3
    rintro b b' ⟨l, l', g1, g2, g3, g4, g5⟩
    refine ⟨l', l, g2, g1, g4, g3, ?_⟩
    rcases g5 with g5 | ⟨g5, g6⟩
    · exact .inl g5.symm
    · exact .inr ⟨g5, g6.symm⟩
  · refine sameOpt_symm ?_ h4
    rintro b b' ⟨l, l', g1, g2, g3, g4, g5⟩
    exact ⟨l', l, g2, g1, g4, g3, g5.symm⟩
  · exact sameOpt_symm (fun _ _ h => h.symm) h5
  · refine sameOpt_symm ?_ h6
    rintro b b' ⟨l, l', g1, g2, g3, g4⟩
    exact ⟨l', l, g2, g1, fun p hp => g3 p (g4.mem_iff.2 hp), g4.symm⟩
  · obtain ⟨ds, as, ds', as', g1, g2, g3, g4, g5, g6⟩ := h7
    exact ⟨ds', as', ds, as, g2, g1, g3.symm, g4.symm, fun t ht => g5 t (g3.mem_iff.2 ht), fun t ht => g6 t (g4.mem_iff.2 ht)⟩

theorem distinctHeads_symm {s s' : DomainSections} (h : Rearranged s s') (hd : DistinctHeads s) : DistinctHeads s' := by
  rintro ⟨b, hb⟩
  have hex : ∃ b, section_ s%"derived" b ∈ s.structures := by
    obtain ⟨ds, as, ds', as', g1, g2, g3, g4, g5, g6⟩ := h.structures
    rw [g2] at hb
    rcases List.mem_append.1 hb with hb | hb
    · exact ⟨b, by rw [g1]; exact List.mem_append_left _ (g3.mem_iff.2 hb)⟩
    · exact ⟨b, by rw [g1]; exact List.mem_append_right _ (g4.mem_iff.2 hb)⟩
  have := hd hex
  have h5 := h.predicates
  cases ha : s.predicates <;> cases hb : s'.predicates <;> rw [ha, hb] at h5
  · simp
  · exact h5.elim
  · exact h5.elim
  · rw [ha] at this
    have h5 : List.Perm _ _ := h5
    exact (h5.map _).nodup_iff.1 this

theorem C71_accepted {F : FloatOf} {σ : PState} (hσ : ParserState F σ) {text text' : Str} {t t' : Tree}
    {s s' : DomainSections} (ht : Brackets (lex text) [t]) (ht' : Brackets (lex text') [t']) (hs : s.Of t) (hs' : s'.Of t')
    (hr : Rearranged s s') (hd : DistinctHeads s) :
    (∃ r, parseDomain F σ text = .ok r) ↔ ∃ r, parseDomain F σ text' = .ok r := by
  constructor
  · rintro ⟨r, h⟩
    obtain ⟨d', σ2, h, _⟩ := C71_partial hσ ht ht' hs hs' hr hd (d := r.1) (σ1 := r.2) h
    exact ⟨_, h⟩
  · rintro ⟨r, h⟩
    obtain ⟨d', σ2, h, _⟩ := C71_partial hσ ht' ht hs' hs (rearranged_symm hr) (distinctHeads_symm hr hd) (d := r.1) (σ1 := r.2) h
    exact ⟨_, h⟩

/-! ### A case -/

def orderText : Str := s%"(define (domain d) (:requirements :typing :fluents :strips) (:types a b - object c) (:constants x - a y) (:predicates (p ?u - a) (q)) (:functions (f) - number (g ?u)) (:derived (q) (p x)) (:derived (p ?v) (q)) (:action one :parameters (?u - a) :precondition (p ?u) :effect (q)) (:action two :parameters () :precondition (q) :effect (not (q))))"
def otherText : Str := s%"(define (domain d) (:requirements :strips :typing :typing :fluents) (:types c a b) (:constants x - a y) (:predicates (q) (p ?u - a)) (:functions (f) - number (g ?u)) (:derived (p ?v) (q)) (:derived (q) (p x)) (:action two :parameters () :precondition (q) :effect (not (q))) (:action one :parameters (?u - a) :precondition (p ?u) :effect (q)))"

private def v (n : Str) : List Tree := [.atom .qmark, word n]
private def kw (k : Str) : Tree := .atom (.kw k)

def orderSections : DomainSections where
  name := s%"d"
  reqs := some [kw s%"typing", kw s%"fluents", kw s%"strips"]
  types := some (⟨[([s%"a", s%"b"], s%"object")], [s%"c"]⟩ : NameList).text
  constants := some (⟨[([s%"x"], s%"a")], [s%"y"]⟩ : NameList).text
  predicates := some [.node (word s%"p" :: v s%"u" ++ [.atom .minus, word s%"a"]), .node [word s%"q"]]
  functions := some ([.node [word s%"f"]] ++ .atom .minus :: word s%"number" :: [.node (word s%"g" :: v s%"u")])
  structures :=
    [section_ s%"derived" [.node [word s%"q"], .node [word s%"p", word s%"x"]],
     section_ s%"derived" [.node (word s%"p" :: v s%"v"), .node [word s%"q"]]] ++
    [section_ s%"action" [word s%"one", kw s%"parameters", .node (v s%"u" ++ [.atom .minus, word s%"a"]),
       kw s%"precondition", .node (word s%"p" :: v s%"u"), kw s%"effect", .node [word s%"q"]],
     section_ s%"action" [word s%"two", kw s%"parameters", .node [],
       kw s%"precondition", .node [word s%"q"], kw s%"effect", .node [word s%"not", .node [word s%"q"]]]]

def otherSections : DomainSections where
  name := s%"d"
  reqs := some [kw s%"strips", kw s%"typing", kw s%"typing", kw s%"fluents"]
  types := some (⟨[], [s%"c", s%"a", s%"b"]⟩ : NameList).text
  constants := some (⟨[([s%"x"], s%"a")], [s%"y"]⟩ : NameList).text
  predicates := some [.node [word s%"q"], .node (word s%"p" :: v s%"u" ++ [.atom .minus, word s%"a"])]
  functions := some ([.node [word s%"f"]] ++ .atom .minus :: word s%"number" :: [.node (word s%"g" :: v s%"u")])
  structures :=
    [section_ s%"derived" [.node (word s%"p" :: v s%"v"), .node [word s%"q"]],
     section_ s%"derived" [.node [word s%"q"], .node [word s%"p", word s%"x"]]] ++
    [section_ s%"action" [word s%"two", kw s%"parameters", .node [],
       kw s%"precondition", .node [word s%"q"], kw s%"effect", .node [word s%"not", .node [word s%"q"]]],
     section_ s%"action" [word s%"one", kw s%"parameters", .node (v s%"u" ++ [.atom .minus, word s%"a"]),
       kw s%"precondition", .node (word s%"p" :: v s%"u"), kw s%"effect", .node [word s%"q"]]]

/-- The hypotheses of C71 hold for the two texts. -/
example : ∃ t t', Brackets (lex orderText) [t] ∧ Brackets (lex otherText) [t'] ∧ orderSections.Of t ∧ otherSections.Of t' ∧
    Rearranged orderSections otherSections ∧ DistinctHeads orderSections ∧
    (parseDomain (fun _ => none) .fresh orderText).toOption.isSome = true := by
  refine ⟨.node (treesOf orderText), .node (treesOf otherText), readText_brackets.1 (by decide +kernel),
    readText_brackets.1 (by decide +kernel), ⟨.node [word s%"domain", word s%"d"], ⟨_, rfl, .word _⟩, by decide +kernel⟩,
    ⟨.node [word s%"domain", word s%"d"], ⟨_, rfl, .word _⟩, by decide +kernel⟩, ⟨⟨rfl, ?_, ?_, ?_, ?_, ?_⟩, ?_⟩, ?_,
    by decide +kernel⟩
  · intro t
    simp only [List.mem_cons, List.not_mem_nil, or_false]
    tauto
  · exact ⟨_, _, rfl, rfl, by simp [NoEmptyGroup], by simp [NoEmptyGroup], .inr ⟨.inl (by decide +kernel), by decide +kernel⟩⟩
  · exact ⟨_, _, rfl, rfl, by simp [NoEmptyGroup], by simp [NoEmptyGroup], .refl _⟩
  · exact List.Perm.swap _ _ _
  · refine ⟨_, _, .group (by simp) (.rest _), .group (by simp) (.rest _), ?_, .refl _⟩
    intro p hp
    simp only [List.map_cons, List.map_nil, List.cons_append, List.nil_append, List.mem_cons, List.not_mem_nil, or_false] at hp
    rcases hp with rfl | rfl
    · exact ⟨_, rfl⟩
    · exact ⟨_, rfl⟩
  · refine ⟨_, _, _, _, rfl, rfl, List.Perm.swap _ _ _, List.Perm.swap _ _ _, ?_, ?_⟩
    · simp [section_]
    · simp [section_]
  · intro _
    decide +kernel

/-! ### Where it fails -/

def staleSections (st : List Tree) : DomainSections where
  name := s%"d"
  reqs := some [kw s%"typing"]
  types := some [word s%"t"]
  constants := none
  predicates := some [.node (word s%"p" :: v s%"x"), .node [word s%"q"]]
  functions := none
  structures := st

theorem types_same_text (p : Prop) (ns : List Str) : SameTypesText p (ns.map word) (ns.map word) :=
  ⟨⟨[], ns⟩, ⟨[], ns⟩, rfl, rfl, by simp [NoEmptyGroup], by simp [NoEmptyGroup], .inl (.refl _)⟩

/-- C71 fails: a derived predicate after an action, and before it. -/
theorem C71_fails : ¬ C71_full := by
  intro H
  have h1 : ((parseDomain (fun _ => none) .fresh cleanText).toOption.bind (fun r =>
      (parseDomain (fun _ => none) .fresh staleText).toOption.map (fun r' => r.1.pyEq r'.1))) = some false := by decide +kernel
  cases hp : parseDomain (fun _ => none) .fresh cleanText with
  | error e => rw [hp] at h1; simp [Except.toOption] at h1
  | ok r =>
    obtain ⟨d', σ', h2, h3⟩ := H (fun _ => none) cleanText staleText (.node (treesOf cleanText)) (.node (treesOf staleText))
      (staleSections ((treesOf cleanText).drop 5)) (staleSections ((treesOf staleText).drop 5))
      (readText_brackets.1 (by decide +kernel)) (readText_brackets.1 (by decide +kernel))
      ⟨.node [word s%"domain", word s%"d"], ⟨_, rfl, .word _⟩, by decide +kernel⟩
      ⟨.node [word s%"domain", word s%"d"], ⟨_, rfl, .word _⟩, by decide +kernel⟩
      ⟨rfl, fun _ => Iff.rfl, types_same_text _ [s%"t"], trivial, List.Perm.refl _, trivial⟩
      (by decide +kernel) r.1 r.2 hp
    rw [hp, h2] at h1
    simp only [Except.toOption, Option.bind_some, Option.map_some, Option.some.injEq] at h1
    rw [h1] at h3
    cases h3

def headsText : Str := s%"(define (domain d) (:requirements :typing) (:types t u) (:predicates (p ?x - u) (p ?x - t) (q)) (:derived (p ?x - t) (q)))"
def headsText' : Str := s%"(define (domain d) (:requirements :typing) (:types t u) (:predicates (p ?x - t) (p ?x - u) (q)) (:derived (p ?x - t) (q)))"

def headsSections (a b : Str) : DomainSections where
  name := s%"d"
  reqs := some [kw s%"typing"]
  types := some [word s%"t", word s%"u"]
  constants := none
  predicates := some [.node (word s%"p" :: v s%"x" ++ [.atom .minus, word a]),
    .node (word s%"p" :: v s%"x" ++ [.atom .minus, word b]), .node [word s%"q"]]
  functions := none
  structures := [section_ s%"derived" [.node (word s%"p" :: v s%"x" ++ [.atom .minus, word s%"t"]), .node [word s%"q"]]]

/-- With two predicates of the same name, a derived predicate is compared with the last one: the first text is accepted,
the second is not. -/
theorem C71_fails_heads : ∃ (text text' : Str) (t t' : Tree) (s s' : DomainSections),
    Brackets (lex text) [t] ∧ Brackets (lex text') [t'] ∧ s.Of t ∧ s'.Of t' ∧ Rearranged s s' ∧
    (∃ r, parseDomain (fun _ => none) .fresh text = .ok r) ∧ ¬ ∃ r, parseDomain (fun _ => none) .fresh text' = .ok r := by
  have h1 : (parseDomain (fun _ => none) .fresh headsText).toOption.isSome = true := by decide +kernel
  have h2 : (parseDomain (fun _ => none) .fresh headsText').toOption.isSome = false := by decide +kernel
  refine ⟨headsText, headsText', .node (treesOf headsText), .node (treesOf headsText'), headsSections s%"u" s%"t",
    headsSections s%"t" s%"u", readText_brackets.1 (by decide +kernel), readText_brackets.1 (by decide +kernel),
    ⟨.node [word s%"domain", word s%"d"], ⟨_, rfl, .word _⟩, by decide +kernel⟩,
    ⟨.node [word s%"domain", word s%"d"], ⟨_, rfl, .word _⟩, by decide +kernel⟩,
    ⟨⟨rfl, fun _ => Iff.rfl, types_same_text _ [s%"t", s%"u"], trivial, List.Perm.swap _ _ _, trivial⟩,
      ⟨_, [], _, [], (List.append_nil _).symm, (List.append_nil _).symm, List.Perm.refl _, List.Perm.refl _, by simp [headsSections, section_], by simp⟩⟩,
    ?_, ?_⟩
  · cases h : parseDomain (fun _ => none) .fresh headsText with
    | error e => rw [h] at h1; simp [Except.toOption] at h1
    | ok r => exact ⟨r, rfl⟩
  · rintro ⟨r, h⟩
    rw [h] at h2
    simp [Except.toOption] at h2

/-! ### The type `object`, anywhere in the list of types -/

/-- C49, second half: in a domain with typing, a supertype `object` in the list of types can be left out or added,
anywhere; the domain is the same. -/
theorem C49_types (F : FloatOf) (σ : PState) (l l' : NameList) (hn : NoEmptyGroup l) (hn' : NoEmptyGroup l')
    (hl : l.pairs.map objectless = l'.pairs.map objectless) {text text' : Str} {h reqs rest : List Tree}
    (ht : TypesText text h reqs l.text rest) (ht' : TypesText text' h reqs l'.text rest) (r : Domain × PState) :
    parseDomain F σ text' = .ok r ↔ parseDomain F σ text = .ok r := by
  have hw : ∀ {text} {m : NameList}, TypesText text h reqs m.text rest → ∀ w, .atom (.name w) ∈ m.text → nameRegex w = true := by
    intro text m ht w hw
    refine readText_words ht.read (List.mem_singleton.2 rfl) ?_
    refine .node (t := .node (.atom (.kw s%"types") :: m.text)) (by simp) (.node (t := .atom (.name w)) (by simp [hw]) .refl)
  have hf : (fun p : Str × Option Str => if p.2 = some s%"object" then (p.1, none) else p) = objectless := by
    funext p
    unfold objectless
    split <;> rfl
  have step : ∀ {m m' : NameList} {x x' : Str}, TypesText x h reqs m.text rest → TypesText x' h reqs m'.text rest →
      NoEmptyGroup m' → m.pairs.map objectless = m'.pairs.map objectless → ∀ (σ : PState) r, Req.typing ∈ σ.ext →
      sectionTypes σ m.text = .ok r → sectionTypes σ m'.text = .ok r := by
    intro m m' x x' hx hx' hne he σ r htyp hsec
    unfold sectionTypes at hsec ⊢
    obtain ⟨d, h1, hsec⟩ := bind_ok_iff.1 hsec
    obtain ⟨k, hk, hkt, rfl⟩ := (parseTypedNames_iff (hw hx)).1 h1
    obtain rfl : m = k := text_inj hkt
    rw [(parseTypedNames_iff (hw hx')).2 ⟨m', nameList_ok hk (by rw [he]) hne, rfl, rfl⟩, ok_bind]
    simp only [htyp, decide_true, Bool.not_true, Bool.and_false, Bool.not_false] at hsec ⊢
    rw [hf] at hsec ⊢
    rw [← he]
    exact hsec
  unfold parseDomain
  rw [ht.read, ht'.read]
  simp only [ok_bind]
  constructor
  · intro hd
    exact swap_types (fun q r hq h => step ht' ht hn hl.symm _ r (typing_ext hq ht.typing) h) hd
  · intro hd
    exact swap_types (fun q r hq h => step ht ht' hn' hl _ r (typing_ext hq ht.typing) h) hd

/-- A list of types with `object` in the middle, and without it. -/
example : (⟨[([s%"a", s%"b"], s%"object"), ([s%"c"], s%"a")], [s%"e"]⟩ : NameList).pairs.map objectless =
    (⟨[([s%"a", s%"b"], s%"object"), ([s%"c"], s%"a"), ([s%"e"], s%"object")], []⟩ : NameList).pairs.map objectless ∧
    TypesText s%"(define (domain d) (:requirements :typing) (:types a b - object c - a e))"
      [word s%"domain", word s%"d"] [.atom (.kw s%"typing")]
      (⟨[([s%"a", s%"b"], s%"object"), ([s%"c"], s%"a")], [s%"e"]⟩ : NameList).text [] ∧
    TypesText s%"(define (domain d) (:requirements :typing) (:types a b - object c - a e - object))"
      [word s%"domain", word s%"d"] [.atom (.kw s%"typing")]
      (⟨[([s%"a", s%"b"], s%"object"), ([s%"c"], s%"a"), ([s%"e"], s%"object")], []⟩ : NameList).text [] ∧
    (parseDomain (fun _ => none) .fresh
      s%"(define (domain d) (:requirements :typing) (:types a b - object c - a e))").toOption.isSome = true :=
  ⟨by decide +kernel, ⟨by decide +kernel, by simp⟩, ⟨by decide +kernel, by simp⟩, by decide +kernel⟩

end Pddl.Props
