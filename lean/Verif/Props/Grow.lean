/-
C84: declaring more changes nothing else.
-/
import Verif.Proofs.GrowDom
import Verif.Proofs.Problem
import Verif.Props.Accepted

namespace Pddl.Props
open Spec Spec.Rules Spec.Grammar

/-! ### C84 -/

/-- C84 for texts. Let a domain text be accepted, and let a second text declare what the first declares and more:
requirements, types, constants, predicates and functions anywhere in their sections, and actions and derived
predicates after those of the first text. If the new declarations obey the rules and have new names, then the
second text is accepted, and the domain contains the other domain: its actions, derived predicates, predicates
and constants are the same. -/
theorem C84_text {F : FloatOf} {text text' : Str} {t t' : Tree} {s s' : DomainSections} {D D' : Decls} {more : List Tree}
    (ht : Brackets (lex text) [t]) (hs : s.Of t) (h : SectionsIn F s D)
    (ht' : Brackets (lex text') [t']) (hs' : s'.Of t') (h' : DeclarationsIn F s' D')
    (H : DeclaresMore s s' D D' more) (hm : ∀ ps, StructuresIn F D' ps more)
    (hn : ∀ t ∈ more, ∀ u ∈ s.structures, ∀ n, actionName t = some n → actionName u ≠ some n) :
    ∃ d d' σ σ', parseDomain F .fresh text = .ok (d, σ) ∧ parseDomain F .fresh text' = .ok (d', σ') ∧ Contains d' d := by
  have hr := readText_brackets.2 ht
  have hr' := readText_brackets.2 ht'
  obtain ⟨_, _, e⟩ := id hs
  subst e
  obtain ⟨_, _, e⟩ := id hs'
  subst e
  obtain ⟨d, d', σ, σ', h1, h2, h3⟩ := Rules.declares_more (fun w hi => readText_words hr (by simp) hi)
    (fun w hi => readText_words hr' (by simp) hi) hs hs' h h' H hm hn
  refine ⟨d, d', σ, σ', ?_, ?_, h3⟩
  · unfold parseDomain
    rw [hr, ok_bind]
    exact h1
  · unfold parseDomain
    rw [hr', ok_bind]
    exact h2

theorem lastNamed_contains {d d' : Domain} (H : Contains d' d) {n : Str} {a : Action} (h : lastNamed n d.actions = some a) :
    lastNamed n d'.actions = some a := by
  have hn : n ∈ d.actions.map Action.name := by
    obtain ⟨h1, h2⟩ := lastNamed_mem h
    exact List.mem_map.2 ⟨a, h1, h2⟩
  unfold lastNamed at *
  rw [← h]
  conv_rhs => rw [← H.actions, ← List.filter_reverse, List.find?_filter]
  congr 1
  funext q
  rw [Bool.eq_iff_iff]
  simp only [decide_eq_true_eq]
  constructor
  · rintro rfl; exact ⟨hn, rfl⟩
  · exact fun h => h.2

theorem wellTypedTerm_contains {d d' : Domain} (H : Contains d' d) {t : Term} (h : WellTypedTerm (Declared d.types) d.reqs t) :
    WellTypedTerm (Declared d'.types) d'.reqs t :=
  ⟨fun x hx => Rules.declared_mono H.types (h.1 x hx), fun hne => (h.2 hne).imp (H.reqs _) (H.reqs _)⟩

/-- C84 for problems: a problem that fits a domain fits every domain that contains it. -/
theorem C84_problem {d d' : Domain} (hd : ExistsDomain d) (hd' : ExistsDomain d') (H : Contains d' d) {p : Problem}
    (h : p.check d = .ok ()) : p.check d' = .ok () := by
  rw [problemCheck_ok hd] at h
  rw [problemCheck_ok hd']
  refine ⟨by rw [H.name]; exact h.name, fun rs hrs r hr => H.reqs r (h.reqs rs hrs r hr), ?_, ?_, ?_⟩
  · exact fun t ht => wellTypedTerm_contains H (h.objects t ht)
  · exact fun e he t ht => wellTypedTerm_contains H (h.init e he t ht)
  · exact fun t ht => wellTypedTerm_contains H (h.goal t ht)

/-- C84 for plans: a plan that passes the check for a domain passes it for every domain that contains it, and has
the same ground actions. -/
theorem C84_plan {d d' : Domain} (H : Contains d' d) {p : Problem} {pl : Plan} :
    (pl.check d p = .ok () → pl.check d' p = .ok ()) ∧ ∀ gs, pl.inst d = .ok gs → pl.inst d' = .ok gs := by
  constructor
  · intro h
    rw [planCheck_ok] at h ⊢
    intro s hs
    obtain ⟨a, h1, h2, h3⟩ := h s hs
    refine ⟨a, lastNamed_contains H h1, h2, fun t ht => ?_⟩
    obtain ⟨o, ho, e⟩ := h3 t ht
    rcases List.mem_append.1 ho with ho | ho
    · exact ⟨o, List.mem_append_left _ ho, e⟩
    · exact ⟨o, List.mem_append_right _ (H.constants o ho), e⟩
  · intro gs h
    exact instSteps_ok.2 ((instSteps_ok.1 h).imp fun s g ⟨a, h1, h2⟩ => ⟨a, lastNamed_contains H h1, h2⟩)

/-! A text, and one that declares more. -/

def grownText : Str := "(define (domain d) (:requirements :typing) (:types t) (:constants e - t c) (:predicates (p ?x))
  (:action m :parameters (?x) :precondition (p ?x) :effect (not (q c)))
  (:action n :parameters () :precondition () :effect (p e)))".toList

def grownMore : Tree := actionText s%"n" [] (.node []) (.node [word s%"p", word s%"e"])
def grownAct : Tree :=
  actionText s%"m" (varTrees s%"x") (.node (word s%"p" :: varTrees s%"x")) (.node [word s%"not", .node [word s%"q", word s%"c"]])
def grownSections : DomainSections := ⟨s%"d", none, none, some [word s%"c"], none, none, [grownAct]⟩
def grownSections' : DomainSections := ⟨s%"d", some [.atom (.kw s%"typing")], some [word s%"t"],
  some [word s%"e", .atom .minus, word s%"t", word s%"c"], some [.node (word s%"p" :: varTrees s%"x")], none, [grownAct, grownMore]⟩
def grownDecls : Decls := ⟨[], [], [(s%"c", none)], []⟩
def grownDecls' : Decls := ⟨[.typing], [(s%"t", none)], [(s%"e", some s%"t"), (s%"c", none)], [(s%"p", [(s%"x", [])])]⟩

theorem grown_valid : ∀ n ∈ [s%"d", s%"m", s%"n", s%"x", s%"p", s%"q", s%"c", s%"e", s%"t"], ValidName n := fun n hn => by
  have : ∀ n ∈ [s%"d", s%"m", s%"n", s%"x", s%"p", s%"q", s%"c", s%"e", s%"t"], parseName n = .ok n := by decide +kernel
  exact Rules.parseName_iff.1 (this n hn)

theorem grown_one (t : Term) : Agrees none [t] := by
  refine ⟨?_, fun τ h => by cases h⟩
  intro a ha b hb _
  simp only [List.mem_singleton] at ha hb
  subst ha hb
  exact fun _ => Iff.rfl

theorem grown_vars (ok : Str → Prop) : VarsIn ok (varTrees s%"x") [(s%"x", [])] := by
  refine ⟨⟨⟨[], [.str s%"x"]⟩, .rest [s%"x"], rfl⟩, ?_, ?_⟩
  · intro p hp
    simp only [List.mem_singleton] at hp
    subst hp
    exact ⟨grown_valid _ (by simp), by simp⟩
  · intro p hp q hq _
    simp only [List.mem_singleton] at hp hq
    subst hp hq
    exact fun _ => Iff.rfl

/-- The hypotheses of `C84_text` hold for the two texts. -/
example : ∃ t t', Brackets (lex ruledText) [t] ∧ grownSections.Of t ∧ SectionsIn (fun _ => none) grownSections grownDecls ∧
    Brackets (lex grownText) [t'] ∧ grownSections'.Of t' ∧ DeclarationsIn (fun _ => none) grownSections' grownDecls' ∧
    DeclaresMore grownSections grownSections' grownDecls grownDecls' [grownMore] ∧
    (∀ ps, StructuresIn (fun _ => none) grownDecls' ps [grownMore]) ∧
    ∀ t ∈ [grownMore], ∀ u ∈ grownSections.structures, ∀ n, actionName t = some n → actionName u ≠ some n := by
  have hn := grown_valid
  have htype : ValidType s%"t" := .inl (hn _ (by simp))
  have hok : grownDecls'.typeOk s%"t" := ⟨⟨(s%"t", none), by simp [grownDecls'], .inl rfl⟩, .inl (by simp [grownDecls'])⟩
  refine ⟨.node (word s%"define" :: .node [word s%"domain", word s%"d"] :: [section_ s%"constants" [word s%"c"], grownAct]),
    .node (word s%"define" :: .node [word s%"domain", word s%"d"] :: [section_ s%"requirements" [.atom (.kw s%"typing")],
      section_ s%"types" [word s%"t"], section_ s%"constants" [word s%"e", .atom .minus, word s%"t", word s%"c"],
      section_ s%"predicates" [.node (word s%"p" :: varTrees s%"x")], grownAct, grownMore]),
    readText_brackets.1 (by decide +kernel), ⟨.node [word s%"domain", word s%"d"], ⟨_, rfl, .word _⟩, rfl⟩, ?_,
    readText_brackets.1 (by decide +kernel), ⟨.node [word s%"domain", word s%"d"], ⟨_, rfl, .word _⟩, rfl⟩, ?_, ?_, ?_, ?_⟩
  · refine ⟨hn s%"d" (by simp), rfl, rfl, ?_, rfl, (fun b hb => by cases hb), ?_⟩
    · refine ⟨⟨[], [s%"c"]⟩, rfl, ⟨by simp, ?_, by simp, by simp [NameList.pairs]⟩, rfl, ?_⟩
      · intro p hp
        simp only [NameList.pairs, List.flatMap_nil, List.nil_append, List.map_cons, List.map_nil, List.mem_singleton] at hp
        subst hp
        exact hn _ (by simp)
      · intro p hp t ht
        simp only [grownDecls, List.mem_singleton] at hp
        subst hp
        cases ht
    · refine .action (l := [(s%"x", [])]) ⟨hn _ (by simp), grown_vars _, .inr (.atomic ?_), .inr (.one (.not ?_))⟩ .nil
      · refine .predicate (l := [.var ⟨s%"x", []⟩]) (by decide +kernel) (hn _ (by simp)) ?_ (grown_one _)
        have := TermsIn.param (Γ := grownDecls.action (fun _ => none) [(s%"x", [])]) (n := s%"x") (types := []) (ts := []) (l := [])
          (by simp [Decls.action]) .nil
        rwa [List.append_nil] at this
      · exact .predicate (l := [.const s%"c" none]) (by simp) (hn _ (by simp)) (.const (by simp [grownDecls, Decls.action]) .nil)
          (grown_one _)
  · refine ⟨hn s%"d" (by simp), ⟨⟨by simp, ?_⟩, ?_⟩, ?_, ?_, ?_, (fun b hb => by cases hb), .nil⟩
    · intro t ht
      simp only [List.mem_singleton] at ht
      exact ⟨s%"typing", by simp, ht⟩
    · intro r
      cases r <;> simp [grownDecls'] <;> decide
    · refine ⟨⟨[], [s%"t"]⟩, rfl, ⟨by simp, ?_, by simp, by simp [NameList.pairs]⟩, by simp, rfl, ?_, ?_⟩
      · intro p hp
        simp only [NameList.pairs, List.flatMap_nil, List.nil_append, List.map_cons, List.map_nil, List.mem_singleton] at hp
        subst hp
        exact hn _ (by simp)
      · intro p hp
        simp only [grownDecls', List.mem_singleton] at hp
        subst hp
        exact ⟨htype, fun b hb => by cases hb⟩
      · have hp : ∀ a b, ¬ Parent grownDecls'.types a b := by
          intro a b h
          simp only [Parent, grownDecls', List.lookup] at h
          split at h <;> simp at h
        refine ⟨fun ⟨a, b, h⟩ => absurd h (hp a b), fun b => hp _ b, fun a h => ?_⟩
        obtain ⟨b, h, _⟩ := (Relation.TransGen.head'_iff.1 h)
        exact hp _ _ h
    · refine ⟨⟨[([s%"e"], s%"t")], [s%"c"]⟩, rfl, ⟨by simp, ?_, ?_, ?_⟩, rfl, ?_⟩
      · intro p hp
        simp only [NameList.pairs, List.flatMap_cons, List.flatMap_nil, List.append_nil, List.map_cons, List.map_nil,
          List.cons_append, List.nil_append, List.mem_cons, List.not_mem_nil, or_false] at hp
        rcases hp with rfl | rfl <;> exact hn _ (by simp)
      · intro g hg
        simp only [List.mem_singleton] at hg
        subst hg
        exact htype
      · decide
      · intro p hp t ht
        simp only [grownDecls', List.mem_cons, List.not_mem_nil, or_false] at hp
        rcases hp with rfl | rfl
        · injection ht with ht
          subst ht
          exact hok
        · cases ht
    · exact ⟨by simp, .cons ⟨_, rfl, hn _ (by simp), grown_vars _⟩ .nil⟩
  · refine ⟨rfl, by simp [grownDecls], by simp [grownDecls], ?_, ?_, rfl⟩
    · intro p hp
      simp only [grownDecls, List.mem_singleton] at hp
      subst hp
      simp [grownDecls']
    · simp [grownSections, grownSections']
  · intro ps
    refine .action (l := []) ⟨hn _ (by simp), ⟨⟨⟨[], []⟩, .rest [], rfl⟩, by simp, by simp⟩, .inl rfl, .inr (.one (.atomic ?_))⟩ .nil
    exact .predicate (l := [.const s%"e" (some s%"t")]) (by decide +kernel) (hn _ (by simp))
      (.const (by simp [grownDecls', Decls.action]) .nil) (grown_one _)
  · intro t ht u hu n h1 h2
    simp only [grownSections, List.mem_singleton] at ht hu
    subst ht hu
    simp only [grownMore, grownAct, actionText, actionName, Option.some.injEq] at h1 h2
    rw [← h1] at h2
    cases h2

end Pddl.Props
