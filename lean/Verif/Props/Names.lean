/- C01, C02, C51: names, types and function names; duplicate tags. -/
import Verif.Proofs.Names

namespace Pddl.Props
open Spec

/-- C01. A name is accepted iff it has the shape of a name and is not reserved;
the stored name is the given string. -/
theorem C01_name_accepted (s t : Str) : parseName s = .ok t ↔ t = s ∧ ValidName s := parseName_ok

/-- C01. The constructors that take a name accept exactly the valid names and
store them unchanged. -/
theorem C01_constructors (s : Str) :
    (mkVar s .none = .ok ⟨s, []⟩ ↔ ValidName s) ∧
    (mkConst s none = .ok (.const s none) ↔ ValidName s) ∧
    (mkPred s [] = .ok ⟨s, []⟩ ↔ ValidName s) ∧
    (mkAction s [] none none = .ok ⟨s, [], none, none⟩ ↔ ValidName s) ∧
    ((∃ d, mkDomain { name := s } = .ok d ∧ d.name = s) ↔ ValidName s) ∧
    ((∃ p, mkProblem { name := s, domainName := some (s%"d") } = .ok p ∧ p.name = s)
      ↔ ValidName s) := by
  have hd : parseName (s%"d") = .ok (s%"d") := by decide
  by_cases h : ValidName s
  · have hp := parseName_of_valid h
    refine ⟨iff_of_true ?_ h, iff_of_true ?_ h, iff_of_true ?_ h, iff_of_true ?_ h,
      iff_of_true ?_ h, iff_of_true ?_ h⟩
    · simp [mkVar, hp, checkedTags, toType, dedupBy, dedupAux]
    · simp [mkConst, hp]
    · simp [mkPred, hp, termsConsistent]
    · simp [mkAction, hp]
    · simp [mkDomain, hp, mkTypes, toTypes, dictOf, checkTypeDict, checkTotalCost,
        Domain.checkConsistency, dedupBy, dedupAux, checkEach, checkHasTerms]
    · simp [mkProblem, hp, hd, parseDomainName, parseReqs, Problem.checkConsistency,
        dedupBy, dedupAux]
  · have hp : ∃ e, parseName s = .error e := by
      cases hq : parseName s with
      | error e => exact ⟨e, rfl⟩
      | ok t => exact absurd (parseName_ok.mp hq).2 h
    obtain ⟨e, hp⟩ := hp
    refine ⟨iff_of_false ?_ h, iff_of_false ?_ h, iff_of_false ?_ h, iff_of_false ?_ h,
      iff_of_false ?_ h, iff_of_false ?_ h⟩
    · simp [mkVar, hp]
    · simp [mkConst, hp]
    · simp [mkPred, hp]
    · simp [mkAction, hp]
    · simp [mkDomain, hp]
    · simp [mkProblem, hp]

/-- C01. Validating again changes nothing. -/
theorem C01_idempotent (s t : Str) (h : parseName s = .ok t) : parseName t = .ok t := by
  obtain ⟨rfl, hv⟩ := parseName_ok.mp h
  exact parseName_of_valid hv

/-- C01. A rejected string raises the validation error if it is a symbol of the
language, and `ValueError` otherwise. -/
theorem C01_rejected (s : Str) (h : ¬ ValidName s) :
    parseName s = .error .validation ∨ parseName s = .error .value ∧ ¬ NameShape s := by
  cases hq : parseName s with
  | ok t => exact absurd (parseName_ok.mp hq).2 h
  | error e =>
    rcases parseName_error.mp hq with ⟨rfl, _⟩ | ⟨rfl, _, h3⟩
    · exact .inl rfl
    · exact .inr ⟨rfl, h3⟩

example : ValidName (s%"move-to_2") := by decide
example : ¬ ValidName (s%"forall") ∧ ¬ ValidName (s%"2x") ∧ ¬ ValidName (s%"") := by decide
example : ValidName (s%"number") ∧ ValidName (s%"And") := by decide

/-- C02. Type names: the ordinary names and `object`. -/
theorem C02_type_accepted (s t : Str) : parseType s = .ok t ↔ t = s ∧ ValidType s := parseType_ok

/-- C02. Function names: the ordinary names and `total-cost`. -/
theorem C02_function_accepted (s t : Str) :
    parseFunction s = .ok t ↔ t = s ∧ ValidFunction s := parseFunction_ok

/-- C02. Each exception is the only one. -/
theorem C02_exceptions (s : Str) :
    ((∃ t, parseType s = .ok t) ∧ ¬ (∃ t, parseName s = .ok t) ↔ s = "object".toList) ∧
    ((∃ t, parseFunction s = .ok t) ∧ ¬ (∃ t, parseName s = .ok t) ↔ s = "total-cost".toList) := by
  simp only [parseType_ok, parseFunction_ok, parseName_ok, exists_eq_left]
  constructor
  · constructor
    · rintro ⟨h | h, h'⟩
      · exact absurd h h'
      · exact h
    · rintro rfl; exact ⟨.inr rfl, by decide⟩
  · constructor
    · rintro ⟨h | h, h'⟩
      · exact absurd h h'
      · exact h
    · rintro rfl; exact ⟨.inr rfl, by decide⟩

/-- C51. A variable given a list of type tags is rejected (with `ValueError`) iff
the list has a repetition; otherwise it gets exactly these tags. -/
theorem C51_duplicate_tags (n : Str) (l : List Str) (hn : ValidName n)
    (hl : ∀ t ∈ l, ValidType t) :
    (l.Nodup → mkVar n (.seq l) = .ok ⟨n, l⟩) ∧
    (¬ l.Nodup → mkVar n (.seq l) = .error .value) := by
  have hp := parseName_of_valid hn
  constructor
  · intro h
    have h1 : noDupLoop [] l = .ok () := noDupLoop_ok.mpr ⟨h, by simp⟩
    have h2 : toType l = .ok l := toType_ok.mpr ⟨rfl, hl⟩
    simp [mkVar, hp, checkedTags, h1, dedup_of_nodup h, h2]
  · intro h
    cases h1 : noDupLoop [] l with
    | ok u => exact absurd (noDupLoop_ok.mp h1).1 h
    | error e =>
      have := noDupLoop_error h1
      subst this
      simp [mkVar, hp, checkedTags, h1]

/-- C51. A set of type tags is always accepted. -/
theorem C51_set_tags (n : Str) (l : List Str) (hn : ValidName n)
    (hl : ∀ t ∈ l, ValidType t) :
    ∃ v, mkVar n (.set l) = .ok v ∧ v.name = n ∧ (∀ t, t ∈ v.tags ↔ t ∈ l) ∧ v.tags.Nodup := by
  have hp := parseName_of_valid hn
  have h2 : toType l = .ok l := toType_ok.mpr ⟨rfl, hl⟩
  refine ⟨⟨n, dedupBy (fun a b => decide (a = b)) l⟩, ?_, rfl, fun t => mem_dedup, dedup_nodup _⟩
  simp [mkVar, hp, checkedTags, h2]

example : mkVar (s%"x") (.seq [s%"a", s%"b", s%"a"]) = .error .value := by decide
example : mkVar (s%"x") (.seq [s%"a", s%"b"]) = .ok ⟨s%"x", [s%"a", s%"b"]⟩ := by decide

end Pddl.Props
