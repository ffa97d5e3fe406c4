import Verif.Spec.ReqNames
import Verif.Proofs.Goal
import Verif.Proofs.SectionText
import Verif.Proofs.Written
import Verif.Proofs.Gate
import Verif.Props.Share

/-!
How requirements are written, looked up and declared.
-/
namespace Pddl.Props

open Spec Spec.Grammar

/-! ### C105 -/

theorem req_mem_all (r : Req) : r ∈ Req.all := by cases r <;> decide

theorem writtenAs_iff {r : Req} {w : Str} : WrittenAs r w ↔ r.str = w := by
  constructor
  · intro h; cases h <;> rfl
  · rintro rfl; cases r <;> constructor

theorem value_inj {r r' : Req} (h : r.value = r'.value) : r = r' := by
  revert r r'; intro r r'; cases r <;> cases r' <;> first | (intro _; rfl) | (intro h; revert h; decide)

theorem req_ofValue_ok {v : Str} {r : Req} : Req.ofValue v = .ok r ↔ r.value = v := by
  unfold Req.ofValue
  constructor
  · intro h
    split at h
    · rename_i x hx
      cases h
      simpa using List.find?_some hx
    · cases h
  · rintro rfl
    split
    · rename_i x hx
      have := List.find?_some hx
      simp only [decide_eq_true_eq] at this
      rw [value_inj this]
    · rename_i hx
      rw [List.find?_eq_none] at hx
      simpa using hx r (req_mem_all r)

/-- C105 for printing: `str` of a requirement is its flag. -/
theorem C105_print (r : Req) (w : Str) : r.str = w ↔ WrittenAs r w := writtenAs_iff.symm

/-- C105 for printing: different requirements have different flags. -/
theorem C105_distinct {r r' : Req} {w : Str} (h : WrittenAs r w) (h' : WrittenAs r' w) : r = r' := by
  rw [writtenAs_iff] at h h'
  have := h.trans h'.symm
  simp only [Req.str, List.cons.injEq, true_and] at this
  exact value_inj this

/-- C105 for the lookup: `Requirements(v)` is the requirement whose flag is `v` after a colon. -/
theorem C105_lookup (v : Str) (r : Req) : Req.ofValue v = .ok r ↔ WrittenAs r (':' :: v) := by
  rw [req_ofValue_ok, writtenAs_iff]
  simp [Req.str]

/-- C105 for the lookup: it raises `ValueError` exactly if `v` after a colon is not a flag, and nothing else. -/
theorem C105_unknown (v : Str) (e : Exc) : Req.ofValue v = .error e ↔ e = .value ∧ ∀ r, ¬ WrittenAs r (':' :: v) := by
  constructor
  · intro h
    have hn : ∀ r, ¬ WrittenAs r (':' :: v) := fun r hr => by
      rw [← C105_lookup, h] at hr; cases hr
    refine ⟨?_, hn⟩
    unfold Req.ofValue at h
    split at h <;> cases h
    rfl
  · rintro ⟨rfl, hn⟩
    cases h : Req.ofValue v with
    | ok r => exact absurd ((C105_lookup v r).1 h) (hn r)
    | error e =>
      unfold Req.ofValue at h
      split at h <;> cases h
      rfl

/-- A domain text that declares requirements and nothing else. -/
def declares (n : Str) (flags : List Str) : Str :=
  s%"(define (domain " ++ n ++ s%") (:requirements " ++ joinStr s%" " flags ++ s%"))"

/-- C105 in full: a domain that declares any flags, in any order and with repetitions, is accepted, and has
just the requirements with these flags. -/
def C105_full : Prop :=
  ∀ (F : FloatOf) (n : Str) (flags : List Str), ValidName n → flags ≠ [] → (∀ w ∈ flags, ∃ r, WrittenAs r w) →
    ∃ d σ, parseDomain F .fresh (declares n flags) = .ok (d, σ) ∧ d.name = n ∧ ∀ r, r ∈ d.reqs ↔ ∃ w ∈ flags, WrittenAs r w

/-- C105 is false of the code: the grammar has no `:object-fluents`, which the enum has. -/
theorem C105_fails : ¬ C105_full := by
  intro h
  obtain ⟨d, σ, h, -⟩ := h (fun _ => none) s%"d" [s%":object-fluents"] (by decide +kernel)
    (by simp) (by intro w hw; simp only [List.mem_singleton] at hw; subst hw; exact ⟨_, .objectFluents⟩)
  have : (parseDomain (fun _ => none) .fresh (declares s%"d" [s%":object-fluents"])).toOption.isSome = false := by
    decide +kernel
  rw [h] at this
  simp [Except.toOption] at this

theorem declares_prints {n : Str} (hn : ValidName n) {rs : List Req} (h : Req.objectFluents ∉ rs) :
    Prints (declares n (rs.map Req.str)) [.node [word s%"define", .node [word s%"domain", word n],
      section_ s%"requirements" (rs.map Req.tree)]] := by
  have h1 : Prints (joinStr s%" " (rs.map Req.str)) (rs.flatMap (fun r => [r.tree])) :=
    Prints.join_map isSpace_blank (fun r hr => Prints.req (by rintro rfl; exact h hr))
  rw [flatMap_single] at h1
  have h2 := Prints.op (Prints.kw (k := s%"requirements") (by decide +kernel) (by decide +kernel)) h1
  have h3 := Prints.op (Prints.name (n := s%"domain") ((nameRegex_iff _).1 (by decide))) (Prints.name hn.1)
  have h4 := Prints.op (Prints.name (n := s%"define") ((nameRegex_iff _).1 (by decide))) (Prints.sep isSpace_blank h3 h2)
  refine h4.congr ?_
  simp [declares]

/-- C105 for domain texts, without `:object-fluents`. -/
theorem C105_partial (F : FloatOf) (n : Str) (flags : List Str) (hn : ValidName n) (hne : flags ≠ [])
    (hf : ∀ w ∈ flags, ∃ r, r ≠ .objectFluents ∧ WrittenAs r w) :
    ∃ d σ, parseDomain F .fresh (declares n flags) = .ok (d, σ) ∧ d.name = n ∧ ∀ r, r ∈ d.reqs ↔ ∃ w ∈ flags, WrittenAs r w := by
  obtain ⟨rs, rfl, hof⟩ : ∃ rs : List Req, flags = rs.map Req.str ∧ Req.objectFluents ∉ rs := by
    clear hne
    induction flags with
    | nil => exact ⟨[], rfl, by simp⟩
    | cons w ws ih =>
      obtain ⟨rs, rfl, h⟩ := ih (fun w hw => hf w (by simp [hw]))
      obtain ⟨r, hr, hw⟩ := hf w (by simp)
      refine ⟨r :: rs, ?_, by simp [h, Ne.symm hr]⟩
      rw [writtenAs_iff] at hw
      simp [hw]
  have hne' : rs ≠ [] := by rintro rfl; exact hne rfl
  have hrd := (declares_prints hn hof).readText
  have hreq := parseRequirements_trees hof hne'
  have hmk : mkDomain { name := n, reqs := reqSet rs, types := [] } = .ok ⟨n, reqSet (reqSet rs), [], [], [], [], [], []⟩ := by
    simp only [mkDomain, parseName_ok.2 ⟨rfl, hn⟩, ok_bind]
    rfl
  refine ⟨⟨n, reqSet (reqSet rs), [], [], [], [], [], []⟩, { PState.fresh with ext := extendReqs (reqSet rs) }, ?_, rfl, ?_⟩
  · unfold parseDomain
    rw [hrd, ok_bind]
    show domainDef F .fresh _ = _
    unfold domainDef
    have hh : header s%"domain" [word s%"define", .node [word s%"domain", word n], section_ s%"requirements" (rs.map Req.tree)] =
        .ok (n, [section_ s%"requirements" (rs.map Req.tree)]) := rfl
    rw [hh, ok_bind]
    have h1 : takeSection s%"requirements" [section_ s%"requirements" (rs.map Req.tree)] = (some (rs.map Req.tree), []) := rfl
    simp only [h1, optSection, sectionRequirements, hreq, ok_bind, pure_ok]
    simp only [takeSection, structures, ok_bind, pure_ok]
    rw [hmk]
    rfl
  · intro r
    simp only [mem_reqSet, List.mem_map]
    constructor
    · intro h; exact ⟨r.str, ⟨r, h, rfl⟩, writtenAs_iff.2 rfl⟩
    · rintro ⟨w, ⟨r', h, rfl⟩, hw⟩
      rw [C105_distinct hw (writtenAs_iff.2 rfl)]; exact h

example : Req.ofValue s%"adl" = .ok .adl := (C105_lookup _ _).2 .adl

example : Req.ofValue s%"object-fluents" = .ok .objectFluents := (C105_lookup _ _).2 .objectFluents

example : Req.ofValue s%"Strips" = .error .value :=
  (C105_unknown _ _).2 ⟨rfl, fun r hr => by rw [← C105_print] at hr; revert hr; cases r <;> decide⟩

example : ∃ d σ, parseDomain (fun _ => none) .fresh (declares s%"d" [s%":typing", s%":adl", s%":typing"]) = .ok (d, σ) ∧
    d.name = s%"d" ∧ ∀ r, r ∈ d.reqs ↔ ∃ w ∈ [s%":typing", s%":adl", s%":typing"], WrittenAs r w :=
  C105_partial _ _ _ (by decide +kernel) (by simp) (fun w hw => by
    simp only [List.mem_cons, List.not_mem_nil, or_false] at hw
    rcases hw with rfl | rfl | rfl
    · exact ⟨_, by decide, .typing⟩
    · exact ⟨_, by decide, .adl⟩
    · exact ⟨_, by decide, .typing⟩)

end Pddl.Props
