/- C88: parsing files. -/
import Verif.Proofs.Files
import Verif.Proofs.DecEq

namespace Pddl.Props
open Pddl Spec

/-- The file `fn` can be opened and decoded, and `t` is its text. -/
def Contains (fs : Files) (fn t : Str) : Prop := ∃ b, fs.bytes fn = some b ∧ fs.decode b = some t

/-- The full statement: `parse_domain`, `parse_problem` and `parse_plan` do with a file what new parsers do with its
text. -/
def C88_full : Prop := ∀ (F : FloatOf) (fs : Files) (fn t : Str), Contains fs fn t →
  parseDomainFile F fs fn = toFile ((parseDomain F .fresh t).map Prod.fst) ∧
  parseProblemFile F fs fn = toFile ((parseProblem F [] t).map Prod.fst) ∧
  parsePlanFile fs fn = toFile (parsePlan t)

/-- One file with the text `t`. -/
def fileOf (t : Str) : Files := ⟨fun _ => some [], fun _ => some t⟩

theorem fileOf_contains (t fn : Str) : Contains (fileOf t) fn t := ⟨[], rfl, rfl⟩

/-- A comment, a carriage return and a step: for the parser all of it is comment, but the file has a second line. -/
theorem C88_fails : ¬ C88_full := by
  intro h
  have h1 := (h (fun _ => none) (fileOf s%";\r(a)") [] _ (fileOf_contains _ _)).2.2
  have e1 : parsePlanFile (fileOf s%";\r(a)") [] = .ok ⟨[(s%"a", [])]⟩ := by rfl
  have e2 : toFile (parsePlan s%";\r(a)") = .ok ⟨[]⟩ := by rfl
  rw [e1, e2] at h1
  simp at h1

theorem readText_newlines {t : Str} (h : PlainComments t) : readText (newlines t) = readText t := by
  unfold readText; rw [lex_newlines h]

theorem read_ok {fs : Files} {fn t : Str} (h : Contains fs fn t) : fs.read fn = .ok (newlines t) := by
  obtain ⟨b, h1, h2⟩ := h
  unfold Files.read; rw [h1]; simp only; rw [h2]

/-- It holds for the texts in which no comment contains a carriage return without a newline after it. -/
theorem C88_partial (F : FloatOf) (fs : Files) (fn t : Str) (h : Contains fs fn t) (hc : PlainComments t) :
    parseDomainFile F fs fn = toFile ((parseDomain F .fresh t).map Prod.fst) ∧
    parseProblemFile F fs fn = toFile ((parseProblem F [] t).map Prod.fst) ∧
    parsePlanFile fs fn = toFile (parsePlan t) := by
  have e1 : parseDomain F .fresh (newlines t) = parseDomain F .fresh t := by
    unfold parseDomain; rw [readText_newlines hc]
  have e2 : parseProblem F [] (newlines t) = parseProblem F [] t := by
    unfold parseProblem; rw [readText_newlines hc]
  have e3 : parsePlan (newlines t) = parsePlan t := by
    unfold parsePlan; rw [readText_newlines hc]
  refine ⟨?_, ?_, ?_⟩
  · unfold parseDomainFile; rw [read_ok h]; simp only; rw [e1]
    cases parseDomain F .fresh t <;> rfl
  · unfold parseProblemFile; rw [read_ok h]; simp only; rw [e2]
    cases parseProblem F [] t <;> rfl
  · unfold parsePlanFile; rw [read_ok h]; simp only; rw [e3]

/-- In general a file is parsed as its text with `\r\n` and `\r` replaced by `\n`, and the replacement is that: no
carriage return is left, and a text without carriage returns stays as it is. -/
theorem C88_newlines (F : FloatOf) (fs : Files) (fn t : Str) (h : Contains fs fn t) :
    parseDomainFile F fs fn = toFile ((parseDomain F .fresh (newlines t)).map Prod.fst) ∧
    parseProblemFile F fs fn = toFile ((parseProblem F [] (newlines t)).map Prod.fst) ∧
    parsePlanFile fs fn = toFile (parsePlan (newlines t)) := by
  refine ⟨?_, ?_, ?_⟩
  · unfold parseDomainFile; rw [read_ok h]; simp only
    cases parseDomain F .fresh (newlines t) <;> rfl
  · unfold parseProblemFile; rw [read_ok h]; simp only
    cases parseProblem F [] (newlines t) <;> rfl
  · unfold parsePlanFile; rw [read_ok h]

theorem C88_no_cr (t : Str) : '\r' ∉ newlines t ∧ ('\r' ∉ t → newlines t = t) := by
  induction hn : t.length using Nat.strongRecOn generalizing t with
  | _ n ih =>
    cases t with
    | nil => simp [newlines]
    | cons c r =>
      by_cases hc : c = '\r'
      · subst hc
        refine ⟨?_, by simp⟩
        by_cases hlf : ∃ x, r = '\n' :: x
        · obtain ⟨x, rfl⟩ := hlf
          rw [newlines_crlf]
          simp only [List.mem_cons, not_or]
          exact ⟨by decide, (ih x.length (by subst hn; simp; omega) x rfl).1⟩
        · rw [newlines_cr (fun x e => hlf ⟨x, e⟩)]
          simp only [List.mem_cons, not_or]
          exact ⟨by decide, (ih r.length (by subst hn; simp) r rfl).1⟩
      · rw [newlines_other hc]
        obtain ⟨h1, h2⟩ := ih r.length (by subst hn; simp) r rfl
        simp only [List.mem_cons, not_or, List.cons.injEq, true_and]
        exact ⟨⟨fun e => hc e.symm, h1⟩, fun h => h2 h.2⟩

/-- Nothing is parsed when the file cannot be opened or decoded. -/
theorem C88_unreadable (F : FloatOf) (fs : Files) (fn : Str) (h : ∀ t, ¬ Contains fs fn t) :
    ∃ e, (e = .os ∨ e = .decode) ∧ parseDomainFile F fs fn = .error e ∧ parseProblemFile F fs fn = .error e ∧
      parsePlanFile fs fn = .error e := by
  cases hb : fs.bytes fn with
  | none =>
    have : fs.read fn = .error .os := by unfold Files.read; rw [hb]
    exact ⟨.os, .inl rfl, by unfold parseDomainFile; rw [this], by unfold parseProblemFile; rw [this],
      by unfold parsePlanFile; rw [this]⟩
  | some b =>
    cases hd : fs.decode b with
    | some t => exact absurd ⟨b, hb, hd⟩ (h t)
    | none =>
      have : fs.read fn = .error .decode := by unfold Files.read; rw [hb]; simp only; rw [hd]
      exact ⟨.decode, .inr rfl, by unfold parseDomainFile; rw [this], by unfold parseProblemFile; rw [this],
        by unfold parsePlanFile; rw [this]⟩

/-- The command line tool does with files what it does with their texts. -/
theorem C88_cli (F : FloatOf) (fs : Files) (df dt : Str) (pf : Option (Str × Str)) (lf : Option (Str × Str)) (q : Bool)
    (hd : Contains fs df dt) (hdc : PlainComments dt)
    (hp : ∀ x ∈ pf, Contains fs x.1 x.2 ∧ PlainComments x.2) (hl : ∀ x ∈ lf, Contains fs x.1 x.2 ∧ PlainComments x.2) :
    cliFiles F fs df (pf.map Prod.fst) (lf.map Prod.fst) q =
      ((cli F dt (pf.map Prod.snd) (lf.map Prod.snd) q).1, toFile (cli F dt (pf.map Prod.snd) (lf.map Prod.snd) q).2) := by
  unfold cliFiles cli
  rw [(C88_partial F fs df dt hd hdc).1]
  cases parseDomain F .fresh dt with
  | error e => rfl
  | ok r =>
    obtain ⟨d, σ⟩ := r
    simp only [Except.map, toFile]
    cases d.str with
    | error e => rfl
    | ok ds =>
      cases pf with
      | none => rfl
      | some x =>
        obtain ⟨h1, h2⟩ := hp x rfl
        simp only [Option.map_some]
        rw [(C88_partial F fs x.1 x.2 h1 h2).2.1]
        cases parseProblem F [] x.2 with
        | error e => rfl
        | ok r =>
          obtain ⟨p, σ'⟩ := r
          simp only [Except.map, toFile]
          cases p.check d with
          | error e => rfl
          | ok u =>
            cases lf with
            | none => rfl
            | some y =>
              obtain ⟨h1, h2⟩ := hl y rfl
              simp only [Option.map_some]
              rw [(C88_partial F fs y.1 y.2 h1 h2).2.2]
              cases parsePlan y.2 with
              | error e => rfl
              | ok pl =>
                simp only [toFile]
                cases pl.check d p <;> rfl

/-- Comments with `\r\n`, and carriage returns outside comments, meet the hypothesis; the text is changed by reading. -/
example : PlainComments s%"(a)\r;x\r\n(b)" ∧ newlines s%"(a)\r;x\r\n(b)" = s%"(a)\n;x\n(b)" ∧
    parsePlanFile (fileOf s%"(a)\r;x\r\n(b)") [] = .ok ⟨[(s%"a", []), (s%"b", [])]⟩ := by
  exact ⟨plain_of_check (by decide +kernel), by decide +kernel, by rfl⟩

end Pddl.Props
