/- C61: printing a domain never raises. C62: printed integers. C63: `variables` and `constants`. -/
import Verif.Proofs.Helpers
import Verif.Props.Printer
import Verif.Props.ObjectType
import Verif.Props.Cli
import Verif.Proofs.RetagSem

namespace Pddl.Props
open Pddl Spec

/-! ### C61 -/

theorem prints_of_mk {a : DomainArgs} {d : Domain} (ht : IsDict a.types) (h : mkDomain a = .ok d) : ∃ s, d.str = .ok s := by
  obtain ⟨h1, h2, h3, _, _, _, _, _, rfl⟩ := (mkDomain_ok ht).1 h
  unfold mkDomain at h
  obtain ⟨_, _, h⟩ := bind_ok_iff.1 h
  obtain ⟨ts, hts, h⟩ := bind_ok_iff.1 h
  obtain ⟨_, _, h⟩ := bind_ok_iff.1 h
  obtain ⟨_, _, h⟩ := bind_ok_iff.1 h
  simp only [pure_ok, Except.ok.injEq] at h
  have e : (domainOf a).types = ts := by rw [← h]
  have hs : ∃ s, typesSection (domainOf a).types = .ok s := by
    rw [e]
    by_cases hne : ts = []
    · exact ⟨[], by simp [typesSection, hne]⟩
    · obtain ⟨lines, hl, _⟩ := C40_partial _ _ _ ht hts hne
      exact ⟨_, hl⟩
  obtain ⟨s, hs⟩ := hs
  exact ⟨_, by simp [Domain.str, Domain.bodyStr, hs]; rfl⟩

/-- `str` of every constructed domain returns a text. -/
theorem C61_constructed (a : DomainArgs) (d : Domain) (ht : IsDict a.types) (h : mkDomain a = .ok d) :
    ∃ s, d.str = .ok s := prints_of_mk ht h

/-- `str` of every parsed domain returns a text, whatever the parser has parsed before. -/
theorem C61_parsed (F : FloatOf) (σ σ' : PState) (text : Str) (d : Domain) (h : parseDomain F σ text = .ok (d, σ')) :
    ∃ s, d.str = .ok s := by
  obtain ⟨ts, hr, hd⟩ := parseDomain_ok h
  obtain ⟨P⟩ := domainDef_ok hd
  obtain ⟨h1, h2⟩ := DomainParse.types_ok P (fun w hw => readText_words hr (List.mem_singleton.2 rfl) hw)
  exact prints_of_mk h1 P.hdomain

/-- The command line tool on an accepted domain alone succeeds and prints the text of the domain. -/
theorem C61_cli (F : FloatOf) (σ' : PState) (text : Str) (d : Domain) (h : parseDomain F .fresh text = .ok (d, σ')) :
    ∃ s, d.str = .ok s ∧ cli F text none none false = ([s], .ok ()) := by
  obtain ⟨s, hs⟩ := C61_parsed F _ _ _ _ h
  exact ⟨s, hs, by simp [cli, h, hs]⟩

/-- A type dictionary with a cycle, which no constructor accepts, cannot be printed. -/
theorem C61_cycle : ∃ d : Domain, (∃ e, d.str = .error e) ∧ ∀ e, mkTypes d.types d.reqs ≠ .ok e := by
  refine ⟨⟨s%"d", [.typing], [(s%"a", some s%"b"), (s%"b", some s%"a")], [], [], [], [], []⟩, ?_, ?_⟩
  · have h : typesSection [(s%"a", some s%"b"), (s%"b", some s%"a")] = .error .value := by decide +kernel
    exact ⟨.value, by simp [Domain.str, Domain.bodyStr, h]⟩
  · have h : ∃ e, mkTypes [(s%"a", some s%"b"), (s%"b", some s%"a")] [.typing] = .error e := by
      refine ⟨.validation, ?_⟩
      decide +kernel
    obtain ⟨e, h⟩ := h
    intro x hx
    rw [h] at hx
    cases hx

example : ∃ d, mkDomain { name := s%"d", reqs := [.typing], types := [(s%"a", some s%"b"), (s%"b", none)] } = .ok d ∧
    IsDict [(s%"a", some s%"b"), (s%"b", none)] ∧ d.types ≠ [] := by
  have h : (mkDomain { name := s%"d", reqs := [.typing], types := [(s%"a", some s%"b"), (s%"b", none)] }).toOption.map
      (fun d => d.types) = some [(s%"a", some s%"b"), (s%"b", none)] := by decide +kernel
  cases hd : mkDomain { name := s%"d", reqs := [.typing], types := [(s%"a", some s%"b"), (s%"b", none)] } with
  | error e => rw [hd] at h; simp [Except.toOption] at h
  | ok d => rw [hd] at h; simp [Except.toOption] at h; exact ⟨d, rfl, by simp [IsDict], by simp [h]⟩

/-! ### C62 -/

theorem decimal_digits {s : Str} (h : Digits s) : decimal s = some (digitsVal s) := by
  have key : ∀ (s : Str) (n : Nat), (∀ c ∈ s, isDigitC c = true) →
      s.foldl (fun acc c => do
        let n ← acc
        if 48 ≤ c.toNat ∧ c.toNat ≤ 57 then some (10 * n + (c.toNat - 48)) else none) (some n) =
      some (s.foldl (fun a c => a * 10 + (c.toNat - 48)) n) := by
    intro s
    induction s with
    | nil => intro n _; rfl
    | cons c s ih =>
      intro n hc
      have h1 : 48 ≤ c.toNat ∧ c.toNat ≤ 57 := by
        have := hc c (by simp)
        simpa only [isDigitC, Bool.and_eq_true, decide_eq_true_eq] using this
      simp only [List.foldl_cons, Option.bind_eq_bind, Option.bind_some, if_pos h1]
      rw [show 10 * n = n * 10 from Nat.mul_comm _ _]
      exact ih _ (fun c hc' => hc c (by simp [hc']))
  obtain ⟨h1, h2⟩ := h
  cases s with
  | nil => exact absurd rfl h1
  | cons c s => exact key (c :: s) 0 h2

/-- The statement in full: the printed text of an integer is read back as that integer. -/
def C62_full : Prop := ∀ (F : FloatOf) (i : Int), ∃ ds, lex (Num.text (.int i)) = [.num ds] ∧ numLiteral F ds = .ok (.int i)

/-- The printed text of an integer denotes that integer, so different integers print differently. -/
theorem C62_denotes (i : Int) : integer (Num.text (.int i)) = some i := by
  obtain ⟨h, hv⟩ := natDigits_spec i.natAbs
  have hd : decimal (natDigits i.natAbs) = some i.natAbs := by rw [decimal_digits h, hv]
  have he : Num.text (.int i) = if i < 0 then '-' :: natDigits i.natAbs else natDigits i.natAbs := rfl
  rw [he]
  by_cases hi : i < 0
  · rw [if_pos hi]
    rw [integer, hd]
    exact congrArg some (by simp only; omega)
  · rw [if_neg hi]
    have hm : ∀ s, natDigits i.natAbs ≠ '-' :: s := fun s e => by
      have := h.2 '-' (by rw [e]; simp)
      exact absurd this (by decide)
    rw [integer.eq_2 _ (fun s e => hm s e), hd]
    exact congrArg some (by simp only; omega)

/-- Printed non-negative integers are read back. -/
theorem C62_partial (F : FloatOf) (i : Int) (hi : 0 ≤ i) :
    ∃ ds, lex (Num.text (.int i)) = [.num ds] ∧ numLiteral F ds = .ok (.int i) := by
  have he : Num.text (.int i) = natDigits i.natAbs := by
    have : Num.text (.int i) = if i < 0 then '-' :: natDigits i.natAbs else natDigits i.natAbs := rfl
    rw [this, if_neg (by omega)]
  refine ⟨natDigits i.natAbs, by rw [he]; exact lex_digits (natDigits_spec _).1, ?_⟩
  rw [numLiteral_natDigits]
  simp only [Except.ok.injEq, Num.int.injEq]
  omega

/-- Negative integers are not: the sign becomes a token of its own. -/
theorem C62_fails : ¬ C62_full := by
  intro h
  obtain ⟨ds, hl, _⟩ := h (fun _ => none) (-5)
  have : lex (Num.text (.int (-5))) = [.minus, .num s%"5"] := by decide +kernel
  rw [this] at hl
  simp at hl

example : Num.text (.int (-120)) = s%"-120" ∧ integer s%"-120" = some (-120) ∧ integer s%"12a" = none := by decide +kernel

/-! ### C63 -/

/-- `variables` succeeds if and only if the words of the text are valid names and, unless there is no word, the types
are valid. -/
theorem C63_accepts (s : Str) (types : List Str) :
    (∃ vs, variablesOf s (some types) = .ok vs) ↔
      ∃ ws, WordsOf s ws ∧ (∀ w ∈ ws, ValidName w) ∧ (ws ≠ [] → ∀ t ∈ types, ValidType t) := by
  simp only [wordsOf_iff, exists_eq_left', variablesOf, ensureSet]
  generalize splitWords [] s = ws
  have hd : (∀ t ∈ dedupBy (fun a b => decide (a = b)) types, ValidType t) ↔ ∀ t ∈ types, ValidType t := by
    simp only [mem_dedup]
  constructor
  · rintro ⟨vs, h⟩
    have h := mapM_ok_iff.1 h
    have hm : ∀ w ∈ ws, _ := fun w hw => zipped_left h hw
    refine ⟨fun w hw => ?_, fun hne => ?_⟩
    · obtain ⟨v, _, hv⟩ := hm w hw
      exact (mkVar_set_ok.1 hv).1
    · obtain ⟨w, hw⟩ := List.exists_mem_of_ne_nil _ hne
      obtain ⟨v, _, hv⟩ := hm w hw
      exact hd.1 (mkVar_set_ok.1 hv).2.1
  · rintro ⟨h1, h2⟩
    induction ws with
    | nil => exact ⟨[], rfl⟩
    | cons w ws ih =>
      obtain ⟨vs, hvs⟩ := ih (fun w hw => h1 w (by simp [hw])) (fun _ => h2 (by simp))
      have hv := mkVar_set_ok.2 ⟨h1 w (by simp), hd.2 (h2 (by simp)), rfl⟩
      exact ⟨_, by rw [List.mapM_cons, hv, hvs]; rfl⟩

/-- The variables are named after the words, in order, and each has exactly the given types. -/
theorem C63_variables (s : Str) (types : Option (List Str)) (vs : List Var) (h : variablesOf s types = .ok vs) :
    ∃ ws, WordsOf s ws ∧ vs.map Var.name = ws ∧ ∀ v ∈ vs, ∀ t, t ∈ v.tags ↔ ∃ l, types = some l ∧ t ∈ l := by
  refine ⟨_, split_wordsOf s, ?_⟩
  unfold variablesOf at h
  generalize splitWords [] s = ws at h
  have hf := mapM_ok_iff.1 h
  have ht : ∀ t, t ∈ ensureSet types ↔ ∃ l, types = some l ∧ t ∈ l := by
    intro t
    cases types with
    | none => simp [ensureSet]
    | some l => simp [ensureSet, mem_dedup]
  clear h
  induction hf with
  | nil => simp
  | cons hx _ ih =>
    obtain ⟨_, _, rfl⟩ := mkVar_set_ok.1 hx
    refine ⟨by simp [ih.1], fun v hv => ?_⟩
    rcases List.mem_cons.1 hv with rfl | hv
    · intro t; rw [mem_dedup]; exact ht t
    · exact ih.2 v hv

/-- `constants` gives the constants named after the words, in order, with the given type; it fails if and only if a word
is not a valid name or there is a word and the type is not valid. -/
theorem C63_constants (s : Str) (type_ : Option Str) (cs : List Term) :
    constantsOf s type_ = .ok cs ↔
      ∃ ws, WordsOf s ws ∧ (∀ w ∈ ws, ValidName w) ∧ (ws ≠ [] → ∀ t, type_ = some t → ValidType t) ∧
        cs = ws.map (fun w => .const w type_) := by
  simp only [wordsOf_iff, exists_eq_left', constantsOf]
  generalize splitWords [] s = ws
  induction ws generalizing cs with
  | nil => simp [eq_comm]
  | cons w ws ih =>
    rw [List.mapM_cons]
    constructor
    · intro h
      obtain ⟨c, hc, h⟩ := bind_ok_iff.1 h
      obtain ⟨cs', hcs, h⟩ := bind_ok_iff.1 h
      simp only [pure_ok, Except.ok.injEq] at h
      obtain ⟨h1, h2, rfl⟩ := mkConst_ok hc
      obtain ⟨h3, _, rfl⟩ := (ih _).1 hcs
      subst h
      refine ⟨?_, fun _ => h2, rfl⟩
      intro x hx
      rcases List.mem_cons.1 hx with rfl | hx
      · exact h1
      · exact h3 x hx
    · rintro ⟨h1, h2, rfl⟩
      have hc : mkConst w type_ = .ok (.const w type_) := by
        unfold mkConst
        rw [parseName_ok.2 ⟨rfl, h1 w (by simp)⟩]
        cases type_ with
        | none => rfl
        | some t =>
          have := parseType_ok.2 ⟨rfl, h2 (by simp) t rfl⟩
          simp [this]
      rw [hc, (ih _).2 ⟨fun x hx => h1 x (by simp [hx]), fun _ => h2 (by simp), rfl⟩]
      rfl

example : variablesOf s%" x  y\t z" (some [s%"t", s%"t"]) =
    .ok [⟨s%"x", [s%"t"]⟩, ⟨s%"y", [s%"t"]⟩, ⟨s%"z", [s%"t"]⟩] := by decide +kernel

example : constantsOf s%"a b" (some s%"object") = .ok [.const s%"a" (some s%"object"), .const s%"b" (some s%"object")] := by
  decide +kernel

end Pddl.Props
