/-
Texts and the bracket trees they are read into.
-/
import Verif.Model.ParseDomain
import Verif.Model.Print
import Verif.Proofs.Layout
import Verif.Proofs.Names

namespace Pddl
open Spec

/-- Tokens that are read into the trees `ts` wherever they occur. -/
def Reads (toks : List Tok) (ts : List Tree) : Prop :=
  ∀ rest cur st, readAux (toks ++ rest) cur st = readAux rest (ts.reverse ++ cur) st

theorem Reads.nil : Reads [] [] := fun _ _ _ => rfl

theorem Reads.append {a b : List Tok} {ts us : List Tree} (ha : Reads a ts) (hb : Reads b us) :
    Reads (a ++ b) (ts ++ us) := by
  intro rest cur st
  rw [List.append_assoc, ha, hb]; simp

theorem Reads.node {a : List Tok} {ts : List Tree} (h : Reads a ts) :
    Reads (.lpar :: a ++ [.rpar]) [.node ts] := by
  intro rest cur st
  rw [List.append_assoc, List.cons_append]
  show readAux (.lpar :: (a ++ (.rpar :: rest))) cur st = _
  rw [readAux.eq_3, h]
  simp [readAux]

theorem Reads.atom {t : Tok} (h1 : t ≠ .lpar) (h2 : t ≠ .rpar) : Reads [t] [.atom t] := by
  intro rest cur st
  cases t <;> first | exact absurd rfl h1 | exact absurd rfl h2 | rfl

theorem Reads.readTrees {a : List Tok} {ts : List Tree} (h : Reads a ts) : readTrees a = some ts := by
  have := h [] [] []
  rw [List.append_nil, List.append_nil] at this
  rw [Pddl.readTrees, this, readAux]; simp

/-- The text contains no comment and is read into the trees `ts`. -/
structure Prints (t : Str) (ts : List Tree) : Prop where
  noSemi : ∀ c ∈ t, c ≠ ';'
  reads : Reads (lex t) ts

theorem Prints.readText {t : Str} {ts : List Tree} (h : Prints t ts) : readText t = .ok ts := by
  simp [Pddl.readText, h.reads.readTrees]

theorem Prints.nil : Prints [] [] := ⟨by simp, Reads.nil⟩

theorem mem_noSemi_append {a b : Str} (ha : ∀ c ∈ a, c ≠ ';') (hb : ∀ c ∈ b, c ≠ ';') :
    ∀ c ∈ a ++ b, c ≠ ';' := by
  intro c hc
  rcases List.mem_append.1 hc with h | h
  · exact ha c h
  · exact hb c h

/-- The second text starts with a delimiter. -/
theorem Prints.append {a b : Str} {ts us : List Tree} (ha : Prints a ts) (hb : Prints b us)
    (hd : Delim b) : Prints (a ++ b) (ts ++ us) :=
  ⟨mem_noSemi_append ha.noSemi hb.noSemi, by
    rw [lex_append ha.noSemi hd]; exact ha.reads.append hb.reads⟩

theorem delim_space {c : Char} {t : Str} (h : IsSpace c) : Delim (c :: t) :=
  Or.inr ⟨c, t, rfl, space_ends h⟩

theorem delim_bracket {c : Char} {t : Str} (h : Bracket c) : Delim (c :: t) :=
  Or.inr ⟨c, t, rfl, bracket_ends h⟩

theorem space_noSemi {c : Char} (h : IsSpace c) : c ≠ ';' := by
  rintro rfl; revert h; decide

theorem Prints.space {c : Char} {t : Str} {ts : List Tree} (hc : IsSpace c) (h : Prints t ts) :
    Prints (c :: t) ts :=
  ⟨by
    intro d hd
    rcases List.mem_cons.1 hd with rfl | hd
    · exact space_noSemi hc
    · exact h.noSemi d hd, by rw [lex_space hc]; exact h.reads⟩

theorem Prints.spaces {p t : Str} {ts : List Tree} (hp : ∀ c ∈ p, IsSpace c) (h : Prints t ts) :
    Prints (p ++ t) ts := by
  induction p with
  | nil => exact h
  | cons c cs ih => exact (ih (fun d hd => hp d (by simp [hd]))).space (hp c (by simp))

theorem Prints.spaces_end {e t : Str} {ts : List Tree} (he : ∀ c ∈ e, IsSpace c) (h : Prints t ts) :
    Prints (t ++ e) ts :=
  ⟨mem_noSemi_append h.noSemi (fun c hc => space_noSemi (he c hc)), by
    rw [lex_spaces_end t he]; exact h.reads⟩

/-- Two texts separated by a white space character. -/
theorem Prints.sep {c : Char} {a b : Str} {ts us : List Tree} (hc : IsSpace c) (ha : Prints a ts)
    (hb : Prints b us) : Prints (a ++ c :: b) (ts ++ us) :=
  ha.append (hb.space hc) (delim_space hc)

theorem lex_rpar : lex s%")" = [.rpar] := by decide

/-- A bracketed text. -/
theorem Prints.paren {a : Str} {ts : List Tree} (h : Prints a ts) :
    Prints ('(' :: a ++ s%")") [.node ts] := by
  refine ⟨?_, ?_⟩
  · intro c hc
    simp only [List.cons_append, List.mem_cons, List.mem_append, List.not_mem_nil, or_false] at hc
    rcases hc with rfl | hc | rfl
    · decide
    · exact h.noSemi c hc
    · decide
  · have e : lex ('(' :: a ++ s%")") = .lpar :: lex a ++ [.rpar] := by
      rw [List.cons_append, lex_cons]
      have : lexBegin '(' = ([.lpar], .start) := by decide
      rw [this]
      show [Tok.lpar] ++ lex (a ++ s%")") = _
      rw [lex_append h.noSemi (delim_bracket (by decide)), lex_rpar]; rfl
    rw [e]; exact h.reads.node

/-- A bracketed text directly after another one. -/
theorem Prints.paren_after {a b : Str} {ts us : List Tree} (ha : Prints a ts) (hb : Prints b us) :
    Prints (a ++ ('(' :: b ++ s%")")) (ts ++ [.node us]) :=
  ha.append hb.paren (delim_bracket (by decide))

/-! ### Names, variables, numbers, keywords -/

theorem isNameC_noSemi {c : Char} (h : isNameC c = true) : c ≠ ';' := by
  rintro rfl; revert h; decide

theorem run_word {w : Str} (a : Str) (h : ∀ c ∈ w, isNameC c = true) :
    (LSt.word a).run w = [.name (a ++ w)] := by
  induction w generalizing a with
  | nil => simp [LSt.run, LSt.flush]
  | cons c cs ih =>
    have hs : (LSt.word a).step c = ([], .word (a ++ [c])) := by
      simp [LSt.step, LSt.ext, h c (by simp)]
    rw [LSt.run, hs, ih _ (fun d hd => h d (by simp [hd]))]; simp

theorem begin_alpha {c : Char} (h : isAlphaC c = true) : lexBegin c = ([], .word [c]) := by
  have hn : isNameC c = true := by simp [isNameC, h]
  have hs : isSpaceC c = false := by
    rcases Bool.eq_false_or_eq_true (isSpaceC c) with h' | h'
    · have := (space_ends ((isSpaceC_iff c).1 h')).1
      rw [hn] at this; exact absurd this (by simp)
    · exact h'
  have : ∀ d, isAlphaC d = false → c ≠ d := by
    rintro d hd rfl; rw [h] at hd; exact absurd hd (by simp)
  have h1 := this ';' (by decide)
  have h2 := this '(' (by decide)
  have h3 := this ')' (by decide)
  have h4 := this '?' (by decide)
  have h5 := this '-' (by decide)
  have h6 := this '=' (by decide)
  have h7 := this '+' (by decide)
  have h8 := this '*' (by decide)
  have h9 := this '/' (by decide)
  have h10 := this '>' (by decide)
  have h11 := this '<' (by decide)
  have h12 := this ':' (by decide)
  simp [lexBegin, hs, h, h1, h2, h3, h4, h5, h6, h7, h8, h9, h10, h11, h12]

theorem NameShape.chars {n : Str} (h : NameShape n) :
    ∃ c cs, n = c :: cs ∧ isAlphaC c = true ∧ ∀ x ∈ cs, isNameC x = true := by
  obtain ⟨c, cs, rfl, hc, hcs⟩ := h
  exact ⟨c, cs, rfl, (letter_iff c).2 hc, fun x hx => (nameC_iff x).2 (hcs x hx)⟩

theorem lex_name {n : Str} (h : NameShape n) : lex n = [.name n] := by
  obtain ⟨c, cs, rfl, hc, hcs⟩ := NameShape.chars h
  rw [lex_cons, begin_alpha hc]
  exact run_word [c] hcs

theorem name_noSemi {n : Str} (h : NameShape n) : ∀ c ∈ n, c ≠ ';' := by
  obtain ⟨c, cs, rfl, hc, hcs⟩ := NameShape.chars h
  intro d hd
  rcases List.mem_cons.1 hd with rfl | hd
  · exact isNameC_noSemi (by simp [isNameC, hc])
  · exact isNameC_noSemi (hcs d hd)

theorem Prints.name {n : Str} (h : NameShape n) : Prints n [.atom (.name n)] :=
  ⟨name_noSemi h, by rw [lex_name h]; exact Reads.atom (by simp) (by simp)⟩

theorem Prints.var {n : Str} (h : NameShape n) : Prints ('?' :: n) [.atom .qmark, .atom (.name n)] := by
  refine ⟨?_, ?_⟩
  · intro d hd
    rcases List.mem_cons.1 hd with rfl | hd
    · decide
    · exact name_noSemi h d hd
  · have : lexBegin '?' = ([.qmark], .start) := by decide
    rw [lex_cons, this]
    show Reads ([Tok.qmark] ++ lex n) ([Tree.atom .qmark] ++ [.atom (.name n)])
    rw [lex_name h]
    exact (Reads.atom (by simp) (by simp)).append (Reads.atom (by simp) (by simp))

/-- A fixed text that is one token. -/
theorem Prints.tok {w : Str} {t : Tok} (hl : lex w = [t]) (h1 : t ≠ .lpar) (h2 : t ≠ .rpar)
    (hs : ∀ c ∈ w, c ≠ ';') : Prints w [.atom t] :=
  ⟨hs, by rw [hl]; exact Reads.atom h1 h2⟩

/-- A fixed list of texts separated by blanks. -/
theorem Prints.join {c : Char} (hc : IsSpace c) {as : List Str} {ts : List (List Tree)}
    (h : List.Forall₂ Prints as ts) : Prints (joinStr [c] as) ts.flatten := by
  induction h with
  | nil => exact Prints.nil
  | @cons a t as ts ha h ih =>
    cases h with
    | nil => simpa [joinStr] using ha
    | @cons b u bs us hb h' =>
      rw [joinStr, List.append_assoc]
      exact Prints.sep hc ha ih

theorem Prints.join_map {α} {c : Char} (hc : IsSpace c) {f : α → Str} {g : α → List Tree}
    {l : List α} (h : ∀ x ∈ l, Prints (f x) (g x)) :
    Prints (joinStr [c] (l.map f)) (l.flatMap g) := by
  rw [List.flatMap_def]
  apply Prints.join hc
  induction l with
  | nil => exact .nil
  | cons a l ih => exact .cons (h a (by simp)) (ih (fun x hx => h x (by simp [hx])))

theorem isDigitC_begin {c : Char} (h : isDigitC c = true) : lexBegin c = ([], .num [c]) := by
  have hn : isNameC c = true := by simp [isNameC, h]
  have hs : isSpaceC c = false := by
    rcases Bool.eq_false_or_eq_true (isSpaceC c) with h' | h'
    · have := (space_ends ((isSpaceC_iff c).1 h')).1
      rw [hn] at this; exact absurd this (by simp)
    · exact h'
  have ha : isAlphaC c = false := by
    simp only [isDigitC, Bool.and_eq_true, decide_eq_true_eq] at h
    simp only [isAlphaC, Bool.or_eq_false_iff, Bool.and_eq_false_iff, decide_eq_false_iff_not]
    omega
  have : ∀ d, isDigitC d = false → c ≠ d := by
    rintro d hd rfl; rw [h] at hd; exact absurd hd (by simp)
  have h1 := this ';' (by decide)
  have h2 := this '(' (by decide)
  have h3 := this ')' (by decide)
  have h4 := this '?' (by decide)
  have h5 := this '-' (by decide)
  have h6 := this '=' (by decide)
  have h7 := this '+' (by decide)
  have h8 := this '*' (by decide)
  have h9 := this '/' (by decide)
  have h10 := this '>' (by decide)
  have h11 := this '<' (by decide)
  have h12 := this ':' (by decide)
  simp [lexBegin, hs, h, ha, h1, h2, h3, h4, h5, h6, h7, h8, h9, h10, h11, h12]

theorem run_digits {w : Str} (a : Str) (h : ∀ c ∈ w, isDigitC c = true) :
    (LSt.num a).run w = [.num (a ++ w)] := by
  induction w generalizing a with
  | nil => simp [LSt.run, LSt.flush]
  | cons c cs ih =>
    have hs : (LSt.num a).step c = ([], .num (a ++ [c])) := by
      simp [LSt.step, LSt.ext, h c (by simp)]
    rw [LSt.run, hs, ih _ (fun d hd => h d (by simp [hd]))]; simp

theorem exec_digits {w : Str} (a : Str) (h : ∀ c ∈ w, isDigitC c = true) :
    (LSt.num a).exec w = ([], .num (a ++ w)) := by
  induction w generalizing a with
  | nil => simp [LSt.exec]
  | cons c cs ih =>
    have hs : (LSt.num a).step c = ([], .num (a ++ [c])) := by
      simp [LSt.step, LSt.ext, h c (by simp)]
    rw [LSt.exec, hs, ih _ (fun d hd => h d (by simp [hd]))]; simp

/-- A text of digits. -/
def Digits (w : Str) : Prop := w ≠ [] ∧ ∀ c ∈ w, isDigitC c = true

/-- The shape of the terminal `NUMBER`: digits, or digits, a dot, digits. -/
def NumberShape (w : Str) : Prop := Digits w ∨ ∃ a b, w = a ++ '.' :: b ∧ Digits a ∧ Digits b

theorem lex_digits {w : Str} (h : Digits w) : lex w = [.num w] := by
  obtain ⟨hne, h⟩ := h
  cases w with
  | nil => exact absurd rfl hne
  | cons c cs =>
    rw [lex_cons, isDigitC_begin (h c (by simp))]
    exact run_digits [c] (fun d hd => h d (by simp [hd]))

theorem lex_number {w : Str} (h : NumberShape w) : lex w = [.num w] := by
  rcases h with h | ⟨a, b, rfl, ⟨hane, ha⟩, ⟨hbne, hb⟩⟩
  · exact lex_digits h
  · cases a with
    | nil => exact absurd rfl hane
    | cons c cs =>
      cases b with
      | nil => exact absurd rfl hbne
      | cons d ds =>
        rw [List.cons_append, lex_cons, isDigitC_begin (ha c (by simp))]
        show [] ++ (LSt.num [c]).run (cs ++ '.' :: d :: ds) = _
        rw [run_append, exec_digits [c] (fun x hx => ha x (by simp [hx])), LSt.run]
        have h1 : (LSt.num ([c] ++ cs)).step '.' = ([], .numDot ([c] ++ cs)) := by
          have : isDigitC '.' = false := by decide
          simp [LSt.step, LSt.ext, this]
        have h2 : (LSt.numDot ([c] ++ cs)).step d = ([], .num ([c] ++ cs ++ ['.', d])) := by
          simp [LSt.step, LSt.ext, hb d (by simp)]
        simp only [h1, LSt.run, h2]
        rw [run_digits _ (fun x hx => hb x (by simp [hx]))]
        simp

theorem number_noSemi {w : Str} (h : NumberShape w) : ∀ c ∈ w, c ≠ ';' := by
  have hd : ∀ c, isDigitC c = true → c ≠ ';' := by rintro c h rfl; revert h; decide
  rcases h with h | ⟨a, b, rfl, ha, hb⟩
  · exact fun c hc => hd c (h.2 c hc)
  · intro c hc
    simp only [List.mem_append, List.mem_cons] at hc
    rcases hc with hc | rfl | hc
    · exact hd c (ha.2 c hc)
    · decide
    · exact hd c (hb.2 c hc)

theorem Prints.number {w : Str} (h : NumberShape w) : Prints w [.atom (.num w)] :=
  ⟨number_noSemi h, by rw [lex_number h]; exact Reads.atom (by simp) (by simp)⟩

/-! ### Decimal digits -/

theorem digitC_isDigit {n : Nat} (h : n < 10) : isDigitC (digitC n) = true ∧ (digitC n).toNat = 48 + n := by
  have key : ∀ k : Fin 10, isDigitC (digitC k) = true ∧ (digitC k).toNat = 48 + k := by decide
  exact key ⟨n, h⟩

theorem natDigitsF_spec (f n : Nat) (h : n < f) :
    natDigitsF f n ≠ [] ∧ (∀ c ∈ natDigitsF f n, isDigitC c = true) ∧ digitsVal (natDigitsF f n) = n := by
  induction f generalizing n with
  | zero => omega
  | succ f ih =>
    rw [natDigitsF]
    split
    · rename_i hn
      have := digitC_isDigit hn
      refine ⟨by simp, by simpa using this.1, ?_⟩
      simp [digitsVal, this.2]
    · rename_i hn
      obtain ⟨h1, h2, h3⟩ := ih (n / 10) (by omega)
      have hm := digitC_isDigit (n := n % 10) (by omega)
      refine ⟨by simp, ?_, ?_⟩
      · intro c hc
        rcases List.mem_append.1 hc with hc | hc
        · exact h2 c hc
        · simp at hc; subst hc; exact hm.1
      · have e : digitsVal (natDigitsF f (n / 10) ++ [digitC (n % 10)]) =
            digitsVal (natDigitsF f (n / 10)) * 10 + ((digitC (n % 10)).toNat - 48) := by
          rw [digitsVal, List.foldl_append]; rfl
        rw [e, h3, hm.2]
        omega

theorem natDigits_spec (n : Nat) : Digits (natDigits n) ∧ digitsVal (natDigits n) = n := by
  obtain ⟨h1, h2, h3⟩ := natDigitsF_spec (n + 1) n (by omega)
  exact ⟨⟨h1, h2⟩, h3⟩

theorem numLiteral_natDigits (F : FloatOf) (n : Nat) : numLiteral F (natDigits n) = .ok (.int n) := by
  have h := natDigits_spec n
  have hd : '.' ∉ natDigits n := fun hc => by
    have := h.1.2 '.' hc; revert this; decide
  simp [numLiteral, hd, h.2]

end Pddl
