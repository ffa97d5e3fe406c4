/-
Reading two texts one after the other.
-/
import Verif.Proofs.Lex
import Verif.Model.ParseProblem

namespace Pddl

/-- The tokens of two texts with a newline between them. -/
theorem lex_newline (a b : Str) : lex (a ++ '\n' :: b) = lex a ++ lex b := by
  have h : ∀ s : LSt, s.ext '\n' = none := by
    intro s; cases s <;> simp [LSt.ext] <;> decide
  rw [lex, run_append, LSt.run]
  unfold LSt.step
  rw [h]
  have e : lexBegin '\n' = ([], .start) := by decide
  rw [e, List.append_nil, ← List.append_assoc, ← run_eq_exec]
  rfl

theorem readAux_bottom (b : List Tok) : ∀ (x cur : List Tree),
    readAux b (x ++ cur) [] = (readAux b x []).map (cur.reverse ++ ·) ∧
    ∀ (y : List Tree) (st : List (List Tree)), readAux b x (st ++ [y ++ cur]) = (readAux b x (st ++ [y])).map (cur.reverse ++ ·) := by
  induction b with
  | nil =>
    intro x cur
    refine ⟨by simp [readAux], fun y st => ?_⟩
    cases st <;> simp [readAux]
  | cons t b ih =>
    intro x cur
    cases t with
    | lpar =>
      refine ⟨?_, fun y st => ?_⟩
      · simp only [readAux]
        exact (ih [] cur).2 x []
      · simp only [readAux]
        exact (ih [] cur).2 y (x :: st)
    | rpar =>
      refine ⟨by simp [readAux], fun y st => ?_⟩
      cases st with
      | nil =>
        simp only [List.nil_append, readAux]
        exact (ih (.node x.reverse :: y) cur).1
      | cons s st =>
        simp only [List.cons_append, readAux]
        exact (ih (.node x.reverse :: s) cur).2 y st
    | _ =>
      refine ⟨?_, fun y st => ?_⟩
      · simp only [readAux]
        exact (ih (_ :: x) cur).1
      · simp only [readAux]
        exact (ih (_ :: x) cur).2 y st

theorem readAux_below (b : List Tok) : ∀ (x : List Tree) (st : List (List Tree)) (s : List Tree) (st' : List (List Tree)),
    readAux b x st ≠ none → readAux b x (st ++ s :: st') = none := by
  induction b with
  | nil =>
    intro x st s st' h
    cases st with
    | nil => rfl
    | cons _ _ => rfl
  | cons t b ih =>
    intro x st s st' h
    cases t with
    | lpar => simp only [readAux] at h ⊢; exact ih [] (x :: st) s st' h
    | rpar =>
      cases st with
      | nil => simp [readAux] at h
      | cons y st => simp only [List.cons_append, readAux] at h ⊢; exact ih _ st s st' h
    | _ => simp only [readAux] at h ⊢; exact ih _ st s st' h

theorem readAux_first {a b : List Tok} : ∀ {cur : List Tree} {st : List (List Tree)} {c : List Tree},
    readAux a cur st = some c → readAux (a ++ b) cur st = readAux b c.reverse [] := by
  induction a with
  | nil =>
    intro cur st c h
    cases st with
    | nil => simp only [readAux, Option.some.injEq] at h; subst h; simp
    | cons s st => simp [readAux] at h
  | cons t a ih =>
    intro cur st c h
    cases t with
    | rpar =>
      cases st with
      | nil => simp [readAux] at h
      | cons s st => simp only [List.cons_append, readAux] at h ⊢; exact ih h
    | _ => simp only [List.cons_append, readAux] at h ⊢; exact ih h

theorem readAux_second {b : List Tok} {d : List Tree} (hb : readTrees b = some d) (a : List Tok) :
    ∀ (cur : List Tree) (st : List (List Tree)), readAux (a ++ b) cur st = (readAux a cur st).map (· ++ d) := by
  have h0 : ∀ cur, readAux b cur [] = some (cur.reverse ++ d) := by
    intro cur
    have := (readAux_bottom b [] cur).1
    rw [List.nil_append] at this
    rw [this]
    unfold readTrees at hb
    rw [hb]; rfl
  induction a with
  | nil =>
    intro cur st
    cases st with
    | nil => simp [readAux, h0]
    | cons s st =>
      have := readAux_below b cur [] s st (by rw [h0]; simp)
      simpa [readAux] using this
  | cons t a ih =>
    intro cur st
    cases t with
    | rpar => cases st <;> simp [readAux, ih]
    | _ => simp [readAux, ih]

/-- If the first of two token sequences is balanced, the trees of both are those of the first and those of the second. -/
theorem readTrees_first {a b : List Tok} {c : List Tree} (h : readTrees a = some c) :
    readTrees (a ++ b) = (readTrees b).map (c ++ ·) := by
  unfold readTrees at h ⊢
  rw [readAux_first h]
  have := (readAux_bottom b [] c.reverse).1
  simpa using this

theorem readTrees_second {a b : List Tok} {d : List Tree} (h : readTrees b = some d) :
    readTrees (a ++ b) = (readTrees a).map (· ++ d) := readAux_second h a [] []

theorem groundActions_append (a b : List Tree) : (a ++ b).mapM groundAction =
    (do let x ← a.mapM groundAction
        let y ← b.mapM groundAction
        pure (x ++ y)) := List.mapM_append

end Pddl
