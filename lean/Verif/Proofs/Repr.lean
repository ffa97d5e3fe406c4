/-
`repr` can be read back: a prefix code.
-/
import Verif.Spec.Repr
import Verif.Proofs.Eq
import Verif.Proofs.Names
import Verif.Proofs.Printable
import Verif.Proofs.EffectRead

namespace Pddl
open Spec

/-! ### Cutting texts -/

/-- Two texts that end before the first `k`. -/
theorem cut_at {k : Char} {x y s t : Str} (hx : k ∉ x) (hy : k ∉ y) (h : x ++ k :: s = y ++ k :: t) : x = y ∧ s = t := by
  induction x generalizing y with
  | nil =>
    cases y with
    | nil => simp at h; exact ⟨rfl, h⟩
    | cons c y => simp at h; exact absurd h.1 (fun e => hy (by simp [e]))
  | cons c x ih =>
    cases y with
    | nil => simp at h; exact absurd h.1.symm (fun e => hx (by simp [e]))
    | cons d y =>
      simp only [List.cons_append, List.cons.injEq] at h
      obtain ⟨h1, h2⟩ := ih (fun e => hx (by simp [e])) (fun e => hy (by simp [e])) h.2
      exact ⟨by rw [h.1, h1], h2⟩

/-- The rest of a joined list. -/
def commas (rs : List Str) : Str := rs.flatMap (fun r => ',' :: ' ' :: r)

theorem join_cons (r : Str) (rs : List Str) : joinStr s%", " (r :: rs) = r ++ commas rs := by
  induction rs generalizing r with
  | nil => simp [joinStr, commas]
  | cons b l ih =>
    rw [joinStr, ih]
    simp [commas]

theorem not_mem_join {k : Char} {rs : List Str} (hk : k ≠ ',') (hs : k ≠ ' ') (h : ∀ r ∈ rs, k ∉ r) :
    k ∉ joinStr s%", " rs := by
  have hc : ∀ rs : List Str, (∀ r ∈ rs, k ∉ r) → k ∉ commas rs := by
    intro rs h hm
    obtain ⟨r, hr, hm⟩ := List.mem_flatMap.1 hm
    simp only [List.mem_cons] at hm
    rcases hm with e | e | e
    · exact hk e
    · exact hs e
    · exact h r hr e
  cases rs with
  | nil => simp [joinStr]
  | cons r rs =>
    rw [join_cons, List.mem_append]
    rintro (h1 | h1)
    · exact h r (by simp) h1
    · exact hc rs (fun r hr => h r (by simp [hr])) h1

/-- Words without commas can be told apart in a joined list. -/
theorem commas_inj {rs qs : List Str} (hr : ∀ r ∈ rs, ',' ∉ r) (hq : ∀ r ∈ qs, ',' ∉ r) :
    ∀ {x y : Str}, ',' ∉ x → ',' ∉ y → x ++ commas rs = y ++ commas qs → x = y ∧ rs = qs := by
  induction rs generalizing qs with
  | nil =>
    intro x y hx hy h
    cases qs with
    | nil => simp [commas] at h; exact ⟨h, rfl⟩
    | cons q qs =>
      simp only [commas, List.flatMap_nil, List.append_nil, List.flatMap_cons] at h
      exact absurd (by rw [h]; simp) hx
  | cons r rs ih =>
    intro x y hx hy h
    cases qs with
    | nil =>
      simp only [commas, List.flatMap_nil, List.append_nil, List.flatMap_cons] at h
      exact absurd (by rw [← h]; simp) hy
    | cons q qs =>
      have e : x ++ ',' :: (' ' :: (r ++ commas rs)) = y ++ ',' :: (' ' :: (q ++ commas qs)) := by
        simpa [commas] using h
      obtain ⟨h1, h2⟩ := cut_at hx hy e
      simp only [List.cons.injEq, true_and] at h2
      obtain ⟨h3, h4⟩ := ih (fun r hr' => hr r (by simp [hr'])) (fun r hr' => hq r (by simp [hr'])) (hr r (by simp))
        (hq q (by simp)) h2
      exact ⟨h1, by rw [h3, h4]⟩

theorem join_inj {rs qs : List Str} (hr : ∀ r ∈ rs, ',' ∉ r ∧ r ≠ []) (hq : ∀ r ∈ qs, ',' ∉ r ∧ r ≠ [])
    (h : joinStr s%", " rs = joinStr s%", " qs) : rs = qs := by
  cases rs with
  | nil =>
    cases qs with
    | nil => rfl
    | cons q qs =>
      rw [join_cons] at h
      simp only [joinStr] at h
      exact absurd (List.append_eq_nil_iff.1 h.symm).1 (hq q (by simp)).2
  | cons r rs =>
    cases qs with
    | nil =>
      rw [join_cons] at h
      simp only [joinStr] at h
      exact absurd (List.append_eq_nil_iff.1 h).1 (hr r (by simp)).2
    | cons q qs =>
      rw [join_cons, join_cons] at h
      obtain ⟨h1, h2⟩ := commas_inj (fun r hr' => (hr r (by simp [hr'])).1) (fun r hr' => (hq r (by simp [hr'])).1)
        (hr r (by simp)).1 (hq q (by simp)).1 h
      rw [h1, h2]

/-! ### Names -/

theorem nameShape_chars {n : Str} (h : NameShape n) : ∀ c ∈ n, isNameC c = true := by
  obtain ⟨c, cs, rfl, h1, h2⟩ := h
  intro x hx
  rw [nameC_iff]
  rcases List.mem_cons.1 hx with rfl | hx
  · exact .inl h1
  · exact h2 x hx

theorem nameShape_not_mem {n : Str} (h : NameShape n) {k : Char} (hk : isNameC k = false) : k ∉ n := by
  intro hm
  rw [nameShape_chars h k hm] at hk
  cases hk

theorem nameShape_ne {n : Str} (h : NameShape n) : n ≠ [] := by
  obtain ⟨c, cs, rfl, _⟩ := h
  simp

/-- The name of the term has the shape of a name. -/
def CleanTerm (t : Term) : Prop := NameShape t.name

theorem termStr_not_mem {t : Term} (h : CleanTerm t) {k : Char} (hk : isNameC k = false) (hq : k ≠ '?') : k ∉ t.str := by
  cases t with
  | const n x => exact nameShape_not_mem h hk
  | var v =>
    simp only [Term.str, List.mem_cons, not_or]
    exact ⟨hq, nameShape_not_mem h hk⟩

theorem termStr_ne {t : Term} (h : CleanTerm t) : t.str ≠ [] := by
  cases t with
  | const n x => exact nameShape_ne h
  | var v => simp [Term.str]

/-- A term with a name, and a variable with the types that `T` gives to its name. -/
def Scoped (T : Str → Finset Str) (t : Term) : Prop := CleanTerm t ∧ ∀ v, t = .var v → v.tags.toFinset = T v.name

variable {T : Str → Finset Str}

theorem termStr_inj {t u : Term} (ht : Scoped T t) (hu : Scoped T u)
    (h : t.str = u.str) : t.norm = u.norm := by
  have hq : ∀ {n : Str} {m : Str}, NameShape n → n ≠ '?' :: m := by
    intro n m h e
    exact nameShape_not_mem h (k := '?') (by decide) (by rw [e]; simp)
  cases t with
  | const n x =>
    cases u with
    | const m y => simp only [Term.str] at h; simp [Term.norm, h]
    | var v => exact absurd h (hq ht.1)
  | var v =>
    cases u with
    | const m y => exact absurd h.symm (hq hu.1)
    | var w =>
      simp only [Term.str, List.cons.injEq, true_and] at h
      simp [Term.norm, Var.norm, h, ht.2 v rfl, hu.2 w rfl]

theorem termsStr_inj : ∀ {ts us : List Term}, (∀ t ∈ ts, Scoped T t) → (∀ t ∈ us, Scoped T t) →
    ts.map Term.str = us.map Term.str → ts.map Term.norm = us.map Term.norm := by
  intro ts
  induction ts with
  | nil => intro us _ _ h; cases us <;> simp_all
  | cons t ts ih =>
    intro us h1 h2 h
    cases us with
    | nil => simp at h
    | cons u us =>
      simp only [List.map_cons, List.cons.injEq] at h ⊢
      exact ⟨termStr_inj (h1 t (by simp)) (h2 u (by simp)) h.1,
        ih (fun t ht => h1 t (by simp [ht])) (fun t ht => h2 t (by simp [ht])) h.2⟩

/-! ### Atoms and terms -/

theorem atomBody_inj {n m : Str} {ts us : List Term} (hn : NameShape n) (hm : NameShape m)
    (h1 : ∀ t ∈ ts, Scoped T t) (h2 : ∀ t ∈ us, Scoped T t) {s t : Str}
    (h : n ++ ',' :: (' ' :: (joinStr s%", " (ts.map Term.str) ++ ')' :: s)) =
      m ++ ',' :: (' ' :: (joinStr s%", " (us.map Term.str) ++ ')' :: t))) :
    n = m ∧ ts.map Term.norm = us.map Term.norm ∧ s = t := by
  obtain ⟨e1, h⟩ := cut_at (nameShape_not_mem hn (by decide)) (nameShape_not_mem hm (by decide)) h
  simp only [List.cons.injEq, true_and] at h
  have hp : ∀ ts : List Term, (∀ t ∈ ts, Scoped T t) → ')' ∉ joinStr s%", " (ts.map Term.str) := by
    intro ts h
    refine not_mem_join (by decide) (by decide) (fun r hr => ?_)
    obtain ⟨t, ht, rfl⟩ := List.mem_map.1 hr
    exact termStr_not_mem (h t ht).1 (by decide) (by decide)
  obtain ⟨e2, e3⟩ := cut_at (hp ts h1) (hp us h2) h
  have hc : ∀ ts : List Term, (∀ t ∈ ts, Scoped T t) → ∀ r ∈ ts.map Term.str, ',' ∉ r ∧ r ≠ [] := by
    intro ts h r hr
    obtain ⟨t, ht, rfl⟩ := List.mem_map.1 hr
    exact ⟨termStr_not_mem (h t ht).1 (by decide) (by decide), termStr_ne (h t ht).1⟩
  exact ⟨e1, termsStr_inj h1 h2 (join_inj (hc ts h1) (hc us h2) e2), e3⟩

theorem termRepr_inj {l m : Term} (hl : Scoped T l) (hm : Scoped T m) {s t : Str}
    (h : l.repr ++ s = m.repr ++ t) : l.norm = m.norm ∧ s = t := by
  cases l with
  | const n x =>
    cases m with
    | const k y =>
      simp only [Term.repr, List.cons_append, List.nil_append, List.append_assoc, List.cons.injEq, true_and] at h
      obtain ⟨e1, e2⟩ := cut_at (nameShape_not_mem (show NameShape n from hl.1) (by decide))
        (nameShape_not_mem (show NameShape k from hm.1) (by decide)) h
      exact ⟨by simp [Term.norm, e1], e2⟩
    | var v => simp [Term.repr] at h
  | var v =>
    cases m with
    | const k y => simp [Term.repr] at h
    | var w =>
      simp only [Term.repr, List.cons_append, List.nil_append, List.append_assoc, List.cons.injEq, true_and] at h
      obtain ⟨e1, e2⟩ := cut_at (nameShape_not_mem (show NameShape v.name from hl.1) (by decide))
        (nameShape_not_mem (show NameShape w.name from hm.1) (by decide)) h
      exact ⟨by simp [Term.norm, Var.norm, e1, hl.2 v rfl, hm.2 w rfl], e2⟩

theorem varRepr_chars {v : Var} (h : NameShape v.name) : ',' ∉ (Term.var v).repr ∧ '}' ∉ (Term.var v).repr := by
  have h1 := nameShape_not_mem h (k := ',') (by decide)
  have h2 := nameShape_not_mem h (k := '}') (by decide)
  simp [Term.repr, h1, h2]

theorem varsRepr_inj {vs ws : List Var} (hv : ∀ v ∈ vs, NameShape v.name ∧ v.tags = []) (hw : ∀ v ∈ ws, NameShape v.name ∧ v.tags = [])
    {s t : Str} (h : varsRepr vs ++ s = varsRepr ws ++ t) : vs = ws ∧ s = t := by
  cases vs with
  | nil =>
    cases ws with
    | nil => simp [varsRepr] at h; exact ⟨rfl, h⟩
    | cons w ws => simp [varsRepr] at h
  | cons v vs =>
    cases ws with
    | nil => simp [varsRepr] at h
    | cons w ws =>
      have hne : ∀ (x : Var) (l : List Var), (x :: l).length ≠ 0 := by simp
      generalize hV : v :: vs = V at *
      generalize hW : w :: ws = W at *
      have nV : V.length ≠ 0 := by rw [← hV]; simp
      have nW : W.length ≠ 0 := by rw [← hW]; simp
      unfold varsRepr at h
      rw [if_neg nV, if_neg nW] at h
      simp only [List.cons_append, List.nil_append, List.append_assoc, List.cons.injEq, true_and] at h
      have hp : ∀ vs : List Var, (∀ v ∈ vs, NameShape v.name ∧ v.tags = []) →
          '}' ∉ joinStr s%", " (vs.map (fun v => (Term.var v).repr)) := by
        intro vs h
        refine not_mem_join (by decide) (by decide) (fun r hr => ?_)
        obtain ⟨t, ht, rfl⟩ := List.mem_map.1 hr
        exact (varRepr_chars (h t ht).1).2
      obtain ⟨e1, e2⟩ := cut_at (hp V hv) (hp W hw) h
      have hc : ∀ vs : List Var, (∀ v ∈ vs, NameShape v.name ∧ v.tags = []) →
          ∀ r ∈ vs.map (fun v => (Term.var v).repr), ',' ∉ r ∧ r ≠ [] := by
        intro vs h r hr
        obtain ⟨t, ht, rfl⟩ := List.mem_map.1 hr
        exact ⟨(varRepr_chars (h t ht).1).1, by simp [Term.repr]⟩
      have e3 := join_inj (hc V hv) (hc W hw) e1
      refine ⟨?_, by simpa using e2⟩
      clear hV hW nV nW h e1
      induction V generalizing W with
      | nil => cases W <;> simp_all
      | cons v V ih =>
        cases W with
        | nil => simp at e3
        | cons w W =>
          simp only [List.map_cons, List.cons.injEq] at e3
          obtain ⟨n1, t1⟩ := hv v (by simp)
          obtain ⟨n2, t2⟩ := hw w (by simp)
          have := e3.1
          simp only [Term.repr, List.cons_append, List.nil_append, List.append_assoc, List.cons.injEq, true_and] at this
          have := (cut_at (nameShape_not_mem n1 (by decide)) (nameShape_not_mem n2 (by decide)) this).1
          have e : v = w := by cases v; cases w; simp_all
          rw [e, ih (fun v h => hv v (by simp [h])) W (fun v h => hw v (by simp [h])) e3.2]

/-! ### Texts of formulas end with their bracket -/

/-- What follows the bracket that closes the `n`th enclosing one. -/
def after : Nat → Str → Str
  | 0, s => s
  | _ + 1, [] => []
  | n + 1, c :: s => if c = '(' then after (n + 2) s else if c = ')' then after n s else after (n + 1) s

theorem after_plain {w : Str} (h : '(' ∉ w ∧ ')' ∉ w) (n : Nat) (r : Str) : after (n + 1) (w ++ r) = after (n + 1) r := by
  induction w with
  | nil => rfl
  | cons c w ih =>
    simp only [List.mem_cons, not_or] at h
    rw [List.cons_append, after, if_neg (Ne.symm h.1.1), if_neg (Ne.symm h.2.1)]
    exact ih ⟨h.1.2, h.2.2⟩

/-- Skipped by `after`. -/
def Skips (w : Str) : Prop := ∀ n r, after (n + 1) (w ++ r) = after (n + 1) r

/-- In brackets. -/
def Closed (w : Str) : Prop := ∃ x, w = '(' :: (x ++ [')']) ∧ Skips x

theorem Skips.plain {w : Str} (h : '(' ∉ w ∧ ')' ∉ w) : Skips w := fun n r => after_plain h n r

theorem Skips.append {v w : Str} (hv : Skips v) (hw : Skips w) : Skips (v ++ w) := by
  intro n r
  rw [List.append_assoc, hv, hw]

theorem Closed.skips {w : Str} (h : Closed w) : Skips w := by
  obtain ⟨x, rfl, hx⟩ := h
  intro n r
  have e : '(' :: (x ++ [')']) ++ r = '(' :: (x ++ ')' :: r) := by simp
  rw [e, after, if_pos rfl, hx, after, if_neg (by decide), if_pos rfl]

theorem Skips.join {sep : Str} (hs : '(' ∉ sep ∧ ')' ∉ sep) {rs : List Str} (h : ∀ r ∈ rs, Skips r) : Skips (joinStr sep rs) := by
  induction rs with
  | nil => exact fun n r => rfl
  | cons a l ih =>
    cases l with
    | nil => exact h a (by simp)
    | cons b l =>
      rw [joinStr]
      exact ((h a (by simp)).append (.plain hs)).append (ih (fun r hr => h r (by simp [hr])))

theorem Closed.cut {v w s t : Str} (hv : Closed v) (hw : Closed w) (h : v ++ s = w ++ t) : v = w ∧ s = t := by
  have key : ∀ {v : Str} (s : Str), Closed v → after 1 ((v ++ s).drop 1) = s := by
    rintro v s ⟨x, rfl, hx⟩
    have e : ('(' :: (x ++ [')']) ++ s).drop 1 = x ++ ')' :: s := by simp
    rw [e, hx, after, if_neg (by decide), if_pos rfl, after]
  have e : s = t := by rw [← key s hv, h, key t hw]
  subst e
  exact ⟨List.append_cancel_right h, rfl⟩

/-! ### Formulas whose names are names -/

mutual
/-- All names have the shape of names, and numbers are written without brackets. -/
def CleanExpr : Expr → Prop
  | .pred p => NameShape p.name ∧ ∀ t ∈ p.terms, CleanTerm t
  | .eq l r => CleanTerm l ∧ CleanTerm r
  | .nfun f => NameShape f.name ∧ ∀ t ∈ f.terms, CleanTerm t
  | .num n => '(' ∉ n.text ∧ ')' ∉ n.text
  | .bfun _ as => CleanExprs as
  | .bin _ as => CleanExprs as
  | .not a => CleanExpr a
  | .quant _ vs c => (∀ v ∈ vs, NameShape v.name ∧ ∀ t ∈ v.tags, NameShape t) ∧ CleanExpr c
  | .when c e => CleanExpr c ∧ CleanExpr e
  | .fall vs e => (∀ v ∈ vs, NameShape v.name ∧ ∀ t ∈ v.tags, NameShape t) ∧ CleanExpr e
def CleanExprs : List Expr → Prop
  | [] => True
  | a :: as => CleanExpr a ∧ CleanExprs as
end

theorem cleanExprs_iff {as : List Expr} : CleanExprs as ↔ ∀ a ∈ as, CleanExpr a := by
  induction as with
  | nil => simp [CleanExprs]
  | cons a as ih => simp [CleanExprs, ih]

theorem plain_name {n : Str} (h : NameShape n) : '(' ∉ n ∧ ')' ∉ n :=
  ⟨nameShape_not_mem h (by decide), nameShape_not_mem h (by decide)⟩

theorem plain_term {t : Term} (h : CleanTerm t) : '(' ∉ t.str ∧ ')' ∉ t.str :=
  ⟨termStr_not_mem h (by decide) (by decide), termStr_not_mem h (by decide) (by decide)⟩

theorem plain_append {v w : Str} (hv : '(' ∉ v ∧ ')' ∉ v) (hw : '(' ∉ w ∧ ')' ∉ w) : '(' ∉ v ++ w ∧ ')' ∉ v ++ w := by
  simp only [List.mem_append, not_or]
  exact ⟨⟨hv.1, hw.1⟩, hv.2, hw.2⟩

theorem plain_join {sep : Str} (hs : '(' ∉ sep ∧ ')' ∉ sep) {rs : List Str} (h : ∀ r ∈ rs, '(' ∉ r ∧ ')' ∉ r) :
    '(' ∉ joinStr sep rs ∧ ')' ∉ joinStr sep rs := by
  induction rs with
  | nil => simp [joinStr]
  | cons a l ih =>
    cases l with
    | nil => exact h a (by simp)
    | cons b l =>
      rw [joinStr]
      exact plain_append (plain_append (h a (by simp)) hs) (ih (fun r hr => h r (by simp [hr])))

theorem closed_atom {n : Str} {ts : List Term} (hn : NameShape n) (h : ∀ t ∈ ts, CleanTerm t) : Closed (atomStr n ts) := by
  unfold atomStr
  split
  · exact ⟨n, by simp, .plain (plain_name hn)⟩
  · refine ⟨n ++ s%" " ++ joinStr s%" " (ts.map Term.str), by simp, .plain ?_⟩
    refine plain_append (plain_append (plain_name hn) (by decide)) (plain_join (by decide) (fun r hr => ?_))
    obtain ⟨t, ht, rfl⟩ := List.mem_map.1 hr
    exact plain_term (h t ht)

theorem mem_strip {s : Str} {c : Char} (h : c ∈ strip s) : c ∈ s := by
  unfold strip rstrip lstrip at h
  have h := List.dropWhile_subset _ (List.mem_reverse.1 h)
  exact List.dropWhile_subset _ (List.mem_reverse.1 h)

theorem typed_plain {vs : List Var} (h : ∀ v ∈ vs, NameShape v.name ∧ ∀ t ∈ v.tags, NameShape t) :
    '(' ∉ typedParameters (vs.map Term.var) ∧ ')' ∉ typedParameters (vs.map Term.var) := by
  have hp : ∀ v ∈ vs, '(' ∉ paramStr (.var v) ∧ ')' ∉ paramStr (.var v) := by
    intro v hv
    unfold paramStr
    split
    · exact plain_term (h v hv).1
    · refine plain_append (plain_append (plain_append (by decide) (plain_name (h v hv).1)) (by decide)) (plain_join (by decide) ?_)
      exact fun t ht => plain_name ((h v hv).2 t ht)
  have := plain_join (sep := s%" ") (by decide) (rs := (vs.map Term.var).map paramStr) (by
    intro r hr
    rw [List.map_map] at hr
    obtain ⟨v, hv, rfl⟩ := List.mem_map.1 hr
    exact hp v hv)
  exact ⟨fun hm => this.1 (mem_strip hm), fun hm => this.2 (mem_strip hm)⟩

theorem quantVars_plain {vs : List Var} (h : ∀ v ∈ vs, NameShape v.name ∧ ∀ t ∈ v.tags, NameShape t) :
    '(' ∉ joinStr s%" " (vs.map quantVarStr) ∧ ')' ∉ joinStr s%" " (vs.map quantVarStr) := by
  refine plain_join (by decide) (fun r hr => ?_)
  obtain ⟨v, hv, rfl⟩ := List.mem_map.1 hr
  unfold quantVarStr
  refine plain_append (plain_term (t := .var v) (h v hv).1) ?_
  split
  · simp
  · exact plain_append (by decide) (plain_join (by decide) (fun t ht => plain_name ((h v hv).2 t ht)))

/-- Not a number. -/
def NotNum : Expr → Prop
  | .num _ => False
  | _ => True

theorem strs_map (as : List Expr) : Expr.strs as = as.map Expr.str := by
  induction as with
  | nil => rfl
  | cons a as ih => rw [Expr.strs, ih]; rfl

/-- The text of a formula is in brackets. -/
theorem str_closed {e : Expr} : CleanExpr e → Skips e.str ∧ (NotNum e → Closed e.str) := by
  have both : ∀ {w : Str} {P : Prop}, Closed w → Skips w ∧ (P → Closed w) := fun h => ⟨h.skips, fun _ => h⟩
  have op : ∀ {k : Str} {as : List Expr}, '(' ∉ k ∧ ')' ∉ k → (∀ a ∈ as, CleanExpr a → Skips a.str ∧ (NotNum a → Closed a.str)) →
      CleanExprs as → Closed (s%"(" ++ k ++ s%" " ++ joinStr s%" " (Expr.strs as) ++ s%")") := by
    intro k as hk ih h
    refine ⟨k ++ s%" " ++ joinStr s%" " (Expr.strs as), by simp, ?_⟩
    refine ((Skips.plain hk).append (.plain (by decide))).append (.join (by decide) ?_)
    intro r hr
    rw [strs_map] at hr
    obtain ⟨a, ha, rfl⟩ := List.mem_map.1 hr
    exact (ih a ha (cleanExprs_iff.1 h a ha)).1
  induction e using Expr.ind with
  | hpred p => exact fun h => both (closed_atom h.1 h.2)
  | heq l r =>
    intro h
    refine both ⟨s%"= " ++ l.str ++ s%" " ++ r.str, by simp [Expr.str], .plain ?_⟩
    exact plain_append (plain_append (plain_append (by decide) (plain_term h.1)) (by decide)) (plain_term h.2)
  | hnfun f => exact fun h => both (closed_atom h.1 h.2)
  | hnum n => exact fun h => ⟨.plain h, fun hn => hn.elim⟩
  | hbfun o as ih =>
    intro h
    exact both (op (by cases o <;> decide) ih h)
  | hbin o as ih =>
    intro h
    exact both (op (by cases o <;> decide) ih h)
  | hnot a ih =>
    intro h
    refine both ⟨s%"not " ++ a.str, by simp [Expr.str], (Skips.plain (by decide)).append (ih h).1⟩
  | hquant q vs c ih =>
    intro h
    have h1 : Closed (s%"(" ++ joinStr s%" " (vs.map quantVarStr) ++ s%")") :=
      ⟨_, by simp, .plain (quantVars_plain h.1)⟩
    refine both ⟨q.symbol ++ s%" " ++ (s%"(" ++ joinStr s%" " (vs.map quantVarStr) ++ s%")") ++ s%" " ++ c.str, by simp [Expr.str], ?_⟩
    exact ((((Skips.plain (by cases q <;> decide)).append (.plain (by decide))).append h1.skips).append
      (.plain (by decide))).append (ih h.2).1
  | hwhen c e ih1 ih2 =>
    intro h
    refine both ⟨s%"when " ++ c.str ++ s%" " ++ e.str, by simp [Expr.str], ?_⟩
    exact (((Skips.plain (by decide)).append (ih1 h.1).1).append (.plain (by decide))).append (ih2 h.2).1
  | hfall vs e ih =>
    intro h
    have h1 : Closed (s%"(" ++ typedParameters (vs.map Term.var) ++ s%")") := ⟨_, by simp, .plain (typed_plain h.1)⟩
    refine both ⟨s%"forall " ++ (s%"(" ++ typedParameters (vs.map Term.var) ++ s%")") ++ s%" " ++ e.str, by simp [Expr.str], ?_⟩
    exact (((Skips.plain (by decide)).append h1.skips).append (.plain (by decide))).append (ih h.2).1

/-! ### The parts that `repr` shows -/

mutual
/-- Every part that `repr` shows can be told apart. -/
def Shows (T : Str → Finset Str) : Expr → Prop
  | .pred p => NameShape p.name ∧ ∀ t ∈ p.terms, Scoped T t
  | .eq l r => Scoped T l ∧ Scoped T r
  | .nfun f => NameShape f.name ∧ ∀ t ∈ f.terms, Scoped T t
  | .num _ => False
  | .bfun _ as => ShowsAll T as
  | .bin _ as => ShowsAll T as
  | .not a => Shows T a
  | .quant _ vs c => (∀ v ∈ vs, NameShape v.name ∧ v.tags = []) ∧ Closed c.str
  | .when c e => Closed c.str ∧ Closed e.str
  | .fall vs e => (∀ v ∈ vs, NameShape v.name ∧ v.tags = []) ∧ Closed e.str
def ShowsAll (T : Str → Finset Str) : List Expr → Prop
  | [] => True
  | a :: as => Shows T a ∧ ShowsAll T as
end

theorem showsAll_iff {as : List Expr} : ShowsAll T as ↔ ∀ a ∈ as, Shows T a := by
  induction as with
  | nil => simp [ShowsAll]
  | cons a as ih => simp [ShowsAll, ih]

mutual
/-- The conditions that `repr` shows with `str`. -/
def shownConds : Expr → List Expr
  | .bfun _ as => shownCondsAll as
  | .bin _ as => shownCondsAll as
  | .not a => shownConds a
  | .quant _ _ c => [c]
  | .when c _ => [c]
  | _ => []
def shownCondsAll : List Expr → List Expr
  | [] => []
  | a :: as => shownConds a ++ shownCondsAll as
end

mutual
/-- The effects that `repr` shows with `str`. -/
def shownEffs : Expr → List Expr
  | .bfun _ as => shownEffsAll as
  | .bin _ as => shownEffsAll as
  | .not a => shownEffs a
  | .when _ e => [e]
  | .fall _ e => [e]
  | _ => []
def shownEffsAll : List Expr → List Expr
  | [] => []
  | a :: as => shownEffs a ++ shownEffsAll as
end

theorem mem_shownCondsAll {as : List Expr} {c : Expr} : c ∈ shownCondsAll as ↔ ∃ a ∈ as, c ∈ shownConds a := by
  induction as with
  | nil => simp [shownCondsAll]
  | cons a as ih => simp [shownCondsAll, ih]

theorem mem_shownEffsAll {as : List Expr} {c : Expr} : c ∈ shownEffsAll as ↔ ∃ a ∈ as, c ∈ shownEffs a := by
  induction as with
  | nil => simp [shownEffsAll]
  | cons a as ih => simp [shownEffsAll, ih]

/-- `type(self).__name__`. -/
def Expr.className : Expr → Str
  | .pred _ => s%"Predicate"
  | .eq _ _ => s%"EqualTo"
  | .nfun _ => s%"NumericFunction"
  | .num _ => s%"NumericValue"
  | .bfun o _ => o.className
  | .bin o _ => o.className
  | .not _ => s%"Not"
  | .quant q _ _ => q.className
  | .when _ _ => s%"When"
  | .fall _ _ => s%"Forall"

/-- What is between the brackets. -/
def Expr.reprBody (A : List Nat → Str) (at_ : List Nat) : Expr → Str
  | .pred p => p.name ++ ',' :: (' ' :: joinStr s%", " (p.terms.map Term.str))
  | .eq l r => l.repr ++ ',' :: (' ' :: r.repr)
  | .nfun p => p.name ++ ',' :: (' ' :: joinStr s%", " (p.terms.map Term.str))
  | .num _ => []
  | .bfun _ as => tupleRepr (Expr.reprs A at_ 0 as)
  | .bin _ as => listRepr (Expr.reprs A at_ 0 as)
  | .not a => Expr.repr A (0 :: at_) a
  | .quant _ vs c => varsRepr vs ++ ',' :: (' ' :: c.str)
  | .when c e => c.str ++ ',' :: (' ' :: e.str)
  | .fall vs e => varsRepr vs ++ ',' :: (' ' :: e.str)

theorem repr_eq {A : List Nat → Str} {i : List Nat} {e : Expr} (h : Shows T e) :
    e.repr A i = e.className ++ '(' :: (e.reprBody A i ++ [')']) := by
  cases e <;> first
    | exact h.elim
    | simp [Expr.repr, Expr.className, Expr.reprBody, atomRepr]

theorem className_plain (e : Expr) : '(' ∉ e.className := by
  cases e with
  | bfun o _ => cases o <;> simp [Expr.className, FOp.className]
  | bin o _ => cases o <;> simp [Expr.className, BOp.className]
  | quant o _ _ => cases o <;> simp [Expr.className, QOp.className]
  | _ => simp [Expr.className]

theorem repr_cut {A B : List Nat → Str} {i j : List Nat} {a b : Expr} (ha : Shows T a) (hb : Shows T b) {s t : Str}
    (h : a.repr A i ++ s = b.repr B j ++ t) :
    a.className = b.className ∧ a.reprBody A i ++ ')' :: s = b.reprBody B j ++ ')' :: t := by
  rw [repr_eq ha, repr_eq hb] at h
  simp only [List.append_assoc, List.cons_append, List.nil_append] at h
  exact cut_at (className_plain a) (className_plain b) h

theorem repr_head {A : List Nat → Str} {i : List Nat} {e : Expr} (h : Shows T e) :
    ∃ c x, e.repr A i = c :: x ∧ isAlphaC c = true := by
  rw [repr_eq h]
  cases e with
  | num n => exact h.elim
  | bfun o _ => cases o <;> exact ⟨_, _, rfl, rfl⟩
  | bin o _ => cases o <;> exact ⟨_, _, rfl, rfl⟩
  | quant o _ _ => cases o <;> exact ⟨_, _, rfl, rfl⟩
  | _ => exact ⟨_, _, rfl, rfl⟩

/-- What may follow a list of operands. -/
def OperandsEnd (z : Str) : Prop := ∃ c x, z = c :: x ∧ (c = ']' ∨ c = ')' ∨ c = ',' ∧ x.head? = some ')')

theorem ends_sep {z x : Str} (hz : OperandsEnd z) : z ≠ ',' :: ' ' :: x := by
  rintro rfl
  obtain ⟨c, x, h, h'⟩ := hz
  simp only [List.cons.injEq] at h
  obtain ⟨rfl, rfl⟩ := h
  simp at h'

theorem ends_head {z x : Str} {c : Char} (hz : OperandsEnd z) (hc : isAlphaC c = true) : z ≠ c :: x := by
  rintro rfl
  obtain ⟨d, y, h, h'⟩ := hz
  simp only [List.cons.injEq] at h
  obtain ⟨rfl, rfl⟩ := h
  rcases h' with rfl | rfl | ⟨rfl, _⟩ <;> simp [isAlphaC] at hc

theorem reprs_length {A : List Nat → Str} {i : List Nat} {k : Nat} {as : List Expr} : (Expr.reprs A i k as).length = as.length := by
  induction as generalizing k with
  | nil => rfl
  | cons a as ih => rw [Expr.reprs, List.length_cons, List.length_cons, ih]

theorem commas_cut {A B : List Nat → Str} {i j : List Nat} {as bs : List Expr} (ih : ∀ a ∈ as, ∀ b ∈ bs, ∀ i j s t,
    a.repr A i ++ s = b.repr B j ++ t → a.norm = b.norm ∧ s = t) : ∀ {k l : Nat} {z w : Str}, OperandsEnd z → OperandsEnd w →
    commas (Expr.reprs A i k as) ++ z = commas (Expr.reprs B j l bs) ++ w → as.map Expr.norm = bs.map Expr.norm ∧ z = w := by
  induction as generalizing bs with
  | nil =>
    intro k l z w hz hw h
    cases bs with
    | nil => exact ⟨rfl, by simpa [Expr.reprs, commas] using h⟩
    | cons b bs =>
      simp only [Expr.reprs, commas, List.flatMap_nil, List.nil_append, List.flatMap_cons, List.cons_append] at h
      exact absurd h (ends_sep hz)
  | cons a as ih' =>
    intro k l z w hz hw h
    cases bs with
    | nil =>
      simp only [Expr.reprs, commas, List.flatMap_nil, List.nil_append, List.flatMap_cons, List.cons_append] at h
      exact absurd h.symm (ends_sep hw)
    | cons b bs =>
      have h : a.repr A (k :: i) ++ (commas (Expr.reprs A i (k + 1) as) ++ z) =
          b.repr B (l :: j) ++ (commas (Expr.reprs B j (l + 1) bs) ++ w) := by
        simpa [Expr.reprs, commas] using h
      obtain ⟨e1, h⟩ := ih a (by simp) b (by simp) _ _ _ _ h
      obtain ⟨e2, e3⟩ := ih' (fun a ha b hb => ih a (by simp [ha]) b (by simp [hb])) hz hw h
      exact ⟨by simp [e1, e2], e3⟩

theorem operands_cut {A B : List Nat → Str} {i j : List Nat} {as bs : List Expr} (ih : ∀ a ∈ as, ∀ b ∈ bs, ∀ i j s t,
    a.repr A i ++ s = b.repr B j ++ t → a.norm = b.norm ∧ s = t) (ha : ∀ a ∈ as, Shows T a) (hb : ∀ b ∈ bs, Shows T b)
    {z w : Str} (hz : OperandsEnd z) (hw : OperandsEnd w) (h : joinStr s%", " (Expr.reprs A i 0 as) ++ z = joinStr s%", " (Expr.reprs B j 0 bs) ++ w) :
    as.map Expr.norm = bs.map Expr.norm ∧ z = w := by
  cases as with
  | nil =>
    cases bs with
    | nil => exact ⟨rfl, by simpa [Expr.reprs, joinStr] using h⟩
    | cons b bs =>
      obtain ⟨c, x, e, hc⟩ := repr_head (A := B) (i := [0] ++ j) (hb b (by simp))
      rw [Expr.reprs, Expr.reprs, join_cons, show 0 :: j = [0] ++ j from rfl, e] at h
      exact absurd h (ends_head hz hc)
  | cons a as =>
    cases bs with
    | nil =>
      obtain ⟨c, x, e, hc⟩ := repr_head (A := A) (i := [0] ++ i) (ha a (by simp))
      rw [Expr.reprs, Expr.reprs, join_cons, show 0 :: i = [0] ++ i from rfl, e] at h
      exact absurd h.symm (ends_head hw hc)
    | cons b bs =>
      rw [Expr.reprs, Expr.reprs, join_cons, join_cons, List.append_assoc, List.append_assoc] at h
      obtain ⟨e1, h⟩ := ih a (by simp) b (by simp) _ _ _ _ h
      obtain ⟨e2, e3⟩ := commas_cut (fun a ha b hb => ih a (by simp [ha]) b (by simp [hb])) hz hw h
      exact ⟨by simp [e1, e2], e3⟩

/-- `repr` is a prefix code, up to the parts that it shows with `str`. -/
theorem repr_inj {A B : List Nat → Str} {a : Expr} : ∀ {b : Expr}, Shows T a → Shows T b →
    (∀ c ∈ shownConds a, ∀ c' ∈ shownConds b, c.str = c'.str → c.norm = c'.norm) →
    (∀ c ∈ shownEffs a, ∀ c' ∈ shownEffs b, c.str = c'.str → c.norm = c'.norm) →
    ∀ {i j : List Nat} {s t : Str}, a.repr A i ++ s = b.repr B j ++ t → a.norm = b.norm ∧ s = t := by
  induction a using Expr.ind with
  | hnum n => exact fun ha => ha.elim
  | hpred p =>
    intro b ha hb _ _ i j s t h
    obtain ⟨h1, h2⟩ := repr_cut ha hb h
    cases b with
    | pred q =>
      simp only [Expr.reprBody, List.append_assoc, List.cons_append] at h2
      obtain ⟨e1, e2, e3⟩ := atomBody_inj ha.1 hb.1 ha.2 hb.2 h2
      exact ⟨by simp [Expr.norm, e1, e2], e3⟩
    | bfun o _ => cases o <;> simp [Expr.className, FOp.className] at h1
    | bin o _ => cases o <;> simp [Expr.className, BOp.className] at h1
    | quant o _ _ => cases o <;> simp [Expr.className, QOp.className] at h1
    | _ => simp [Expr.className] at h1
  | hnfun f =>
    intro b ha hb _ _ i j s t h
    obtain ⟨h1, h2⟩ := repr_cut ha hb h
    cases b with
    | nfun q =>
      simp only [Expr.reprBody, List.append_assoc, List.cons_append] at h2
      obtain ⟨e1, e2, e3⟩ := atomBody_inj ha.1 hb.1 ha.2 hb.2 h2
      exact ⟨by simp [Expr.norm, e1, e2], e3⟩
    | bfun o _ => cases o <;> simp [Expr.className, FOp.className] at h1
    | bin o _ => cases o <;> simp [Expr.className, BOp.className] at h1
    | quant o _ _ => cases o <;> simp [Expr.className, QOp.className] at h1
    | _ => simp [Expr.className] at h1
  | heq l r =>
    intro b ha hb _ _ i j s t h
    obtain ⟨h1, h2⟩ := repr_cut ha hb h
    cases b with
    | eq l' r' =>
      simp only [Expr.reprBody, List.append_assoc, List.cons_append] at h2
      obtain ⟨e1, h2⟩ := termRepr_inj ha.1 hb.1 h2
      simp only [List.cons.injEq, true_and] at h2
      obtain ⟨e2, h2⟩ := termRepr_inj ha.2 hb.2 h2
      simp only [List.cons.injEq, true_and] at h2
      exact ⟨by simp [Expr.norm, e1, e2], h2⟩
    | bfun o _ => cases l <;> simp [Expr.reprBody, Term.repr, tupleRepr] at h2
    | bin o _ => cases o <;> simp [Expr.className, BOp.className] at h1
    | quant o _ _ => cases o <;> simp [Expr.className, QOp.className] at h1
    | _ => simp [Expr.className] at h1
  | hnot x ih =>
    intro b ha hb hc he i j s t h
    obtain ⟨h1, h2⟩ := repr_cut ha hb h
    cases b with
    | not y =>
      simp only [Expr.reprBody] at h2
      obtain ⟨e1, h2⟩ := ih (b := y) ha hb hc he h2
      simp only [List.cons.injEq, true_and] at h2
      exact ⟨by simp [Expr.norm, e1], h2⟩
    | bfun o _ => cases o <;> simp [Expr.className, FOp.className] at h1
    | bin o _ => cases o <;> simp [Expr.className, BOp.className] at h1
    | quant o _ _ => cases o <;> simp [Expr.className, QOp.className] at h1
    | _ => simp [Expr.className] at h1
  | hbfun o as ih =>
    intro b ha hb hc he i j s t h
    obtain ⟨h1, h2⟩ := repr_cut ha hb h
    cases b with
    | bfun o' bs =>
      have ho : o = o' := by
        cases o <;> cases o' <;> first | rfl | simp [Expr.className, FOp.className] at h1
      subst ho
      simp only [Expr.reprBody, tupleRepr, List.append_assoc, List.cons_append, List.nil_append, List.cons.injEq, true_and,
        reprs_length] at h2
      have hends : ∀ (l : List Expr) (s : Str), OperandsEnd ((if l.length = 1 then s%"," else []) ++ ')' :: ')' :: s) := by
        intro l s
        split
        · exact ⟨_, _, rfl, .inr (.inr ⟨rfl, rfl⟩)⟩
        · exact ⟨_, _, rfl, .inr (.inl rfl)⟩
      obtain ⟨e1, e2⟩ := operands_cut (fun a ha' b hb' i j s t h => ih a ha' (showsAll_iff.1 ha a ha')
        (showsAll_iff.1 hb b hb') (fun c hc1 c' hc2 => hc c (mem_shownCondsAll.2 ⟨a, ha', hc1⟩) c' (mem_shownCondsAll.2 ⟨b, hb', hc2⟩))
        (fun c hc1 c' hc2 => he c (mem_shownEffsAll.2 ⟨a, ha', hc1⟩) c' (mem_shownEffsAll.2 ⟨b, hb', hc2⟩)) h)
        (showsAll_iff.1 ha) (showsAll_iff.1 hb) (hends as s) (hends bs t) h2
      have hl : as.length = bs.length := by simpa using congrArg List.length e1
      rw [hl] at e2
      simp only [List.append_cancel_left_eq, List.cons.injEq, true_and] at e2
      exact ⟨by simp [Expr.norm, Expr.norms_eq_map, e1], e2⟩
    | eq l _ => cases l <;> simp [Expr.reprBody, Term.repr, tupleRepr] at h2
    | bin o' _ => cases o <;> cases o' <;> simp [Expr.className, FOp.className, BOp.className] at h1
    | quant o' _ _ => cases o <;> cases o' <;> simp [Expr.className, FOp.className, QOp.className] at h1
    | _ => cases o <;> simp [Expr.className, FOp.className] at h1
  | hbin o as ih =>
    intro b ha hb hc he i j s t h
    obtain ⟨h1, h2⟩ := repr_cut ha hb h
    cases b with
    | bin o' bs =>
      have ho : o = o' := by
        cases o <;> cases o' <;> first | rfl | simp [Expr.className, BOp.className] at h1
      subst ho
      simp only [Expr.reprBody, listRepr, List.append_assoc, List.cons_append, List.nil_append, List.cons.injEq, true_and] at h2
      have hends : ∀ (s : Str), OperandsEnd (']' :: ')' :: s) := fun s => ⟨_, _, rfl, .inl rfl⟩
      obtain ⟨e1, e2⟩ := operands_cut (fun a ha' b hb' i j s t h => ih a ha' (showsAll_iff.1 ha a ha')
        (showsAll_iff.1 hb b hb') (fun c hc1 c' hc2 => hc c (mem_shownCondsAll.2 ⟨a, ha', hc1⟩) c' (mem_shownCondsAll.2 ⟨b, hb', hc2⟩))
        (fun c hc1 c' hc2 => he c (mem_shownEffsAll.2 ⟨a, ha', hc1⟩) c' (mem_shownEffsAll.2 ⟨b, hb', hc2⟩)) h)
        (showsAll_iff.1 ha) (showsAll_iff.1 hb) (hends s) (hends t) h2
      simp only [List.cons.injEq, true_and] at e2
      exact ⟨by simp [Expr.norm, Expr.norms_eq_map, e1], e2⟩
    | bfun o' _ => cases o <;> cases o' <;> simp [Expr.className, FOp.className, BOp.className] at h1
    | quant o' _ _ => cases o <;> cases o' <;> simp [Expr.className, BOp.className, QOp.className] at h1
    | _ => cases o <;> simp [Expr.className, BOp.className] at h1
  | hquant q vs c _ =>
    intro b ha hb hc he i j s t h
    obtain ⟨h1, h2⟩ := repr_cut ha hb h
    cases b with
    | quant q' ws c' =>
      have ho : q = q' := by
        cases q <;> cases q' <;> first | rfl | simp [Expr.className, QOp.className] at h1
      subst ho
      simp only [Expr.reprBody, List.append_assoc, List.cons_append] at h2
      obtain ⟨ev, h3⟩ := varsRepr_inj ha.1 hb.1 h2
      subst ev
      simp only [List.cons.injEq, true_and] at h3
      obtain ⟨e1, h2⟩ := ha.2.cut hb.2 h3
      simp only [List.cons.injEq, true_and] at h2
      exact ⟨by simp [Expr.norm, hc c (by simp [shownConds]) c' (by simp [shownConds]) e1], h2⟩
    | bfun o' _ => cases q <;> cases o' <;> simp [Expr.className, FOp.className, QOp.className] at h1
    | bin o' _ => cases q <;> cases o' <;> simp [Expr.className, BOp.className, QOp.className] at h1
    | _ => cases q <;> simp [Expr.className, QOp.className] at h1
  | hwhen c e _ _ =>
    intro b ha hb hc he i j s t h
    obtain ⟨h1, h2⟩ := repr_cut ha hb h
    cases b with
    | «when» c' e' =>
      simp only [Expr.reprBody, List.append_assoc, List.cons_append] at h2
      obtain ⟨e1, h2⟩ := ha.1.cut hb.1 h2
      simp only [List.cons.injEq, true_and] at h2
      obtain ⟨e2, h2⟩ := ha.2.cut hb.2 h2
      simp only [List.cons.injEq, true_and] at h2
      exact ⟨by simp [Expr.norm, hc c (by simp [shownConds]) c' (by simp [shownConds]) e1,
        he e (by simp [shownEffs]) e' (by simp [shownEffs]) e2], h2⟩
    | bfun o _ => cases o <;> simp [Expr.className, FOp.className] at h1
    | bin o _ => cases o <;> simp [Expr.className, BOp.className] at h1
    | quant o _ _ => cases o <;> simp [Expr.className, QOp.className] at h1
    | _ => simp [Expr.className] at h1
  | hfall vs e _ =>
    intro b ha hb hc he i j s t h
    obtain ⟨h1, h2⟩ := repr_cut ha hb h
    cases b with
    | fall ws e' =>
      simp only [Expr.reprBody, List.append_assoc, List.cons_append] at h2
      obtain ⟨ev, h3⟩ := varsRepr_inj ha.1 hb.1 h2
      subst ev
      simp only [List.cons.injEq, true_and] at h3
      obtain ⟨e1, h2⟩ := ha.2.cut hb.2 h3
      simp only [List.cons.injEq, true_and] at h2
      exact ⟨by simp [Expr.norm, he e (by simp [shownEffs]) e' (by simp [shownEffs]) e1], h2⟩
    | bfun o _ => cases o <;> simp [Expr.className, FOp.className] at h1
    | bin o _ => cases o <;> simp [Expr.className, BOp.className] at h1
    | quant o _ _ => cases o <;> simp [Expr.className, QOp.className] at h1
    | _ => simp [Expr.className] at h1

end Pddl
