/-
What `repr` shows of formulas that can be written, and `repr` of actions.
-/
import Verif.Proofs.Repr
import Verif.Proofs.Good
import Verif.Proofs.Reader

namespace Pddl
open Spec

theorem noNumbersShown_iff {as : List Expr} : NoNumbersShown as ↔ ∀ a ∈ as, NoNumberShown a := by
  induction as with
  | nil => simp [NoNumbersShown]
  | cons a as ih => simp [NoNumbersShown, ih]

theorem noTypesHidden_iff {as : List Expr} : NoTypesHidden as ↔ ∀ a ∈ as, NoTypeHidden a := by
  induction as with
  | nil => simp [NoTypesHidden]
  | cons a as ih => simp [NoTypesHidden, ih]

/-- The types that the scope gives to a variable. -/
def scopeTypes (E : GEnv) (n : Str) : Finset Str :=
  match dictGet E.params n with
  | some (.var w) => w.tags.toFinset
  | _ => ∅

theorem known_scoped {E : GEnv} {t : Term} (h : Known E t) : Scoped (scopeTypes E) t := by
  cases t with
  | const n x => exact ⟨h.1.1, fun v hv => nomatch hv⟩
  | var v =>
    refine ⟨h.1.1, ?_⟩
    rintro _ ⟨⟩
    unfold scopeTypes
    rcases h.2 with ⟨w, h1, _, h2⟩ | ⟨h1, h2⟩
    · rw [h1]
      ext x
      simp [h2 x]
    · rw [h1, h2]; rfl

theorem good_pred {p : Pred} (h : (Expr.pred p).Good) : NameShape p.name := (parseName_ok.1 h.1).2.1

theorem good_nfun {f : NFun} (h : (Expr.nfun f).Good) : NameShape f.name := by
  rcases (parseFunction_ok.1 h).2 with hv | hv
  · exact hv.1
  · rw [hv]; exact (nameRegex_iff _).1 (by decide)

theorem printVars_clean {vs : List Var} (h : PrintVars vs) : ∀ v ∈ vs, NameShape v.name ∧ ∀ t ∈ v.tags, NameShape t := by
  intro v hv
  refine ⟨(h.names v hv).1, fun t ht => ?_⟩
  rcases h.types v hv with e | ⟨u, e, hu⟩
  · rw [e] at ht; cases ht
  · rw [e, List.mem_singleton] at ht
    subst ht
    rcases hu with hu | hu
    · exact hu.1
    · rw [hu]; exact (nameRegex_iff _).1 (by decide)

theorem digits_plain {w : Str} (h : ∀ c ∈ w, Digit c) : '(' ∉ w ∧ ')' ∉ w :=
  ⟨fun hm => absurd (h _ hm) (by simp [Digit]), fun hm => absurd (h _ hm) (by simp [Digit])⟩

theorem number_plain {F : FloatOf} {n : Num} (h : NumberText F n) : '(' ∉ n.text ∧ ')' ∉ n.text := by
  cases h with
  | int n =>
    have h := (natDigits_spec n).1
    have e : (Num.int (n : Int)).text = natDigits n := by simp [Num.text]
    rw [e]
    exact ⟨fun hm => absurd (h.2 _ hm) (by decide), fun hm => absurd (h.2 _ hm) (by decide)⟩
  | flt a b ha hb _ =>
    have h1 := digits_plain ha.2
    have h2 := digits_plain hb.2
    simp [Num.text, h1, h2]

theorem clean_num {E : GEnv} {e : Expr} (h : PrintNum E e) : e.Good → CleanExpr e := by
  induction h with
  | num h => exact fun _ => number_plain h
  | fn h => exact fun g => ⟨good_nfun g, fun t ht => (known_scoped (h t ht)).1⟩
  | plus _ _ ih => exact fun g => cleanExprs_iff.2 (fun a ha => ih a ha (goods_iff.1 g.2 a ha))
  | times _ _ ih => exact fun g => cleanExprs_iff.2 (fun a ha => ih a ha (goods_iff.1 g.2 a ha))
  | divide _ _ iha ihb => exact fun g => ⟨iha g.2.1, ihb g.2.2.1, trivial⟩
  | minus _ ih => exact fun g => ⟨ih g.2.1, trivial⟩

theorem clean_cond {E : GEnv} {e : Expr} (h : PrintCond E e) : e.Good → CleanExpr e ∧ NotNum e := by
  induction h with
  | pred h => exact fun g => ⟨⟨good_pred g, fun t ht => (known_scoped (h t ht)).1⟩, trivial⟩
  | eq h1 h2 _ => exact fun g => ⟨⟨(known_scoped h1).1, (known_scoped h2).1⟩, trivial⟩
  | and _ ih => exact fun g => ⟨cleanExprs_iff.2 (fun a ha => (ih a ha (goods_iff.1 g.2 a ha)).1), trivial⟩
  | or _ _ ih => exact fun g => ⟨cleanExprs_iff.2 (fun a ha => (ih a ha (goods_iff.1 g.2 a ha)).1), trivial⟩
  | imply _ _ _ iha ihb => exact fun g => ⟨⟨(iha g.2.1).1, (ihb g.2.2.1).1, trivial⟩, trivial⟩
  | not _ ih => exact fun g => ⟨(ih g).1, trivial⟩
  | quant _ hv _ _ ih => exact fun g => ⟨⟨printVars_clean hv, (ih g.2).1⟩, trivial⟩
  | comp _ ha hb => exact fun g => ⟨⟨clean_num ha g.2.1, clean_num hb g.2.2.1, trivial⟩, trivial⟩

theorem clean_atom {E : GEnv} {e : Expr} (h : PrintAtom E e) (g : e.Good) : CleanExpr e ∧ NotNum e := by
  cases h with
  | pred h => exact ⟨⟨good_pred g, fun t ht => (known_scoped (h t ht)).1⟩, trivial⟩
  | eq h1 h2 _ => exact ⟨⟨(known_scoped h1).1, (known_scoped h2).1⟩, trivial⟩

theorem clean_lit {E : GEnv} {e : Expr} (h : PrintLit E e) (g : e.Good) : CleanExpr e ∧ NotNum e := by
  cases h with
  | atom h => exact clean_atom h g
  | not h => exact ⟨(clean_atom h g).1, trivial⟩
  | assign _ hf hx => exact ⟨⟨⟨good_nfun g.2.1, fun t ht => (known_scoped (hf t ht)).1⟩, clean_num hx g.2.2.1, trivial⟩, trivial⟩

theorem clean_when {E : GEnv} {e : Expr} (h : PrintWhen E e) (g : e.Good) : CleanExpr e ∧ NotNum e := by
  cases h with
  | lit h => exact clean_lit h g
  | and h => exact ⟨cleanExprs_iff.2 (fun a ha => (clean_lit (h a ha) (goods_iff.1 g.2 a ha)).1), trivial⟩

theorem clean_eff {E : GEnv} {b : Bool} {e : Expr} (h : PrintEff E b e) : e.Good → CleanExpr e ∧ NotNum e := by
  induction h with
  | lit h => exact clean_lit h
  | and _ ih => exact fun g => ⟨cleanExprs_iff.2 (fun a ha => (ih a ha (goods_iff.1 g.2 a ha)).1), trivial⟩
  | «when» hc he => exact fun g => ⟨⟨(clean_cond hc g.1).1, (clean_when he g.2).1⟩, trivial⟩
  | fall _ hv _ ih => exact fun g => ⟨⟨printVars_clean hv, (ih g.2).1⟩, trivial⟩
  | oneof _ _ _ ih => exact fun g => ⟨cleanExprs_iff.2 (fun a ha => (ih a ha (goods_iff.1 g.2 a ha)).1), trivial⟩

theorem closed_cond {E : GEnv} {e : Expr} (h : PrintCond E e) (g : e.Good) : Closed e.str :=
  (str_closed (clean_cond h g).1).2 (clean_cond h g).2

theorem closed_eff {E : GEnv} {b : Bool} {e : Expr} (h : PrintEff E b e) (g : e.Good) : Closed e.str :=
  (str_closed (clean_eff h g).1).2 (clean_eff h g).2

theorem printEff_when {E : GEnv} {e : Expr} (h : PrintWhen E e) : PrintEff E true e := by
  cases h with
  | lit h => exact .lit h
  | and h => exact .and (fun a ha => .lit (h a ha))

/-! ### What is shown -/

/-- The parts that `repr` shows with `str` can be written. -/
structure ShownParts (E : GEnv) (e : Expr) : Prop where
  shows_ : Shows (scopeTypes E) e
  conds : ∀ c ∈ shownConds e, PrintCond E c ∧ c.Good
  effs : ∀ c ∈ shownEffs e, PrintEff E true c ∧ c.Good

theorem ShownParts.ofAll {E : GEnv} {e : Expr} {as : List Expr} (h : ∀ a ∈ as, ShownParts E a)
    (e1 : Shows (scopeTypes E) e = ShowsAll (scopeTypes E) as) (e2 : shownConds e = shownCondsAll as)
    (e3 : shownEffs e = shownEffsAll as) : ShownParts E e := by
  refine ⟨?_, ?_, ?_⟩
  · rw [e1]; exact showsAll_iff.2 (fun a ha => (h a ha).shows_)
  · intro c hc
    rw [e2] at hc
    obtain ⟨a, ha, hc⟩ := mem_shownCondsAll.1 hc
    exact (h a ha).conds c hc
  · intro c hc
    rw [e3] at hc
    obtain ⟨a, ha, hc⟩ := mem_shownEffsAll.1 hc
    exact (h a ha).effs c hc

theorem shown_bfun {E : GEnv} {o : FOp} {as : List Expr} (h : ∀ a ∈ as, ShownParts E a) : ShownParts E (.bfun o as) :=
  .ofAll h (by rw [Shows]) (by rw [shownConds]) (by rw [shownEffs])

theorem shown_bin {E : GEnv} {o : BOp} {as : List Expr} (h : ∀ a ∈ as, ShownParts E a) : ShownParts E (.bin o as) :=
  .ofAll h (by rw [Shows]) (by rw [shownConds]) (by rw [shownEffs])

theorem shown_not {E : GEnv} {a : Expr} (h : ShownParts E a) : ShownParts E (.not a) := ⟨h.1, h.2, h.3⟩

theorem shown_atom {E : GEnv} {e : Expr} (h : PrintAtom E e) (g : e.Good) : ShownParts E e := by
  cases h with
  | pred h => exact ⟨⟨good_pred g, fun t ht => known_scoped (h t ht)⟩, nofun, nofun⟩
  | eq h1 h2 _ => exact ⟨⟨known_scoped h1, known_scoped h2⟩, nofun, nofun⟩

theorem shown_nfun {E : GEnv} {f : NFun} (h : ∀ t ∈ f.terms, Known E t) (g : (Expr.nfun f).Good) : ShownParts E (.nfun f) :=
  ⟨⟨good_nfun g, fun t ht => known_scoped (h t ht)⟩, nofun, nofun⟩

theorem shown_num {E : GEnv} {e : Expr} (h : PrintNum E e) : e.Good → NoNumberShown e → ShownParts E e := by
  induction h with
  | num _ => exact fun _ hn => hn.elim
  | fn h => exact fun g _ => shown_nfun h g
  | plus _ _ ih => exact fun g hn => shown_bfun (fun a ha => ih a ha (goods_iff.1 g.2 a ha) (noNumbersShown_iff.1 hn a ha))
  | times _ _ ih => exact fun g hn => shown_bfun (fun a ha => ih a ha (goods_iff.1 g.2 a ha) (noNumbersShown_iff.1 hn a ha))
  | @divide a b _ _ iha ihb =>
    intro g hn
    refine shown_bfun (fun x hx => ?_)
    rcases List.mem_pair.1 hx with rfl | rfl
    · exact iha g.2.1 hn.1
    · exact ihb g.2.2.1 hn.2.1
  | @minus a _ ih =>
    intro g hn
    refine shown_bfun (fun x hx => ?_)
    rw [List.mem_singleton] at hx
    subst hx
    exact ih g.2.1 hn.1

theorem shown_cond {E : GEnv} {e : Expr} (h : PrintCond E e) : e.Good → NoNumberShown e → NoTypeHidden e → ShownParts E e := by
  induction h with
  | pred h => exact fun g _ _ => shown_atom (.pred h) g
  | eq h1 h2 h3 => exact fun g _ _ => shown_atom (.eq h1 h2 h3) g
  | and _ ih =>
    exact fun g hn ht => shown_bin (fun a ha => ih a ha (goods_iff.1 g.2 a ha) (noNumbersShown_iff.1 hn a ha) (noTypesHidden_iff.1 ht a ha))
  | or _ _ ih =>
    exact fun g hn ht => shown_bin (fun a ha => ih a ha (goods_iff.1 g.2 a ha) (noNumbersShown_iff.1 hn a ha) (noTypesHidden_iff.1 ht a ha))
  | imply _ _ _ iha ihb =>
    intro g hn ht
    refine shown_bin (fun x hx => ?_)
    rcases List.mem_pair.1 hx with rfl | rfl
    · exact iha g.2.1 hn.1 ht.1
    · exact ihb g.2.2.1 hn.2.1 ht.2.1
  | not _ ih => exact fun g hn ht => shown_not (ih g hn ht)
  | quant _ hv hc _ _ =>
    intro g hn ht
    refine ⟨⟨fun v hv' => ⟨(hv.names v hv').1, ht v hv'⟩, closed_cond hc g.2⟩, ?_, nofun⟩
    intro c hc'
    rw [shownConds, List.mem_singleton] at hc'
    subst hc'
    exact ⟨hc, g.2⟩
  | comp _ ha hb =>
    intro g hn ht
    refine shown_bfun (fun x hx => ?_)
    rcases List.mem_pair.1 hx with rfl | rfl
    · exact shown_num ha g.2.1 hn.1
    · exact shown_num hb g.2.2.1 hn.2.1

theorem shown_lit {E : GEnv} {e : Expr} (h : PrintLit E e) (g : e.Good) (hn : NoNumberShown e) : ShownParts E e := by
  cases h with
  | atom h => exact shown_atom h g
  | not h => exact shown_not (shown_atom h g)
  | assign _ hf hx =>
    refine shown_bfun (fun x hx' => ?_)
    rcases List.mem_pair.1 hx' with rfl | rfl
    · exact shown_nfun hf g.2.1
    · exact shown_num hx g.2.2.1 hn.2.1

theorem shown_eff {E : GEnv} {b : Bool} {e : Expr} (h : PrintEff E b e) : e.Good → NoNumberShown e → NoTypeHidden e → ShownParts E e := by
  induction h with
  | lit h => exact fun g hn _ => shown_lit h g hn
  | and _ ih =>
    exact fun g hn ht => shown_bin (fun a ha => ih a ha (goods_iff.1 g.2 a ha) (noNumbersShown_iff.1 hn a ha) (noTypesHidden_iff.1 ht a ha))
  | oneof _ _ _ ih =>
    exact fun g hn ht => shown_bin (fun a ha => ih a ha (goods_iff.1 g.2 a ha) (noNumbersShown_iff.1 hn a ha) (noTypesHidden_iff.1 ht a ha))
  | «when» hc he =>
    intro g hn ht
    have he := printEff_when he
    refine ⟨⟨closed_cond hc g.1, closed_eff he g.2⟩, ?_, ?_⟩
    · intro c hc'
      rw [shownConds, List.mem_singleton] at hc'
      subst hc'
      exact ⟨hc, g.1⟩
    · intro c hc'
      rw [shownEffs, List.mem_singleton] at hc'
      subst hc'
      exact ⟨he, g.2⟩
  | fall _ hv he _ =>
    intro g hn ht
    refine ⟨⟨fun v hv' => ⟨(hv.names v hv').1, ht v hv'⟩, closed_eff he g.2⟩, nofun, ?_⟩
    intro c hc'
    rw [shownEffs, List.mem_singleton] at hc'
    subst hc'
    exact ⟨he, g.2⟩

/-! ### Actions -/

theorem params_cut {us vs : List Str} (hu : ∀ r ∈ us, ∃ n, r = '?' :: n ∧ ',' ∉ n) (hv : ∀ r ∈ vs, ∃ n, r = '?' :: n ∧ ',' ∉ n)
    {s t : Str} (h : joinStr s%", " us ++ s%", p" ++ s = joinStr s%", " vs ++ s%", p" ++ t) : us = vs ∧ s = t := by
  have key : ∀ {us vs : List Str}, (∀ r ∈ us, ∃ n, r = '?' :: n ∧ ',' ∉ n) → (∀ r ∈ vs, ∃ n, r = '?' :: n ∧ ',' ∉ n) →
      commas us ++ ',' :: ' ' :: 'p' :: s = commas vs ++ ',' :: ' ' :: 'p' :: t → us = vs ∧ s = t := by
    intro us
    induction us with
    | nil =>
      intro vs _ hv h
      cases vs with
      | nil => simp [commas] at h; exact ⟨rfl, h⟩
      | cons v vs =>
        obtain ⟨n, rfl, _⟩ := hv v (by simp)
        simp [commas] at h
    | cons u us ih =>
      intro vs hu hv h
      obtain ⟨m, rfl, hm⟩ := hu u (by simp)
      cases vs with
      | nil => simp [commas] at h
      | cons v vs =>
        obtain ⟨n, rfl, hn⟩ := hv v (by simp)
        have e : ∀ (l : List Str) (x : Str), ∃ y, commas l ++ ',' :: ' ' :: 'p' :: x = ',' :: y := by
          intro l x
          cases l <;> exact ⟨_, rfl⟩
        have h : m ++ (commas us ++ ',' :: ' ' :: 'p' :: s) = n ++ (commas vs ++ ',' :: ' ' :: 'p' :: t) := by
          simpa [commas] using h
        obtain ⟨y, hy⟩ := e us s
        obtain ⟨z, hz⟩ := e vs t
        have h' := h
        rw [hy, hz] at h'
        obtain ⟨rfl, h'⟩ := cut_at hm hn h'
        obtain ⟨e1, e2⟩ := ih (fun r hr => hu r (by simp [hr])) (fun r hr => hv r (by simp [hr])) (List.append_cancel_left h)
        exact ⟨by rw [e1], e2⟩
  cases us with
  | nil =>
    cases vs with
    | nil => simp [joinStr] at h; exact ⟨rfl, h⟩
    | cons v vs =>
      obtain ⟨n, rfl, _⟩ := hv v (by simp)
      rw [join_cons] at h
      simp [joinStr] at h
  | cons u us =>
    cases vs with
    | nil =>
      obtain ⟨n, rfl, _⟩ := hu u (by simp)
      rw [join_cons] at h
      simp [joinStr] at h
    | cons v vs =>
      refine key hu hv ?_
      rw [join_cons, join_cons] at h
      simp only [List.append_assoc, List.cons_append, List.nil_append] at h
      simp [commas] at h ⊢
      exact h

theorem optStr_cut {x y : Option Expr} (hx : ∀ e, x = some e → Closed e.str) (hy : ∀ e, y = some e → Closed e.str) {s t : Str}
    (h : optStr x ++ s = optStr y ++ t) : ((x = none ∧ y = none) ∨ ∃ e f, x = some e ∧ y = some f ∧ e.str = f.str) ∧ s = t := by
  cases x with
  | none =>
    cases y with
    | none => exact ⟨.inl ⟨rfl, rfl⟩, by simpa [optStr] using h⟩
    | some f =>
      obtain ⟨z, hz, _⟩ := hy f rfl
      simp [optStr, hz] at h
  | some e =>
    cases y with
    | none =>
      obtain ⟨z, hz, _⟩ := hx e rfl
      simp [optStr, hz] at h
    | some f =>
      obtain ⟨e1, e2⟩ := (hx e rfl).cut (hy f rfl) h
      exact ⟨.inr ⟨e, f, rfl, rfl, e1⟩, e2⟩

end Pddl
