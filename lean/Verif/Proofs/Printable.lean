/-
Conditions that have been read can be written, up to three obstacles.
-/
import Verif.Proofs.FormulaParse

namespace Pddl
open Spec

variable {E : GEnv}

theorem noObstacles_iff {F : FloatOf} {as : List Expr} : NoObstacles F as ↔ ∀ a ∈ as, NoObstacle F a := by
  induction as with
  | nil => simp [NoObstacles]
  | cons a as ih => simp [NoObstacles, ih]

/-- Numeric expressions as they are read. -/
inductive ReadNum (E : GEnv) : Expr → Prop
  | num {n} : ReadNum E (.num n)
  | fn {f : NFun} : (∀ t ∈ f.terms, Known E t) → ReadNum E (.nfun f)
  | op {o as} : (o = .plus ∨ o = .times ∨ o = .divide ∨ o = .minus) → (∀ a ∈ as, ReadNum E a) →
      ReadNum E (.bfun o as)

/-- Conditions as they are read. -/
inductive ReadCond (E : GEnv) : Expr → Prop
  | pred {p : Pred} : (∀ t ∈ p.terms, Known E t) → ReadCond E (.pred p)
  | eq {l r} : Known E l → Known E r → Allows E [.equality] → ReadCond E (.eq l r)
  | and {as} : (∀ a ∈ as, ReadCond E a) → ReadCond E (.bin .and as)
  | or {as} : (∀ a ∈ as, ReadCond E a) → Allows E [.disPrecondition, .adl] → ReadCond E (.bin .or as)
  | imply {a b} : ReadCond E a → ReadCond E b → Allows E [.disPrecondition, .adl] →
      ReadCond E (.bin .imply [a, b])
  | not {a} : ReadCond E a → ReadCond E (.not a)
  | quant {q vs c} : ReadCond E c →
      Allows E [quantReq q, .quantifiedPrecondition, .adl] → ReadCond E (.quant q vs c)
  | comp {o as} : IsComparison o → (∀ a ∈ as, ReadNum E a) → ReadCond E (.bfun o as)

theorem construct_read {P : Expr → Prop} (c : Cls) (hop : ∀ as, P (Expr.ofCls c as) → ∀ a ∈ as, P a)
    {es : List Expr} (h : ∀ e ∈ es, P e) :
    (P (construct c es) ∧ c.idempotent = true) ∨ ∃ as, construct c es = Expr.ofCls c as ∧ ∀ a ∈ as, P a := by
  have hall : ∀ e ∈ flattenEs c es ++ es, P e := by
    intro e he
    rcases List.mem_append.1 he with he | he
    · refine flatten_closed c ?_ es h e he
      intro e as ho hp
      rw [ofCls_operandsIf.1 ho] at hp
      exact hop as hp
    · exact h e he
  rcases construct_cases c es with ⟨e, h1, h2, h3⟩ | ⟨as, h1, _, h2⟩
  · left; rw [h1]; exact ⟨hall e h2, h3⟩
  · right; exact ⟨as, h1, fun a ha => hall a (h2 a ha)⟩

theorem terms_known (hE : TermScope E) {args : List Tree} {ts : List Term} (h : E.terms args = .ok ts) :
    ∀ t ∈ ts, Known E t := by
  fun_induction GEnv.terms E args generalizing ts with
  | case1 => simp at h; subst h; simp
  | case2 n args ih =>
    simp only [bind_ok_iff, pure_ok, Except.ok.injEq] at h
    obtain ⟨t, ht, r, hr, rfl⟩ := h
    intro x hx
    rcases List.mem_cons.1 hx with rfl | hx
    · obtain ⟨hv, y, rfl⟩ := hE.constants n x ht
      exact ⟨hv, ht⟩
    · exact ih hr x hx
  | case3 n args ih =>
    simp only [bind_ok_iff, pure_ok, Except.ok.injEq] at h
    obtain ⟨t, ht, r, hr, rfl⟩ := h
    intro x hx
    rcases List.mem_cons.1 hx with rfl | hx
    · unfold GEnv.variable at ht
      split at ht
      · rename_i t hd
        simp only [pure_ok, Except.ok.injEq] at ht
        subst ht
        obtain ⟨hv, w, rfl, hw⟩ := hE.params n _ hd
        subst hw
        exact ⟨hv, Or.inl ⟨w, hd, rfl, fun _ => Iff.rfl⟩⟩
      · rename_i hd
        simp only [bind_ok_iff, pure_ok, Except.ok.injEq] at ht
        obtain ⟨v, hv, rfl⟩ := ht
        obtain ⟨h1, _, rfl⟩ := mkVar_set_ok.1 hv
        exact ⟨h1, Or.inr ⟨hd, by simp [dedupBy, dedupAux]⟩⟩
    · exact ih hr x hx
  | case4 => simp at h

theorem zip_right {α β} {as : List α} {bs : List β} (h : as.length = bs.length) {b : β} (hb : b ∈ bs) :
    ∃ a, (a, b) ∈ as.zip bs := by
  induction as generalizing bs with
  | nil => cases bs <;> simp_all
  | cons a as ih =>
    cases bs with
    | nil => simp at hb
    | cons c bs =>
      rcases List.mem_cons.1 hb with rfl | hb
      · exact ⟨a, by simp⟩
      · obtain ⟨x, hx⟩ := ih (by simpa using h) hb
        exact ⟨x, by simp [hx]⟩

theorem readNum_op {o : FOp} (ho : o = .plus ∨ o = .times ∨ o = .divide ∨ o = .minus) {es : List Expr}
    (h : ∀ e ∈ es, ReadNum E e) : ReadNum E (construct (.fop o) es) := by
  have hop : ∀ as, ReadNum E (.bfun o as) → ∀ a ∈ as, ReadNum E a := by
    intro as ha
    cases ha with
    | op _ h => exact h
  rcases construct_read (P := ReadNum E) (.fop o) hop h with h | ⟨as, h1, h2⟩
  · exact h.1
  · rw [h1]; exact .op ho h2

theorem FRel.read (hE : TermScope E) {t : Tree} {e : Expr} (h : FRel E t e) : ReadNum E e := by
  induction h with
  | num _ => exact .num
  | plus _ hl _ ih =>
    exact readNum_op (by simp) (fun e he => by obtain ⟨a, ha⟩ := zip_right hl he; exact ih (a, e) ha)
  | times _ hl _ ih =>
    exact readNum_op (by simp) (fun e he => by obtain ⟨a, ha⟩ := zip_right hl he; exact ih (a, e) ha)
  | divide _ _ h1 h2 =>
    refine readNum_op (by simp) ?_
    intro e he
    simp only [List.mem_cons, List.not_mem_nil, or_false] at he
    rcases he with rfl | rfl
    · exact h1
    · exact h2
  | minus _ h1 =>
    refine readNum_op (by simp) ?_
    intro e he
    simp only [List.mem_cons, List.not_mem_nil, or_false] at he
    subst he; exact h1
  | fn0 h =>
    obtain ⟨_, rfl⟩ := mkNFun_ok.1 h
    exact .fn (by simp)
  | fn h1 h2 =>
    obtain ⟨_, rfl⟩ := mkNFun_ok.1 h2
    exact .fn (terms_known hE h1)

theorem compOp_comparison {t : Tok} {o : FOp} (h : compOp t = some o) : IsComparison o := by
  cases t <;> simp [compOp] at h <;> subst h <;> trivial

theorem GRel.read (hE : TermScope E) {t : Tree} {e : Expr} (h : GRel E t e) : ReadCond E e := by
  induction h with
  | @and args es hl _ ih =>
    have hop : ∀ as, ReadCond E (.bin .and as) → ∀ a ∈ as, ReadCond E a := by
      intro as ha
      cases ha with
      | and h => exact h
    rcases construct_read (P := ReadCond E) (.bop .and) hop
      (fun e he => by obtain ⟨a, ha⟩ := zip_right hl he; exact ih (a, e) ha) with h | ⟨as, h1, h2⟩
    · exact h.1
    · rw [mkAnd, h1]; exact .and h2
  | @or args es hl _ hr ih =>
    have hop : ∀ as, ReadCond E (.bin .or as) → ∀ a ∈ as, ReadCond E a := by
      intro as ha
      cases ha with
      | or h _ => exact h
    rcases construct_read (P := ReadCond E) (.bop .or) hop
      (fun e he => by obtain ⟨a, ha⟩ := zip_right hl he; exact ih (a, e) ha) with h | ⟨as, h1, h2⟩
    · exact h.1
    · rw [mkOr, h1]; exact .or h2 (allows_iff.2 hr)
  | not _ ih => exact .not ih
  | imply _ _ hr h1 h2 =>
    have : construct (.bop .imply) = fun l => Expr.bin .imply l := by
      funext l; simp [construct, Cls.isMeta, Expr.ofCls]
    rw [this]; exact .imply h1 h2 (allows_iff.2 hr)
  | @quant q vs c e toks l vars _ _ _ hr _ ih =>
    refine .quant ih (allows_iff.2 ?_)
    cases q <;> exact hr
  | atom _ h1 h2 =>
    obtain ⟨_, _, rfl⟩ := mkPred_ok.1 h2
    exact .pred (terms_known hE h1)
  | eq _ h1 hr h2 =>
    obtain ⟨_, rfl⟩ := mkEq_ok.1 h2
    have := terms_known hE h1
    exact .eq (this _ (by simp)) (this _ (by simp)) (allows_iff.2 hr)
  | @comp t op a b e e' hc _ h1 h2 =>
    have hcmp := compOp_comparison hc
    have hr : ∀ x ∈ [e, e'], ReadNum E x := by
      intro x hx
      simp only [List.mem_cons, List.not_mem_nil, or_false] at hx
      rcases hx with rfl | rfl
      · exact (fExp_rel h1).read hE
      · exact (fExp_rel h2).read hE
    have hop : ∀ as, ReadNum E (.bfun op as) → ∀ a ∈ as, ReadNum E a := by
      intro as ha
      cases ha with
      | op _ h => exact h
    rcases construct_read (P := ReadNum E) (.fop op) hop hr with h | ⟨as, h3, h4⟩
    · exact absurd h.2 (by simp [Cls.idempotent])
    · rw [h3]; exact .comp hcmp h4

theorem ReadNum.print {e : Expr} (h : ReadNum E e) (hn : NoObstacle E.float e) : PrintNum E e := by
  induction h with
  | num => exact .num hn
  | fn h => exact .fn h
  | @op o as ho _ ih =>
    obtain ⟨ha, hn⟩ := hn
    have hn := noObstacles_iff.1 hn
    have ih : ∀ a ∈ as, PrintNum E a := fun a h => ih a h (hn a h)
    rcases ho with rfl | rfl | rfl | rfl
    · exact .plus ha ih
    · exact .times ha ih
    · obtain ⟨a, b, rfl⟩ := length_two ha
      exact .divide (ih a (by simp)) (ih b (by simp))
    · obtain ⟨a, rfl⟩ := length_one ha
      exact .minus (ih a (by simp))

theorem ReadCond.print (hE : DomainScope E) {e : Expr} (h : ReadCond E e) (hn : NoObstacle E.float e) :
    PrintCond E e := by
  induction h with
  | pred h => exact .pred h
  | eq h1 h2 h3 => exact .eq h1 h2 h3
  | and _ ih => exact .and (fun a ha => ih a ha (noObstacles_iff.1 hn a ha))
  | or _ hr ih => exact .or (fun a ha => ih a ha (noObstacles_iff.1 hn a ha)) hr
  | imply _ _ hr h1 h2 => exact .imply (h1 hn.1) (h2 hn.2.1) hr
  | not _ ih => exact .not (ih hn)
  | quant _ hr ih => exact .quant hE.typedLists hn.1 (ih hn.2) hr
  | @comp o as ho ha =>
    obtain ⟨hl, hn⟩ := hn
    have hn := noObstacles_iff.1 hn
    have : as.length = 2 := by cases o <;> first | exact hl | exact absurd ho (by simp [IsComparison])
    obtain ⟨a, b, rfl⟩ := length_two this
    exact .comp ho ((ha a (by simp)).print (hn a (by simp))) ((ha b (by simp)).print (hn b (by simp)))

/-! ### What is read is built by the constructors -/

theorem FRel.good {t : Tree} {e : Expr} (h : FRel E t e) : e.Good := by
  induction h with
  | num _ => trivial
  | plus _ hl _ ih =>
    exact good_construct (fun e he => by obtain ⟨a, ha⟩ := zip_right hl he; exact ih (a, e) ha)
  | times _ hl _ ih =>
    exact good_construct (fun e he => by obtain ⟨a, ha⟩ := zip_right hl he; exact ih (a, e) ha)
  | divide _ _ h1 h2 =>
    refine good_construct ?_
    intro e he
    simp only [List.mem_cons, List.not_mem_nil, or_false] at he
    rcases he with rfl | rfl
    · exact h1
    · exact h2
  | minus _ h1 =>
    refine good_construct ?_
    intro e he
    simp only [List.mem_cons, List.not_mem_nil, or_false] at he
    subst he; exact h1
  | fn0 h => exact (Built.nfun h).good
  | fn _ h => exact (Built.nfun h).good

theorem GRel.good {t : Tree} {e : Expr} (h : GRel E t e) : e.Good := by
  have two : ∀ {c : Cls} {a b : Expr}, a.Good → b.Good → (construct c [a, b]).Good := by
    intro c a b ha hb
    refine good_construct ?_
    intro e he
    simp only [List.mem_cons, List.not_mem_nil, or_false] at he
    rcases he with rfl | rfl
    · exact ha
    · exact hb
  induction h with
  | and hl _ ih =>
    exact good_construct (fun e he => by obtain ⟨a, ha⟩ := zip_right hl he; exact ih (a, e) ha)
  | or hl _ _ ih =>
    exact good_construct (fun e he => by obtain ⟨a, ha⟩ := zip_right hl he; exact ih (a, e) ha)
  | not _ ih => exact ih
  | imply _ _ _ h1 h2 => exact two h1 h2
  | quant _ _ _ _ _ ih => exact (Built.quant _ _ ih.built).good
  | atom _ _ h => exact (Built.pred h).good
  | eq _ _ _ h => exact (Built.eq h).good
  | comp _ _ h1 h2 => exact two (fExp_rel h1).good (fExp_rel h2).good

end Pddl
