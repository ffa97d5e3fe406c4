/-
Numeric expressions are read as `readNum` says.
-/
import Verif.Spec.AsRead
import Verif.Proofs.EffectSem
import Verif.Props.Operands

namespace Pddl
open Spec

variable {D : Type} (I : Interp D) (lit : Str → Option Rat)

/-- The signs of arithmetic and their operators. -/
def Sign (k : Tok) (o : FOp) : Prop := (k = .plus ∧ o = .plus) ∨ (k = .times ∧ o = .times) ∨ (k = .divide ∧ o = .divide) ∨ (k = .minus ∧ o = .minus)

/-- The expression of a text in which no operand is to be dropped. -/
inductive NRel (E : GEnv) : Tree → Expr → Prop
  | num {s n} : numLiteral E.float s = .ok n → NRel E (.atom (.num s)) (.num n)
  | fn {n args ts} : E.terms args = .ok ts → NRel E (.node (.atom (.name n) :: args)) (.nfun ⟨n, ts⟩)
  | op {k o args es} : Sign k o → List.Forall₂ (NRel E) args es → NRel E (.node (.atom k :: args)) (.bfun o es)

theorem nrel_ind {E : GEnv} {P : Tree → Expr → Prop} (h1 : ∀ s n, numLiteral E.float s = .ok n → P (.atom (.num s)) (.num n))
    (h2 : ∀ n args ts, E.terms args = .ok ts → P (.node (.atom (.name n) :: args)) (.nfun ⟨n, ts⟩))
    (h3 : ∀ k o args es, Sign k o → List.Forall₂ (fun t e => NRel E t e ∧ P t e) args es → P (.node (.atom k :: args)) (.bfun o es))
    {t : Tree} {e : Expr} (h : NRel E t e) : P t e := by
  induction t using Tree.ind generalizing e with
  | hatom a => cases h with | num h => exact h1 _ _ h
  | hnode l ih =>
    cases h with
    | fn h => exact h2 _ _ _ h
    | op hs hr =>
      refine h3 _ _ _ _ hs ?_
      have ih' : ∀ t ∈ _, ∀ e, NRel E t e → P t e := fun t ht e he => ih t (List.mem_cons_of_mem _ ht) he
      clear ih h1 h2 h3
      induction hr with
      | nil => exact .nil
      | cons h _ ih2 => exact .cons ⟨h, ih' _ (by simp) _ h⟩ (ih2 fun t ht => ih' t (List.mem_cons_of_mem _ ht))

theorem nrel_value {E : GEnv} (hE : ParserEnv E) (hlit : LitOk lit E.float) {ρ : Str → D} {t : Tree} {e : Expr} (h : NRel E t e) :
    value I ρ e = treeValue I lit ρ t := by
  refine nrel_ind (P := fun t e => value I ρ e = treeValue I lit ρ t) ?_ ?_ ?_ h
  · intro s n h; simp [value, treeValue, hlit _ _ h]
  · intro n args ts h; simp [value, treeValue, (terms_sem I (ρ := ρ) hE h).1]
  · intro k o args es hs hr
    have : values I ρ es = treeValues I lit ρ args := by
      clear hs
      induction hr with
      | nil => rfl
      | cons h _ ih => simp only [values, treeValues]; rw [h.2, ih]
    rcases hs with ⟨rfl, rfl⟩ | ⟨rfl, rfl⟩ | ⟨rfl, rfl⟩ | ⟨rfl, rfl⟩ <;> simp only [value, treeValue, this]

/-! ### Which expressions are equal -/

theorem terms_cases {E : GEnv} {bs : List Tree} {us : List Term} (h : E.terms bs = .ok us) : (bs = [] ∧ us = []) ∨
    (∃ n t l r, bs = .atom (.name n) :: l ∧ us = t :: r ∧ E.constant n = .ok t ∧ E.terms l = .ok r) ∨
    ∃ n t l r, bs = .atom .qmark :: .atom (.name n) :: l ∧ us = t :: r ∧ E.variable n = .ok t ∧ E.terms l = .ok r := by
  rw [GEnv.terms.eq_def] at h
  split at h
  · simp only [pure_ok, Except.ok.injEq] at h
    exact .inl ⟨rfl, h.symm⟩
  · simp only [bind_ok_iff, pure_ok, Except.ok.injEq] at h
    obtain ⟨t, ht, r, hr, rfl⟩ := h
    exact .inr (.inl ⟨_, _, _, _, rfl, rfl, ht, hr⟩)
  · simp only [bind_ok_iff, pure_ok, Except.ok.injEq] at h
    obtain ⟨t, ht, r, hr, rfl⟩ := h
    exact .inr (.inr ⟨_, _, _, _, rfl, rfl, ht, hr⟩)
  · cases h

theorem terms_alike {E : GEnv} (hE : ParserEnv E) {as bs : List Tree} {ts us : List Term} (h : E.terms as = .ok ts) (h' : E.terms bs = .ok us) :
    ts.map Term.norm = us.map Term.norm ↔ alikes E.float as bs = true := by
  induction as using GEnv.terms.induct generalizing ts bs us with
  | case1 =>
    simp only [GEnv.terms, pure_ok, Except.ok.injEq] at h
    subst h
    rcases terms_cases h' with ⟨rfl, rfl⟩ | ⟨n, t, l, r, rfl, rfl, _⟩ | ⟨n, t, l, r, rfl, rfl, _⟩ <;> simp [alikes]
  | case2 n as ih =>
    simp only [GEnv.terms, bind_ok_iff, pure_ok, Except.ok.injEq] at h
    obtain ⟨t, ht, r, hr, rfl⟩ := h
    obtain ⟨tag, rfl⟩ := hE.constant n t ht
    rcases terms_cases h' with ⟨rfl, rfl⟩ | ⟨n', t', l, r', rfl, rfl, ht', hr'⟩ | ⟨n', t', l, r', rfl, rfl, ht', hr'⟩
    · simp [alikes]
    · obtain ⟨tag', rfl⟩ := hE.constant n' t' ht'
      simp [alikes, alike, Term.norm, ih hr hr']
    · obtain ⟨v, rfl, rfl⟩ := variable_name hE ht'
      simp [alikes, alike, Term.norm]
  | case3 n as ih =>
    simp only [GEnv.terms, bind_ok_iff, pure_ok, Except.ok.injEq] at h
    obtain ⟨t, ht, r, hr, rfl⟩ := h
    obtain ⟨v, rfl, rfl⟩ := variable_name hE ht
    rcases terms_cases h' with ⟨rfl, rfl⟩ | ⟨n', t', l, r', rfl, rfl, ht', hr'⟩ | ⟨n', t', l, r', rfl, rfl, ht', hr'⟩
    · simp [alikes]
    · obtain ⟨tag', rfl⟩ := hE.constant n' t' ht'
      simp [alikes, alike, Term.norm]
    · obtain ⟨w, rfl, rfl⟩ := variable_name hE ht'
      simp only [List.map_cons, List.cons.injEq, ih hr hr', alikes, alike, decide_true, Bool.true_and, Bool.and_eq_true, decide_eq_true_eq,
        Tok.name.injEq]
      refine and_congr_left fun _ => ⟨?_, ?_⟩
      · intro h
        simp only [Term.norm, Var.norm] at h
        injection h with h
        injection h
      · intro h
        rw [h, ht'] at ht
        injection ht with ht
        rw [ht]
  | case4 => simp [GEnv.terms] at h

theorem sign_unique {k k' : Tok} {o o' : FOp} (h : Sign k o) (h' : Sign k' o') : o = o' ↔ k = k' := by
  rcases h with ⟨rfl, rfl⟩ | ⟨rfl, rfl⟩ | ⟨rfl, rfl⟩ | ⟨rfl, rfl⟩ <;> rcases h' with ⟨rfl, rfl⟩ | ⟨rfl, rfl⟩ | ⟨rfl, rfl⟩ | ⟨rfl, rfl⟩ <;> simp

theorem sign_ne {k : Tok} {o : FOp} (h : Sign k o) : (∀ n, k ≠ .name n) ∧ ∀ s, k ≠ .num s := by
  rcases h with ⟨rfl, rfl⟩ | ⟨rfl, rfl⟩ | ⟨rfl, rfl⟩ | ⟨rfl, rfl⟩ <;> simp

theorem alike_tok {F : FloatOf} {k k' : Tok} (h : ∀ s, k ≠ .num s) : alike F (.atom k) (.atom k') = decide (k = k') := by
  cases k <;> first | exact absurd rfl (h _) | (cases k' <;> simp [alike])

theorem alike_node {F : FloatOf} {as bs : List Tree} : alike F (.node as) (.node bs) = alikes F as bs := by simp [alike]

theorem alikes_cons {F : FloatOf} {a b : Tree} {as bs : List Tree} : alikes F (a :: as) (b :: bs) = (alike F a b && alikes F as bs) := by
  simp [alikes]

theorem nrel_alike {E : GEnv} (hE : ParserEnv E) {t u : Tree} {e f : Expr} (h : NRel E t e) (h' : NRel E u f) :
    e.pyEq f = true ↔ alike E.float t u = true := by
  rw [Expr.pyEq_iff]
  refine nrel_ind (P := fun t e => ∀ u f, NRel E u f → (e.norm = f.norm ↔ alike E.float t u = true)) ?_ ?_ ?_ h u f h'
  · intro s n h u f hu
    cases hu with
    | num h' => simp [Expr.norm, alike, sameNumber, h, h']
    | fn _ => simp [Expr.norm, alike]
    | op _ _ => simp [Expr.norm, alike]
  · intro n args ts h u f hu
    cases hu with
    | num _ => simp [Expr.norm, alike]
    | fn h' => simp [Expr.norm, alike, alikes, terms_alike hE h h']
    | op hs _ =>
      simp only [Expr.norm, reduceCtorEq, alike, alikes, false_iff, Bool.and_eq_true, decide_eq_true_eq, not_and]
      intro h; exact absurd h.symm ((sign_ne hs).1 n)
  · intro k o args es hs hr u f hu
    cases hu with
    | num _ => simp [Expr.norm, alike]
    | fn h' =>
      simp only [Expr.norm, reduceCtorEq, alike_node, alikes_cons, false_iff, Bool.and_eq_true, not_and, alike_tok (sign_ne hs).2, decide_eq_true_eq]
      intro h; exact absurd h ((sign_ne hs).1 _)
    | @op k' o' args' es' hs' hr' =>
      simp only [Expr.norm, alike_node, alikes_cons, NExpr.bfun.injEq, sign_unique hs hs', Bool.and_eq_true, alike_tok (sign_ne hs).2, decide_eq_true_eq]
      refine and_congr_right fun _ => ?_
      clear hs hs'
      induction hr generalizing args' es' with
      | nil => cases hr' <;> simp [Expr.norms, alikes]
      | cons h _ ih =>
        cases hr' with
        | nil => simp [Expr.norms, alikes]
        | cons h' hr' => simp [Expr.norms, alikes, h.2 _ _ h', ih hr']

/-! ### Spreading and dropping -/

theorem nrel_spread {E : GEnv} {k : Tok} {o : FOp} (hk : Sign k o) {t : Tree} {e : Expr} (h : NRel E t e) :
    List.Forall₂ (NRel E) (spread k t) (leaves (.fop o) e) := by
  refine nrel_ind (P := fun t e => List.Forall₂ (NRel E) (spread k t) (leaves (.fop o) e)) ?_ ?_ ?_ h
  · intro s n h; simp [spread, leaves, NRel.num h]
  · intro n args ts h
    rw [spread, if_neg fun e => (sign_ne hk).1 n e.symm]
    simp [leaves, NRel.fn h]
  · intro k' o' args es hs hr
    rw [spread, leaves]
    by_cases he : k' = k
    · rw [if_pos he, if_pos (by rw [(sign_unique hs hk).2 he])]
      clear hs
      induction hr with
      | nil => simp [spreadAll, leavesAll]
      | cons h _ ih => rw [spreadAll, leavesAll]; exact List.rel_append h.2 ih
    · rw [if_neg he, if_neg (by simpa using fun h => he ((sign_unique hs hk).1 h.symm))]
      simp only [List.forall₂_cons, List.Forall₂.nil, and_true]
      exact .op hs (hr.imp fun _ _ h => h.1)

theorem nrel_spreadAll {E : GEnv} {k : Tok} {o : FOp} (hk : Sign k o) {ts : List Tree} {es : List Expr} (h : List.Forall₂ (NRel E) ts es) :
    List.Forall₂ (NRel E) (spreadAll k ts) (leavesAll (.fop o) es) := by
  induction h with
  | nil => simp [spreadAll, leavesAll]
  | cons h _ ih => rw [spreadAll, leavesAll]; exact List.rel_append (nrel_spread hk h) ih

theorem firsts_sub {F : FloatOf} {ts : List Tree} : ∀ t ∈ firsts F ts, t ∈ ts := by
  induction ts with
  | nil => simp [firsts]
  | cons x ts ih =>
    intro t ht
    rw [firsts, List.mem_cons] at ht
    rcases ht with rfl | ht
    · simp
    · exact List.mem_cons_of_mem _ (ih t (List.mem_filter.1 ht).1)

theorem firsts_rel {E : GEnv} (hE : ParserEnv E) {ts : List Tree} {es : List Expr} (h : List.Forall₂ (NRel E) ts es)
    {ss : List Tree} {seen : List Expr} (hs : List.Forall₂ (NRel E) ss seen) : ∃ kept dropped, FirstsOf seen es kept dropped ∧
    List.Forall₂ (NRel E) ((firsts E.float ts).filter fun u => ss.all fun s => !alike E.float s u) kept := by
  induction h generalizing ss seen with
  | nil => exact ⟨[], [], .nil, by simp [firsts]⟩
  | @cons x e ts es hx hr ih =>
    by_cases hm : ∃ s ∈ ss, alike E.float s x = true
    · obtain ⟨s, hs1, hs2⟩ := hm
      obtain ⟨f, hf1, hf2⟩ := forall2_mem' hs s hs1
      have hef := (nrel_alike hE hf2 hx).2 hs2
      obtain ⟨kept, dropped, h1, h2⟩ := ih hs
      refine ⟨kept, e :: dropped, .drop ⟨f, hf1, Expr.pyEq_symm hef⟩ h1, ?_⟩
      rw [firsts, List.filter_cons_of_neg (by simp only [List.all_eq_true, Bool.not_eq_true', not_forall]; exact ⟨s, hs1, by simp [hs2]⟩),
        List.filter_filter]
      have : (firsts E.float ts).filter (fun u => (ss.all fun s => !alike E.float s u) && !alike E.float x u) =
          (firsts E.float ts).filter fun u => ss.all fun s => !alike E.float s u := by
        refine List.filter_congr fun u hu => ?_
        obtain ⟨g, _, hg⟩ := forall2_mem' hr u (firsts_sub u hu)
        cases hxu : alike E.float x u with
        | false => simp
        | true =>
          have hu := (nrel_alike hE hx hg).2 hxu
          have : alike E.float s u = true := (nrel_alike hE hf2 hg).1 (by
            rw [Expr.pyEq_iff] at hef hu ⊢; exact hef.trans hu)
          simp only [Bool.not_true, Bool.and_false]
          symm
          rw [Bool.eq_false_iff]
          intro h
          have := List.all_eq_true.1 h s hs1
          simp_all
      rw [this]
      exact h2
    · obtain ⟨kept, dropped, h1, h2⟩ := ih (.cons hx hs)
      refine ⟨e :: kept, dropped, .keep ?_ h1, ?_⟩
      · intro y hy
        rw [Bool.eq_false_iff]
        intro he
        obtain ⟨s, hs1, hs2⟩ := forall2_mem hs y hy
        exact hm ⟨s, hs1, (nrel_alike hE hs2 hx).1 (Expr.pyEq_symm he)⟩
      · rw [firsts, List.filter_cons_of_pos (by
          simp only [List.all_eq_true, Bool.not_eq_true']
          intro s hs
          rw [Bool.eq_false_iff]
          exact fun h => hm ⟨s, hs, h⟩), List.filter_filter]
        refine .cons hx ?_
        have : (fun u => (ss.all fun s => !alike E.float s u) && !alike E.float x u) = fun u => (x :: ss).all fun s => !alike E.float s u := by
          funext u; rw [List.all_cons, Bool.and_comm]
        rw [this]
        exact h2

theorem nrel_construct {E : GEnv} (hE : ParserEnv E) {k : Tok} {o : FOp} (hk : Sign k o) {ts : List Tree} {es : List Expr}
    (h : List.Forall₂ (NRel E) ts es) (h2 : 2 ≤ es.length) :
    NRel E (.node (.atom k :: firsts E.float (spreadAll k ts))) (construct (.fop o) es) := by
  obtain ⟨kept, dropped, h3, h4⟩ := firsts_rel hE (nrel_spreadAll hk h) .nil
  have hm : (Cls.fop o).isMeta = true := by
    rcases hk with ⟨_, rfl⟩ | ⟨_, rfl⟩ | ⟨_, rfl⟩ | ⟨_, rfl⟩ <;> rfl
  rw [(Props.C09_exact hm h2 h3).1]
  refine .op hk ?_
  simpa using h4

theorem readNums_map {F : FloatOf} {ts : List Tree} : readNums F ts = ts.map (readNum F) := by
  induction ts with
  | nil => rfl
  | cons t ts ih => rw [readNums, ih]; rfl

/-- What `f_exp` gives for a text is the expression of the text as it is read. -/
theorem FRel.asRead {E : GEnv} (hE : ParserEnv E) {t : Tree} {e : Expr} (h : FRel E t e) : NRel E (readNum E.float t) e := by
  have hall : ∀ (args : List Tree) (es : List Expr), args.length = es.length → (∀ p ∈ args.zip es, NRel E (readNum E.float p.1) p.2) →
      List.Forall₂ (NRel E) (readNums E.float args) es := by
    intro args es hl h
    rw [readNums_map, List.forall₂_map_left_iff, List.forall₂_iff_zip]
    exact ⟨hl, fun {a b} hp => h (a, b) hp⟩
  induction h with
  | num h => exact .num h
  | @plus args es h2 hl _ ih => rw [readNum]; exact nrel_construct hE (.inl ⟨rfl, rfl⟩) (hall _ _ hl ih) (by omega)
  | @times args es h2 hl _ ih => rw [readNum]; exact nrel_construct hE (.inr (.inl ⟨rfl, rfl⟩)) (hall _ _ hl ih) (by omega)
  | divide _ _ ih1 ih2 =>
    rw [readNum]
    exact nrel_construct hE (.inr (.inr (.inl ⟨rfl, rfl⟩))) (by simpa [readNums] using ⟨ih1, ih2⟩) (by simp)
  | minus _ ih =>
    rw [readNum, construct_minus1]
    exact .op (.inr (.inr (.inr ⟨rfl, rfl⟩))) (by simpa [readNums] using ih)
  | fn0 h =>
    obtain ⟨_, rfl⟩ := mkNFun_ok.1 h
    exact .fn (by simp [GEnv.terms])
  | fn h h' =>
    obtain ⟨_, rfl⟩ := mkNFun_ok.1 h'
    rw [readNum]
    · exact .fn h
    all_goals simp

theorem FRel.value {E : GEnv} (hE : ParserEnv E) (hlit : LitOk lit E.float) {ρ : Str → D} {t : Tree} {e : Expr} (h : FRel E t e) :
    Spec.value I ρ e = treeValue I lit ρ (readNum E.float t) := nrel_value I lit hE hlit (h.asRead hE)

end Pddl
