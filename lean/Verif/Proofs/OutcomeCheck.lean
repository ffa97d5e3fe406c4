/-
A check that written choices are different.
-/
import Verif.Proofs.OutcomeRead
import Verif.Proofs.Keeps

namespace Pddl
open Spec

/-- The word of a predicate. -/
def plainWord (w : Str) : Bool :=
  !decide (w = s%"and") && !decide (w = s%"oneof") && !decide (w = s%"forall") && !decide (w = s%"when") &&
    !decide (w = s%"not") && (assignOp w).isNone

mutual
/-- The two written effects are not read alike. -/
def differ : Tree → Tree → Bool
  | .node (.atom (.name w) :: as), .node (.atom (.name w') :: bs) =>
    if w = s%"oneof" then
      if w' = s%"oneof" then differs as bs else !decide (w' = s%"and")
    else if w' = s%"oneof" then !decide (w = s%"and")
    else plainWord w && plainWord w' && !decide (w = w')
  | _, _ => false
def differs : List Tree → List Tree → Bool
  | a :: as, b :: bs => differ a b || differs as bs
  | _, _ => false
end

variable {E : GEnv}

theorem effect_oneof {top : Bool} {args : List Tree} {e : Expr}
    (h : E.effect top (.node (.atom (.name s%"oneof") :: args)) = .ok e) :
    ∃ es, e = .bin .oneof es ∧ List.Forall₂ (fun t e => E.effect true t = .ok e) args es := by
  rw [effect_name, if_neg (by rintro ⟨_, h⟩; revert h; decide), if_neg (by decide), if_neg (by decide), if_pos rfl] at h
  simp only [bind_ok_iff, check_ok, pure_ok, Except.ok.injEq] at h
  obtain ⟨es, he, _, _, _, _, rfl⟩ := h
  have := effects_ok.1 he
  exact ⟨es, by simp [construct, Cls.isMeta, Expr.ofCls], List.forall₂_iff_zip.2 ⟨this.1, fun hp => this.2 _ hp⟩⟩

theorem effect_not_oneof {top : Bool} {w : Str} {args : List Tree} {e : Expr} (h1 : w ≠ s%"oneof") (h2 : w ≠ s%"and")
    (h : E.effect top (.node (.atom (.name w) :: args)) = .ok e) (es : List Expr) : e ≠ .bin .oneof es := by
  have h := effect_iff.1 h
  generalize ht : Tree.node (.atom (.name w) :: args) = t at h
  cases h with
  | and => injection ht with ht; injection ht with ht _; injection ht with ht; injection ht with ht; exact absurd ht h2
  | fall => simp [mkForall]
  | when => simp
  | oneof => injection ht with ht; injection ht with ht _; injection ht with ht; injection ht with ht; exact absurd ht h1
  | lit _ h =>
    rintro rfl
    have := (pEffect_iff.1 h).free
    simp [choiceFree] at this

theorem effect_plain {top : Bool} {w : Str} {args : List Tree} {e : Expr} (hw : plainWord w = true)
    (h : E.effect top (.node (.atom (.name w) :: args)) = .ok e) : ∃ ts, e = .pred ⟨w, ts⟩ := by
  simp only [plainWord, Bool.and_eq_true, Bool.not_eq_true', decide_eq_false_iff_not, Option.isNone_iff_eq_none] at hw
  obtain ⟨⟨⟨⟨⟨h1, h2⟩, h3⟩, h4⟩, h5⟩, h6⟩ := hw
  rw [effect_name, if_neg (by rintro ⟨_, h⟩; exact h1 h), if_neg h3, if_neg h4, if_neg h2, pEffect_name, if_neg h5, h6] at h
  obtain ⟨ts, p, _, hp, rfl⟩ := atomic_name_ok.1 h
  obtain ⟨_, _, rfl⟩ := mkPred_ok.1 hp
  exact ⟨ts, rfl⟩

theorem differ_sound {s t : Tree} (hd : differ s t = true) {top : Bool} {a b : Expr} (h1 : E.effect top s = .ok a)
    (h2 : E.effect top t = .ok b) : a.norm ≠ b.norm := by
  induction s using Tree.ind generalizing t top a b with
  | hatom _ => simp [differ] at hd
  | hnode l ih =>
    match l, t, hd with
    | .atom (.name w) :: as, .node (.atom (.name w') :: bs), hd =>
      rw [differ] at hd
      split at hd
      · next hw =>
        subst hw
        obtain ⟨es, rfl, hes⟩ := effect_oneof h1
        split at hd
        · next hw' =>
          subst hw'
          obtain ⟨es', rfl, hes'⟩ := effect_oneof h2
          intro hn
          simp only [Expr.norm, NExpr.bin.injEq, true_and] at hn
          have ih' : ∀ a ∈ as, ∀ {t : Tree}, differ a t = true → ∀ {x y}, E.effect true a = .ok x →
              E.effect true t = .ok y → x.norm ≠ y.norm := fun a ha t hd x y hx hy =>
            ih a (List.mem_cons_of_mem _ ha) hd hx hy
          clear ih h1 h2
          induction hes generalizing bs es' with
          | nil => simp [differs] at hd
          | cons hx _ ihl =>
            cases hes' with
            | nil => simp [differs] at hd
            | cons hy hrest =>
              simp only [Expr.norms, List.cons.injEq] at hn
              simp only [differs, Bool.or_eq_true] at hd
              rcases hd with hd | hd
              · exact ih' _ (by simp) hd hx hy hn.1
              · exact ihl _ hd _ hrest hn.2 (fun a ha => ih' a (List.mem_cons_of_mem _ ha))
        · next hw' =>
          have := effect_not_oneof hw' (by simpa using hd) h2
          intro hn
          cases b <;> simp [Expr.norm] at hn
          exact this _ (by rw [hn.1])
      · next hw =>
        split at hd
        · next hw' =>
          subst hw'
          obtain ⟨es', rfl, hes'⟩ := effect_oneof h2
          have := effect_not_oneof hw (by simpa using hd) h1
          intro hn
          cases a <;> simp [Expr.norm] at hn
          exact this _ (by rw [hn.1])
        · simp only [Bool.and_eq_true, Bool.not_eq_true', decide_eq_false_iff_not] at hd
          obtain ⟨ts, rfl⟩ := effect_plain hd.1.1 h1
          obtain ⟨ts', rfl⟩ := effect_plain hd.1.2 h2
          intro hn
          simp only [Expr.norm, NExpr.pred.injEq] at hn
          exact hd.2 hn.1
    | [], _, hd => simp [differ] at hd
    | .node _ :: _, _, hd => simp [differ] at hd
    | .atom (.name w) :: as, .atom _, hd => simp [differ] at hd

/-- Check for `ChoicesOnce` at one pair of operands. -/
def oncePair (a b : Tree) : Bool := a.parts.all noOneofAt || b.parts.all noOneofAt || differ a b

def onceList : List Tree → Bool
  | [] => true
  | a :: as => as.all (oncePair a) && onceList as

/-- Check for `ChoicesOnce` at one part. -/
def onceAt : Tree → Bool
  | .node (.atom (.name w) :: args) => !decide (w = s%"and") || onceList args
  | _ => true

theorem once_of_check {F : FloatOf} {t : Tree} (h : t.parts.all onceAt = true) : ChoicesOnce F t := by
  intro args hi
  have := List.all_eq_true.1 h _ (Tree.mem_parts.2 hi)
  simp only [onceAt, decide_true, Bool.not_true, Bool.false_or] at this
  clear hi
  induction args with
  | nil => exact .nil
  | cons a as ih =>
    simp only [onceList, Bool.and_eq_true, List.all_eq_true] at this
    refine List.pairwise_cons.2 ⟨fun b hb hr => ?_, ih this.2⟩
    have h1 := this.1 b hb
    simp only [oncePair, Bool.or_eq_true] at h1
    rcases h1 with (h1 | h1) | h1
    · exact .inl (noOneof_of_check h1)
    · exact .inr (noOneof_of_check h1)
    · obtain ⟨E, x, y, _, _, hx, hy, he⟩ := hr
      exact absurd ((Expr.pyEq_iff _ _).1 he) (differ_sound h1 hx hy)

end Pddl
