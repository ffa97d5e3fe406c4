/- C07-C10: what the formula constructors build, and what it means. -/
import Verif.Proofs.Sem
import Verif.Proofs.DecEq
import Mathlib.Tactic.Ring
import Mathlib.Tactic.FieldSimp

namespace Pddl.Props
open Pddl Spec

/-! ### C07 -/

/-- `And(f1, ..., fn)` is true exactly when all operands are. -/
theorem C07_and {D} (I : Interp D) (ρ : Str → D) (fs : List Expr) :
    holds I (mkAnd fs) ρ ↔ ∀ f ∈ fs, holds I f ρ := holds_mkAnd I ρ fs

/-- `Or(f1, ..., fn)` is true exactly when some operand is. -/
theorem C07_or {D} (I : Interp D) (ρ : Str → D) (fs : List Expr) :
    holds I (mkOr fs) ρ ↔ ∃ f ∈ fs, holds I f ρ := holds_mkOr I ρ fs

/-- `a & b`. -/
theorem C07_amp {D} (I : Interp D) (ρ : Str → D) (a b : Expr) :
    holds I (pyAnd a b) ρ ↔ holds I a ρ ∧ holds I b ρ := by simp [pyAnd, holds_mkAnd]

/-- `a | b`. -/
theorem C07_bar {D} (I : Interp D) (ρ : Str → D) (a b : Expr) :
    holds I (pyOr a b) ρ ↔ holds I a ρ ∨ holds I b ρ := by simp [pyOr, holds_mkOr]

/-- Equal formulas have the same meaning, so dropping duplicates is harmless. -/
theorem C07_eq {D} (I : Interp D) (ρ : Str → D) {a b : Expr} (h : a.pyEq b = true) :
    holds I a ρ ↔ holds I b ρ := holds_congr I h ρ

/-- A state in which the two sides of C07 are true for one list and false for another. -/
def demoP (n : Str) : Expr := .pred ⟨n, []⟩
def demoI : Interp Unit := ⟨fun _ => (), fun _ _ => True, fun n _ => n = s%"p", fun _ _ => some 1⟩

example : mkAnd [demoP s%"p", .bin .and [demoP s%"q", demoP s%"p"]] =
    .bin .and [demoP s%"p", demoP s%"q"] := by decide +kernel
example : holds demoI (mkOr [demoP s%"q", demoP s%"p"]) (fun _ => ()) := by
  rw [C07_or]; exact ⟨demoP s%"p", by simp, rfl⟩
example : ¬ holds demoI (mkAnd [demoP s%"q", demoP s%"p"]) (fun _ => ()) := by
  rw [C07_and]; intro h
  have := h (demoP s%"q") (by simp)
  simp [demoP, holds, demoI] at this

/-! ### C08 -/

/-- The object with the given distinct operands: a single operand stands for itself. -/
def node (o : BOp) : List Expr → Expr
  | [x] => x
  | ops => .bin o ops

theorem construct_node (o : BOp) (h : o = .and ∨ o = .or) (fs : List Expr)
    (h2 : ∃ a ∈ fs, ∃ b ∈ fs, a.pyEq b = false) :
    construct (.bop o) fs = node o (firstOcc Expr.pyEq (leavesAll (.bop o) fs)) := by
  have hi : (Cls.bop o).idempotent = true := by rcases h with rfl | rfl <;> rfl
  have hm : (Cls.bop o).isMeta = true := by rcases h with rfl | rfl <;> rfl
  have hl : 2 ≤ (dedupBy Expr.pyEq fs).length := by
    obtain ⟨a, ha, b, hb, e⟩ := h2
    obtain ⟨x, hx, ex⟩ := memBy_iff.mp (dedupBy_cover Expr.pyEq_refl ha)
    obtain ⟨y, hy, ey⟩ := memBy_iff.mp (dedupBy_cover Expr.pyEq_refl hb)
    match hd : dedupBy Expr.pyEq fs with
    | [] => rw [hd] at hx; simp at hx
    | [z] =>
      rw [hd] at hx hy
      simp at hx hy
      subst hx; subst hy
      rw [Expr.pyEq_trans ex (Expr.pyEq_symm ey)] at e
      simp at e
    | _ :: _ :: _ => simp
  have hs := simplOperands_loop (c := .bop o) (args := fs) (by simpa [hi] using hl)
  simp only [hi, if_true] at hs
  rw [dedup_flatten_dedup, dedupBy_firstOcc, ← leaves_eq] at hs
  simp only [construct, hm, if_true, hs, hi]
  generalize firstOcc Expr.pyEq (leavesAll (.bop o) fs) = l
  match l with
  | [] => rfl
  | [x] => rfl
  | _ :: _ :: _ => rfl

/-- `And` of at least two different operands lists the flattened operands, first
occurrences only; if just one is left (as in `And(x, And())`) it is returned. -/
theorem C08_and (fs : List Expr) (h : ∃ a ∈ fs, ∃ b ∈ fs, a.pyEq b = false) :
    mkAnd fs = node .and (firstOcc Expr.pyEq (leavesAll (.bop .and) fs)) :=
  construct_node .and (Or.inl rfl) fs h

theorem C08_or (fs : List Expr) (h : ∃ a ∈ fs, ∃ b ∈ fs, a.pyEq b = false) :
    mkOr fs = node .or (firstOcc Expr.pyEq (leavesAll (.bop .or) fs)) :=
  construct_node .or (Or.inr rfl) fs h

/-- When all operands are equal, the first is returned. -/
theorem C08_same (f : Expr) (fs : List Expr) (h : ∀ g ∈ fs, g.pyEq f = true) :
    mkAnd (f :: fs) = f ∧ mkOr (f :: fs) = f := by
  have hd : dedupBy Expr.pyEq (f :: fs) = [f] := by
    rw [dedupBy, dedupAux, if_neg (by simp [memBy]), dedupAux_skip]
    intro x hx
    exact memBy_iff.mpr ⟨f, by simp, h x hx⟩
  constructor <;> simp [mkAnd, mkOr, construct, Cls.isMeta, Cls.idempotent, simplOperands, hd]

/-- A formula `f` made by calling `And` on constructor-built operands: if it is
an `And`, then no operand of it is an `And`, no two are equal, there is not
exactly one, and `And(*f.operands)` gives the same formula. -/
theorem C08_and_canonical (fs ops : List Expr) (hb : ∀ f ∈ fs, Built f)
    (h : mkAnd fs = .bin .and ops) :
    (∀ x ∈ ops, ∀ as, x ≠ .bin .and as) ∧ Distinct ops ∧ ops.length ≠ 1 ∧
    mkAnd ops = .bin .and ops := by
  have hg := good_construct (c := .bop .and) (fun a ha => (hb a ha).good)
  rw [show construct (.bop .and) fs = .bin .and ops from h] at hg
  have hs : Stable (.bop .and) ops := (good_ofCls (c := .bop .and)).mp hg |>.1
  obtain ⟨hc, h1⟩ := Stable.canonical rfl rfl hs
  refine ⟨fun x hx as e => ?_, ?_, h1, hs⟩
  · have := hc.flat x hx; rw [e] at this; simp [Expr.operandsIf] at this
  · refine List.Pairwise.imp ?_ hc.distinct
    intro a b e
    cases e' : a.pyEq b with
    | false => rfl
    | true => rw [Expr.pyEq_symm e'] at e; simp at e

theorem C08_or_canonical (fs ops : List Expr) (hb : ∀ f ∈ fs, Built f)
    (h : mkOr fs = .bin .or ops) :
    (∀ x ∈ ops, ∀ as, x ≠ .bin .or as) ∧ Distinct ops ∧ ops.length ≠ 1 ∧
    mkOr ops = .bin .or ops := by
  have hg := good_construct (c := .bop .or) (fun a ha => (hb a ha).good)
  rw [show construct (.bop .or) fs = .bin .or ops from h] at hg
  have hs : Stable (.bop .or) ops := (good_ofCls (c := .bop .or)).mp hg |>.1
  obtain ⟨hc, h1⟩ := Stable.canonical rfl rfl hs
  refine ⟨fun x hx as e => ?_, ?_, h1, hs⟩
  · have := hc.flat x hx; rw [e] at this; simp [Expr.operandsIf] at this
  · refine List.Pairwise.imp ?_ hc.distinct
    intro a b e
    cases e' : a.pyEq b with
    | false => rfl
    | true => rw [Expr.pyEq_symm e'] at e; simp at e

example : ∃ a ∈ [demoP s%"p", .bin .and [demoP s%"q", demoP s%"p"], demoP s%"p"],
    ∃ b ∈ [demoP s%"p", .bin .and [demoP s%"q", demoP s%"p"], demoP s%"p"], a.pyEq b = false :=
  ⟨demoP s%"p", by simp, .bin .and [demoP s%"q", demoP s%"p"], by simp, by decide +kernel⟩

/-! ### C09 -/

/-- The full statement: the expression built has the value of the operation
applied to the values of the operands. -/
def C09_full (o : FOp) : Prop :=
  ∀ (D : Type) (I : Interp D) (ρ : Str → D) (es : List Expr), (∀ e ∈ es, Built e) →
    value I ρ (construct (.fop o) es) = (values I ρ es).bind (arith o)

/-- The function `(f)` and a state where all functions have value 1. -/
def demoF (n : Str) : Expr := .nfun ⟨n, []⟩

theorem demoF_built : Built (demoF s%"f") :=
  Built.nfun (n := s%"f") (ts := []) (f := ⟨_, []⟩) (by decide +kernel)

/-- Repeated operands are dropped: `Plus(f, f)` is `f`, not `2 f`. -/
theorem C09_plus_fails : ¬ C09_full .plus := by
  intro h
  have := h Unit ⟨fun _ => (), fun _ _ => True, fun _ _ => True, fun _ _ => some 3⟩ (fun _ => ())
    [demoF s%"f", demoF s%"f"] (by simp [demoF_built])
  rw [show construct (.fop .plus) [demoF s%"f", demoF s%"f"] = .bfun .plus [demoF s%"f"] by decide +kernel] at this
  simp [value, values, demoF, arith] at this

theorem C09_times_fails : ¬ C09_full .times := by
  intro h
  have := h Unit ⟨fun _ => (), fun _ _ => True, fun _ _ => True, fun _ _ => some 3⟩ (fun _ => ())
    [demoF s%"f", demoF s%"f"] (by simp [demoF_built])
  rw [show construct (.fop .times) [demoF s%"f", demoF s%"f"] = .bfun .times [demoF s%"f"] by decide +kernel] at this
  simp [value, values, demoF, arith] at this

/-- `Minus(f, f)` becomes `Minus(f)`. -/
theorem C09_minus_fails : ¬ C09_full .minus := by
  intro h
  have := h Unit ⟨fun _ => (), fun _ _ => True, fun _ _ => True, fun _ _ => some 3⟩ (fun _ => ())
    [demoF s%"f", demoF s%"f"] (by simp [demoF_built])
  rw [show construct (.fop .minus) [demoF s%"f", demoF s%"f"] = .bfun .minus [demoF s%"f"] by decide +kernel] at this
  simp [value, values, demoF, arith] at this

theorem C09_divide_fails : ¬ C09_full .divide := by
  intro h
  have := h Unit ⟨fun _ => (), fun _ _ => True, fun _ _ => True, fun _ _ => some 3⟩ (fun _ => ())
    [demoF s%"f", demoF s%"f"] (by simp [demoF_built])
  rw [show construct (.fop .divide) [demoF s%"f", demoF s%"f"] = .bfun .divide [demoF s%"f"] by decide +kernel] at this
  simp [value, values, demoF, arith, divVals] at this

/-- Also without repeated operands: `a - (b - c)` is built as `a - b - c`. -/
theorem C09_minus_nested_fails : ∃ (I : Interp Unit) (a b c : Expr), Built a ∧ Built b ∧ Built c ∧
    Distinct [a, b, c] ∧
    value I (fun _ => ()) a = some 5 ∧ value I (fun _ => ()) (construct (.fop .minus) [b, c]) = some 2 ∧
    value I (fun _ => ()) (construct (.fop .minus) [a, construct (.fop .minus) [b, c]]) = some 1 := by
  refine ⟨⟨fun _ => (), fun _ _ => True, fun _ _ => True, fun n _ =>
    if n = s%"a" then some 5 else if n = s%"b" then some 3 else some 1⟩,
    demoF s%"a", demoF s%"b", demoF s%"c", ?_, ?_, ?_, ?_, ?_, ?_, ?_⟩
  · exact Built.nfun (n := s%"a") (ts := []) (f := ⟨_, []⟩) (by decide +kernel)
  · exact Built.nfun (n := s%"b") (ts := []) (f := ⟨_, []⟩) (by decide +kernel)
  · exact Built.nfun (n := s%"c") (ts := []) (f := ⟨_, []⟩) (by decide +kernel)
  · unfold Distinct; decide +kernel
  · simp [value, demoF]
  · rw [show construct (.fop .minus) [demoF s%"b", demoF s%"c"] = .bfun .minus [demoF s%"b", demoF s%"c"] by decide +kernel]
    simp [value, values, demoF, arith]; norm_num
  · rw [show construct (.fop .minus) [demoF s%"a", construct (.fop .minus) [demoF s%"b", demoF s%"c"]] =
      .bfun .minus [demoF s%"a", demoF s%"b", demoF s%"c"] by decide +kernel]
    simp [value, values, demoF, arith]; norm_num

/-- Operands that are pairwise different and not themselves applications of the
same operator: the expression built has the right value. (Missing: repeated
operands and general nesting, for which the statement is false.) -/
theorem C09_partial {D} (I : Interp D) (ρ : Str → D) (o : FOp) (es : List Expr) (hd : Distinct es)
    (hf : ∀ e ∈ es, ∀ as, e ≠ .bfun o as) :
    value I ρ (construct (.fop o) es) = (values I ρ es).bind (arith o) := by
  have hc : Canonical (.fop o) es := by
    refine ⟨fun e he => ?_, ?_⟩
    · cases h : e.operandsIf (.fop o) with
      | none => rfl
      | some as => exact absurd (ofCls_operandsIf.mp h) (hf e he as)
    · refine List.Pairwise.imp ?_ hd
      intro a b e
      cases e' : b.pyEq a with
      | false => rfl
      | true => rw [Expr.pyEq_symm e'] at e; simp at e
  have := hc.stable (by simp [Cls.idempotent])
  rw [this]
  simp [Expr.ofCls, value]

theorem construct_fop_distinct (o : FOp) (hm : (Cls.fop o).isMeta = true) (es : List Expr)
    (h2 : 2 ≤ es.length) (hd : Distinct (leavesAll (.fop o) es)) :
    construct (.fop o) es = .bfun o (leavesAll (.fop o) es) := by
  have hs := simplOperands_loop (c := .fop o) (args := es) (by simpa [Cls.idempotent] using h2)
  simp only [Cls.idempotent, Bool.false_eq_true, if_false] at hs
  rw [← leaves_eq, distinct_dedup hd] at hs
  simp only [construct, hm, if_true, hs, Cls.idempotent, Bool.false_eq_true, if_false]
  generalize leavesAll (.fop o) es = l
  match l with
  | [] => rfl
  | [x] => rfl
  | _ :: _ :: _ => rfl

/-- Sums of sums, at any depth, are right as long as no flattened operand is repeated. -/
theorem C09_plus_nested_partial {D} (I : Interp D) (ρ : Str → D) (es : List Expr) (h2 : 2 ≤ es.length)
    (hd : Distinct (leavesAll (.fop .plus) es)) :
    value I ρ (construct (.fop .plus) es) = (values I ρ es).bind (arith .plus) := by
  rw [construct_fop_distinct .plus rfl es h2 hd, value, leaves_eq]
  have := values_flatten I ρ .plus (· + ·) 0 (fun a b c => by ring) (fun a => by ring) (fun a => by ring)
    (fun l => rfl) es
  revert this
  cases values I ρ (flattenEs (.fop .plus) es) <;> cases values I ρ es <;> simp [arith]

/-- Products of products likewise. -/
theorem C09_times_nested_partial {D} (I : Interp D) (ρ : Str → D) (es : List Expr) (h2 : 2 ≤ es.length)
    (hd : Distinct (leavesAll (.fop .times) es)) :
    value I ρ (construct (.fop .times) es) = (values I ρ es).bind (arith .times) := by
  rw [construct_fop_distinct .times rfl es h2 hd, value, leaves_eq]
  have := values_flatten I ρ .times (· * ·) 1 (fun a b c => by ring) (fun a => by ring) (fun a => by ring)
    (fun l => rfl) es
  revert this
  cases values I ρ (flattenEs (.fop .times) es) <;> cases values I ρ es <;> simp [arith]

example : 2 ≤ [demoF s%"a", .bfun .plus [demoF s%"b", demoF s%"c"]].length ∧
    Distinct (leavesAll (.fop .plus) [demoF s%"a", .bfun .plus [demoF s%"b", demoF s%"c"]]) := by
  unfold Distinct; decide +kernel
example : Distinct [demoF s%"a", .bfun .plus [demoF s%"b", demoF s%"c"]] ∧
    ∀ e ∈ [demoF s%"a", .bfun .plus [demoF s%"b", demoF s%"c"]], ∀ as, e ≠ .bfun .minus as := by
  refine ⟨by unfold Distinct; decide +kernel, ?_⟩
  intro e he as
  simp at he
  rcases he with rfl | rfl <;> simp [demoF]

/-! ### C10 -/

/-- `a >> b` is true exactly when `Imply(a, b)` is. -/
theorem C10_rshift {D} (I : Interp D) (ρ : Str → D) (a b : Expr) :
    (holds I (pyRshift a b) ρ ↔ (holds I a ρ → holds I b ρ)) ∧
    (holds I (pyRshift a b) ρ ↔ holds I (construct (.bop .imply) [a, b]) ρ) := by
  have : holds I (pyRshift a b) ρ ↔ (holds I a ρ → holds I b ρ) := by
    simp only [pyRshift, holds_mkOr, List.mem_cons, List.not_mem_nil, or_false, exists_eq_or_imp, exists_eq_left, holds]
    tauto
  exact ⟨this, by rw [this]; simp [construct, Cls.isMeta, Expr.ofCls, holds, holdsImply]⟩

/-- `~a` is true exactly when `a` is not. -/
theorem C10_invert {D} (I : Interp D) (ρ : Str → D) (a : Expr) :
    holds I (pyInvert a) ρ ↔ ¬ holds I a ρ := by simp [pyInvert, holds]

example : pyRshift (demoP s%"p") (demoP s%"q") = .bin .or [.not (demoP s%"p"), demoP s%"q"] := by
  decide +kernel
example : ¬ holds demoI (pyRshift (demoP s%"p") (demoP s%"q")) (fun _ => ()) := by
  rw [(C10_rshift _ _ _ _).1]; simp [demoP, holds, demoI]

end Pddl.Props
