/-
The texts of derived predicates derive what the objects derive.
-/
import Verif.Proofs.FormatTask
import Verif.Proofs.DerivedSem

namespace Pddl
open Spec Spec.Grammar

variable {F : FloatOf}

/-- The printed head, with the types of a printed declaration. -/
theorem head_filled {vs ws : List Var} (hv : DeclVars vs) (hw : DeclVars ws) (hlen : ws.length = vs.length)
    (ht : ∀ z ∈ vs.zip ws, z.1.tags = [] → z.2.tags = []) : HeadFilled (declList vs) (declList ws) (vs.map Term.var) := by
  refine ⟨by rw [declList_vars hv, declList_vars hw, List.length_map, List.length_map, hlen], ?_⟩
  rw [declList_vars hv, declList_vars hw]
  clear hv hw
  induction vs generalizing ws with
  | nil => exact .nil
  | cons v vs ih =>
    cases ws with
    | nil => simp at hlen
    | cons w ws =>
      simp only [List.map_cons, List.zip_cons_cons]
      refine .cons ⟨v, rfl, rfl, ?_⟩ (ih (by simpa using hlen) fun z hz => ht z (by simp [hz]))
      intro x
      by_cases hn : v.tags = []
      · have hn' := ht (v, w) (by simp) hn
        simp only at hn'
        simp [hn, hn', sortedStr, sortBy]
      · rw [if_neg (sortedStr_ne hn)]
        exact mem_sortedStr.symm

/-- What the printed derived predicates derive. -/
theorem derives_text {d : Domain} {s : DomainSections} (hd : SaidDomain F d) (hh : DeclaredHeads d)
    (hp : ∀ n b, .node (word n :: b) ∈ s.predicates.getD [] ↔ ∃ q ∈ d.predicates, q.name = n ∧ b = (declOf q).flatMap declTrees)
    (hx : ∀ n b c, section_ s%"derived" [.node (word n :: b), c] ∈ s.structures ↔
      ∃ x ∈ d.derived, x.pred.name = n ∧ b = (declOf x.pred).flatMap declTrees ∧ c = x.cond.tree)
    {D : Type} {lit : Str → Option Rat} (hlit : LitOk lit F) (ρ : Str → D) (I : Interp D) (n : Str) (ds : List D) :
    Derives ρ d.derived I n ds ↔ TextDerives lit s ρ I n ds := by
  have key : ∀ x ∈ d.derived, ∀ q ∈ d.predicates, q.name = x.pred.name → q.terms.length = x.pred.terms.length →
      ∃ l l', VarsText ((declOf x.pred).flatMap declTrees) l ∧ VarsText ((declOf q).flatMap declTrees) l' ∧ HeadFilled l l' x.pred.terms := by
    intro x hx q hq hn hlen
    obtain ⟨⟨vs, hv, hdv⟩, _⟩ := hd.derived x hx
    obtain ⟨ws, hw, hdw⟩ := hd.predicates q hq
    have ev : declOf x.pred = vs := by unfold declOf; rw [hv, declOf_vars]
    have ew : declOf q = ws := by unfold declOf; rw [hw, declOf_vars]
    rw [ev, ew, hv]
    refine ⟨_, _, (declList_text hdv).1, (declList_text hdw).1, head_filled hdv hdw (by rw [hv, hw] at hlen; simpa using hlen) ?_⟩
    intro z hz hz0
    refine hh.typed x hx q hq hn hlen (.var z.1, .var z.2) ?_ hz0
    rw [hv, hw, List.zip_map]
    exact List.mem_map.2 ⟨z, hz, rfl⟩
  constructor
  · rintro ⟨x, hxd, rfl, ρ', k1, k2, k3, k4⟩
    obtain ⟨q, hq, hn, hlen⟩ := hh.declared x hxd
    obtain ⟨l, l', hl, hl', hf⟩ := key x hxd q hq hn hlen
    obtain ⟨z1, z2, z3⟩ := hf.denote I ρ'
    rw [z2] at k1
    rw [z1] at k2
    exact ⟨_, _, l, _, l', ρ', (hx _ _ _).2 ⟨x, hxd, rfl, rfl, rfl⟩, hl, (hp _ _).2 ⟨q, hq, hn, rfl⟩, hl', hf.length, k1, k2, z3.1 k3,
      ((hd.derived x hxd).2.says I lit hlit ρ').1 k4⟩
  · rintro ⟨b, c, l, b', l', ρ', ht, hl, hdec, hl', hlen, k1, k2, k3, k4⟩
    obtain ⟨x, hxd, rfl, rfl, rfl⟩ := (hx _ _ _).1 ht
    obtain ⟨q, hq, hn, rfl⟩ := (hp _ _).1 hdec
    have hlen' : q.terms.length = x.pred.terms.length := by
      obtain ⟨⟨vs, hv, hdv⟩, _⟩ := hd.derived x hxd
      obtain ⟨ws, hw, hdw⟩ := hd.predicates q hq
      have ev : declOf x.pred = vs := by unfold declOf; rw [hv, declOf_vars]
      have ew : declOf q = ws := by unfold declOf; rw [hw, declOf_vars]
      rw [ev] at hl
      rw [ew] at hl'
      rw [hl.unique (declList_text hdv).1, hl'.unique (declList_text hdw).1, declList_vars hdv, declList_vars hdw] at hlen
      rw [hv, hw]
      simpa using hlen
    obtain ⟨m, m', hm, hm', hf⟩ := key x hxd q hq hn hlen'
    have e := hl.unique hm
    subst e
    have e := hl'.unique hm'
    subst e
    obtain ⟨z1, z2, z3⟩ := hf.denote I ρ'
    refine ⟨x, hxd, rfl, ρ', ?_, ?_, z3.2 k3, ((hd.derived x hxd).2.says I lit hlit ρ').2 k4⟩
    · rw [z2]; exact k1
    · rw [z1]; exact k2

theorem performsAt_iff {D : Type} {d : Domain} {ts : List Tree} (hd : SaidDomain F d) (hfull : ∀ a ∈ d.actions, a.pre ≠ none ∧ a.eff ≠ none)
    (ht : ActionsOf d ts) {st : Str × List Term} (hs : ∀ t ∈ st.2, IsConstant t) {I I' J : Interp D} {lit : Str → Option Rat}
    (hlit : LitOk lit F) {ρ : Str → D} : PerformsAt d ρ st I' I J ↔ TextActsAt lit ts ρ (stepTree st) I' I J := by
  unfold TextActsAt
  rw [← steps_iff hd hfull ht hs hlit (Q := fun e ρ' => Next (fun c => makes I' c e ρ') I J)
    (R := fun t ρ' => Next (fun c => treeMakes I' lit c t ρ') I J) (fun e ρ' he =>
      ⟨fun h => h.congr fun c => he.makes I' lit hlit c ρ', fun h => h.congr fun c => (he.makes I' lit hlit c ρ').symm⟩)]
  constructor
  · rintro ⟨a, ha, ρ', h1, h2, h3, h4, h5⟩
    obtain ⟨e, he⟩ := Option.ne_none_iff_exists'.1 (hfull a ha).2
    exact ⟨a, ha, ρ', h1, h2, h3, h4, e, he, h5.congr fun c => by simp [he]⟩
  · rintro ⟨a, ha, ρ', h1, h2, h3, h4, e, he, h5⟩
    exact ⟨a, ha, ρ', h1, h2, h3, h4, h5.congr fun c => by simp [he]⟩

/-- Steps one after the other. -/
theorem stepsBy_iff {D α : Type} {E : Interp D → Interp D → Prop} {R : α → Interp D → Interp D → Interp D → Prop} {lit : Str → Option Rat}
    {ts : List Tree} {ρ : Str → D} {as : List α} {us : List Tree}
    (h : List.Forall₂ (fun u a => ∀ I I' J, R a I' I J ↔ TextActsAt lit ts ρ u I' I J) us as) {I J : Interp D} :
    StepByStep (fun a I J => ∃ I', E I I' ∧ R a I' I J) as I J ↔ TextRunsBy E lit ts ρ us I J := by
  induction h generalizing I with
  | nil => exact ⟨fun h => by cases h; exact .nil, fun h => by cases h; exact .nil⟩
  | cons h1 _ ih =>
    constructor
    · intro hr
      cases hr with
      | cons k1 k2 =>
        obtain ⟨I', e, k1⟩ := k1
        exact .cons e ((h1 _ _ _).1 k1) (ih.1 k2)
    · intro hr
      cases hr with
      | cons e k1 k2 => exact .cons ⟨_, e, (h1 _ _ _).2 k1⟩ (ih.2 k2)

/-- Derived predicates that can be written are declared. -/
theorem Spec.PrintDomain.heads {d : Domain} (h : PrintDomain F d) : DeclaredHeads d := by
  refine ⟨?_, ?_⟩
  · intro x hx
    obtain ⟨q, hq, hn, _, hf⟩ := (h.derived x hx).declared
    exact ⟨q, hq, hn, hf.length_eq.symm⟩
  · intro x hx q hq hn _ z hz
    obtain ⟨q', hq', _, hu, hf⟩ := (h.derived x hx).declared
    rw [hu q hq hn] at hz
    obtain ⟨a, b⟩ := z
    exact ((List.forall₂_iff_zip.1 hf).2 hz).1

end Pddl
