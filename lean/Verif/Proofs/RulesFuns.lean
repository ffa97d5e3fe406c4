/-
The declared functions obey the rules.
-/
import Verif.Proofs.RulesSections

namespace Pddl.Rules
open Spec Spec.Rules Spec.Grammar

open Classical in
theorem functionSkeleton_iff {t : Tree} (hw : WordsOk t) {f : NFun} : functionSkeleton t = .ok f ↔
    ∃ n vs tl, t = .node (word n :: vs) ∧ ValidFunction n ∧ VarsText vs tl ∧ tl.Ok ∧ Compatible tl.itemsOf ∧
      f = ⟨n, if n = s%"total-cost" then [] else (builtVars tl).map Term.var⟩ := by
  constructor
  · intro h
    unfold functionSkeleton at h
    split at h
    · rename_i n b
      split at h
      · cases h
      · rename_i toks ht
        obtain ⟨l, hl, rfl⟩ := typedVarToks_iff.1 ht
        obtain ⟨r, hr, h⟩ := bind_ok_iff.1 h
        obtain ⟨hok, hc, rfl⟩ := typedListVariable_ok hl (fun w h => hw w (.node (.tail _ h) .refl)) hr
        refine ⟨n, b, l, rfl, ?_⟩
        split at h
        · rename_i hn
          obtain ⟨h1, rfl⟩ := mkNFun_ok.1 h
          exact ⟨.inr hn, hl, hok, hc, by rw [if_pos hn, hn]⟩
        · rename_i hn
          obtain ⟨vs, hv, h2⟩ := bind_ok_iff.1 h
          obtain ⟨h1, rfl⟩ := mkNFun_ok.1 h2
          have e : parseTypedVars b = .ok vs := by
            unfold parseTypedVars
            rw [ht]
            simp only [hr, ok_bind, hv]
          rw [parseTypedVars_eq hl hok hc, Except.ok.injEq] at e
          exact ⟨parseFunction_iff.1 h1, hl, hok, hc, by rw [if_neg hn, e]⟩
    · cases h
  · rintro ⟨n, vs, tl, rfl, hn, hl, hok, hc, rfl⟩
    simp only [functionSkeleton, word]
    rw [typedVarToks_iff.2 ⟨tl, hl, rfl⟩]
    simp only
    rw [typedListVariable_eq hl hok, if_pos hc, ok_bind]
    split
    · rename_i e
      rw [e]
      rfl
    · have e := parseTypedVars_eq hl hok hc
      unfold parseTypedVars at e
      rw [typedVarToks_iff.2 ⟨tl, hl, rfl⟩] at e
      simp only at e
      rw [typedListVariable_eq hl hok, if_pos hc, ok_bind] at e
      rw [e, ok_bind]
      exact mkNFun_ok.2 ⟨parseFunction_iff.2 hn, rfl⟩

/-- A declared function and what is written. -/
def FunIn (f : NFun) (q : Str × List (Str × List Str)) : Prop :=
  f.norm = (q.1, if q.1 = s%"total-cost" then [] else q.2.map (fun p => NTerm.var (p.1, p.2.toFinset)))

theorem funIn_built {tl : TypedList} (n : Str) :
    FunIn ⟨n, if n = s%"total-cost" then [] else (builtVars tl).map Term.var⟩ (n, tl.vars) := by
  unfold FunIn NFun.norm
  simp only
  split
  · rfl
  · unfold builtVars
    rw [List.map_map, List.map_map]
    congr 1
    refine List.map_congr_left fun p _ => ?_
    simp only [Function.comp_apply, Term.norm, Var.norm, NTerm.var.injEq, Prod.mk.injEq, true_and]
    ext x
    simp only [List.mem_toFinset, dd_mem]

theorem sameVars_iff (a b : List (Str × List Str)) :
    a.map (fun p => NTerm.var (p.1, p.2.toFinset)) = b.map (fun p => NTerm.var (p.1, p.2.toFinset)) ↔
      List.Forall₂ (fun p q => p.1 = q.1 ∧ SameTypes p.2 q.2) a b := by
  induction a generalizing b with
  | nil => cases b <;> simp
  | cons p a ih =>
    cases b with
    | nil => simp
    | cons q b =>
      rw [List.map_cons, List.map_cons, List.cons.injEq, ih, List.forall₂_cons]
      simp only [NTerm.var.injEq, Prod.mk.injEq, Finset.ext_iff, List.mem_toFinset, SameTypes]

theorem sameFunction_iff {f g : NFun} {p q : Str × List (Str × List Str)} (hf : FunIn f p) (hg : FunIn g q) :
    f.pyEq g = true ↔ SameFunction p q := by
  rw [NFun.pyEq_iff, hf, hg, Prod.mk.injEq]
  unfold SameFunction
  refine and_congr_right fun e => ?_
  rw [← e]
  split
  · rename_i h; simp [h]
  · rename_i h
    rw [sameVars_iff]
    simp [h]

theorem FunIn.name {f : NFun} {p : Str × List (Str × List Str)} (h : FunIn f p) : f.name = p.1 := by
  have := congrArg Prod.fst h
  exact this

theorem SameFunction.symm {p q : Str × List (Str × List Str)} (h : SameFunction p q) : SameFunction q p := by
  refine ⟨h.1.symm, ?_⟩
  rcases h.2 with e | h2
  · exact .inl (h.1 ▸ e)
  · exact .inr ((List.Forall₂.flip h2).imp fun _ _ k => ⟨k.1.symm, fun x => (k.2 x).symm⟩)

theorem pairwise_funs {gs : List (Option Str × NFun)} {fs : List (Str × List (Str × List Str))}
    (h : List.Forall₂ (fun g f => FunIn g.2 f) gs fs) :
    gs.Pairwise (fun a b => b.2.pyEq a.2 = false) ↔ fs.Pairwise (fun f g => ¬ SameFunction f g) := by
  induction h with
  | nil => simp
  | @cons g f gs fs hg ht ih =>
    rw [List.pairwise_cons, List.pairwise_cons, ih]
    refine and_congr_left fun _ => ?_
    constructor
    · intro h q hq hs
      obtain ⟨g', hg', h'⟩ := forall2_mem ht q hq
      have := h g' hg'
      rw [(sameFunction_iff h' hg).2 (SameFunction.symm hs)] at this
      cases this
    · intro h g' hg'
      obtain ⟨q, hq, h'⟩ := forall2_mem' ht g' hg'
      rw [← Bool.not_eq_true]
      exact fun e => h q hq (SameFunction.symm ((sameFunction_iff h' hg).1 e))

/-- What the constructor asks of the functions. -/
def FunsOk (rs : List Req) (d : FunDict) : Prop :=
  ((∃ p ∈ d, p.1.name = s%"total-cost") → Req.actionCosts ∈ rs) ∧
    ((∃ p ∈ d, p.1.name ≠ s%"total-cost") → Req.numericFluents ∈ rs ∨ Req.fluents ∈ rs)

theorem funsOk_iff {rs : List Req} {gs : List (Option Str × NFun)} {fs : List (Str × List (Str × List Str))}
    (h : List.Forall₂ (fun g f => FunIn g.2 f) gs fs) : FunsOk rs (gs.map Prod.swap) ↔
      (((∃ f ∈ fs, f.1 = s%"total-cost") → Req.actionCosts ∈ rs) ∧
        ((∃ f ∈ fs, f.1 ≠ s%"total-cost") → Req.numericFluents ∈ rs ∨ Req.fluents ∈ rs)) := by
  have key : ∀ P : Str → Prop, (∃ p ∈ gs.map Prod.swap, P p.1.name) ↔ ∃ f ∈ fs, P f.1 := by
    intro P
    constructor
    · rintro ⟨p, hp, h1⟩
      obtain ⟨g, hg, rfl⟩ := List.mem_map.1 hp
      obtain ⟨f, hf, h2⟩ := forall2_mem' h g hg
      exact ⟨f, hf, h2.name ▸ h1⟩
    · rintro ⟨f, hf, h1⟩
      obtain ⟨g, hg, h2⟩ := forall2_mem h f hf
      exact ⟨g.swap, List.mem_map.2 ⟨g, hg, rfl⟩, by
        show P g.2.name
        rw [h2.name]; exact h1⟩
  unfold FunsOk
  rw [key (fun n => n = s%"total-cost"), key (fun n => n ≠ s%"total-cost")]

theorem functionsText_inside {b : List Tree} {l : List (Tree × Option Str)} (h : FunctionsText b l) : ∀ p ∈ l, p.1 ∈ b := by
  induction h with
  | rest ts => simp
  | group _ _ ih =>
    intro p hp
    rcases List.mem_append.1 hp with hp | hp
    · obtain ⟨t, ht, rfl⟩ := List.mem_map.1 hp
      exact List.mem_append_left _ ht
    · exact List.mem_append_right _ (by simp [ih p hp])

theorem sectionFunctions_in {rs : List Req} {b : List Tree} (hw : WordsOk (.node b)) :
    (∃ d, sectionFunctions b = .ok d ∧ FunsOk rs d) ↔ FunctionsIn rs b := by
  constructor
  · rintro ⟨d, h, hok⟩
    have h' := h
    unfold sectionFunctions at h'
    obtain ⟨toks, ht, _⟩ := bind_ok_iff.1 h'
    obtain ⟨l, g, hl, rfl, hg, hr⟩ := functionToks_text _ rfl ht
    obtain ⟨h1, h2, rfl⟩ := (sectionFunctions_iff hg ht).1 h
    have : ∃ fs, List.Forall₂ (fun g f => FunIn g.2 f) g.pairs fs ∧
        List.Forall₂ (fun p f => ∃ vs, p.1 = .node (word f.1 :: vs) ∧ ValidFunction f.1 ∧ VarsIn (fun _ => True) vs f.2) l fs := by
      have hin := functionsText_inside hl
      clear hl ht h hg h1 h2 hok h'
      generalize g.pairs = gs at hr
      induction hr with
      | nil => exact ⟨[], .nil, .nil⟩
      | @cons p q l gs hp _ ih =>
        obtain ⟨fs, i1, i2⟩ := ih fun p hp => hin p (by simp [hp])
        obtain ⟨n, vs, tl, e, hn, hl, hok, hc, e2⟩ := (functionSkeleton_iff (hw.sub (hin p (by simp)))).1 hp.1
        refine ⟨(n, tl.vars) :: fs, .cons ?_ i1, .cons ⟨vs, e, hn, in_vars hl hok hc (fun _ _ _ _ => trivial)⟩ i2⟩
        rw [e2]
        have := funIn_built (tl := tl) n
        convert this
    obtain ⟨fs, i1, i2⟩ := this
    have := (funsOk_iff i1).1 hok
    exact ⟨l, fs, by rintro rfl; simp at h1, hl, i2, (pairwise_funs i1).1 h2, this.1, this.2⟩
  · rintro ⟨l, fs, hne, hl, hr, hp, h1, h2⟩
    have : ∃ gs : List (Option Str × NFun), List.Forall₂ (fun g f => FunIn g.2 f) gs fs ∧
        List.Forall₂ (fun p q => functionSkeleton p.1 = .ok q.2 ∧ q.1 = p.2) l gs := by
      have hin := functionsText_inside hl
      clear hl hp h1 h2 hne
      induction hr with
      | nil => exact ⟨[], .nil, .nil⟩
      | @cons p f l fs hp _ ih =>
        obtain ⟨gs, i1, i2⟩ := ih fun p hp => hin p (by simp [hp])
        obtain ⟨vs, e, hn, hv⟩ := hp
        obtain ⟨tl, hl, e2, hok, hc⟩ := vars_in hv
        refine ⟨(p.2, _) :: gs, .cons ?_ i1, .cons ⟨(functionSkeleton_iff (hw.sub (hin p (by simp)))).2
          ⟨f.1, vs, tl, e, hn, hl, hok, hc, rfl⟩, rfl⟩ i2⟩
        have := funIn_built (tl := tl) f.1
        rw [← e2] at this
        convert this
    obtain ⟨gs, i1, i2⟩ := this
    have hn : ∀ p ∈ l, ∃ c, p.1 = .node c := by
      intro p hp
      obtain ⟨f, _, vs, e, _⟩ := forall2_mem' hr p hp
      exact ⟨_, e⟩
    obtain ⟨g, rfl, hg, ht⟩ := functionToks_build hl hn i2
    exact ⟨_, (sectionFunctions_iff hg ht).2 ⟨List.length_pos_iff.2 hne, (pairwise_funs i1).2 hp, rfl⟩,
      (funsOk_iff i1).2 ⟨h1, h2⟩⟩

end Pddl.Rules
