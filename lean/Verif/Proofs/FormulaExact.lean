/-
When parameters have at most one type, printable conditions and effects are read back exactly.
-/
import Verif.Proofs.FormulaParse
import Verif.Proofs.Printable
import Verif.Spec.Types

namespace Pddl
open Spec

variable {E : GEnv}

/-- No parameter has two types. -/
def OneType (E : GEnv) : Prop := ∀ n w, dictGet E.params n = some (.var w) → w.tags.length ≤ 1

/-- The types of every term are a set. -/
def TagSets (e : Expr) : Prop := ∀ t ∈ terms e, t.tags.Nodup

theorem sameTypes_small {a b : List Str} (h : SameTypes a b) (ha : a.length ≤ 1) (hb : b.Nodup) : a = b := by
  cases a with
  | nil =>
    cases b with
    | nil => rfl
    | cons y b => exact absurd ((h y).2 (by simp)) (by simp)
  | cons x a =>
    have : a = [] := by simpa using ha
    subst this
    cases b with
    | nil => exact absurd ((h x).1 (by simp)) (by simp)
    | cons y b =>
      have hy : y = x := by simpa using (h y).2 (by simp)
      subst hy
      cases b with
      | nil => rfl
      | cons z b =>
        have hz : z = y := by simpa using (h z).2 (by simp)
        subst hz
        simp at hb

theorem known_exact (ho : OneType E) {ts : List Term} (h : ∀ t ∈ ts, Known E t) (hn : ∀ t ∈ ts, t.tags.Nodup) :
    E.terms (ts.flatMap Term.trees) = .ok ts := by
  induction ts with
  | nil => rfl
  | cons t ts ih =>
    have h1 := ih (fun x hx => h x (by simp [hx])) (fun x hx => hn x (by simp [hx]))
    have ht := h t (by simp)
    have htn := hn t (by simp)
    cases t with
    | const n x =>
      obtain ⟨_, hc⟩ := ht
      simp [Term.trees, GEnv.terms, hc, h1]
    | var v =>
      obtain ⟨hv, hc⟩ := ht
      rcases hc with ⟨w, hw, hnw, hs⟩ | ⟨hw, hs⟩
      · have e : w.tags = v.tags := sameTypes_small hs (ho _ _ hw) htn
        have : w = v := by
          cases w; cases v; simp only at e hnw; rw [e, hnw]
        subst this
        simp [Term.trees, GEnv.terms, GEnv.variable, hw, h1]
      · have : mkVar v.name (.set []) = .ok ⟨v.name, []⟩ :=
          mkVar_set_ok.2 ⟨hv, by simp, by simp [dedupBy, dedupAux]⟩
        have e : (⟨v.name, []⟩ : Var) = v := by cases v; simp only at hs; rw [hs]
        rw [e] at this
        simp [Term.trees, GEnv.terms, GEnv.variable, hw, this, h1]

theorem collect_exact {R : Tree → Expr → Prop} {as : List Expr} (h : ∀ a ∈ as, R a.tree a) :
    (Expr.trees as).length = as.length ∧ ∀ p ∈ (Expr.trees as).zip as, R p.1 p.2 := by
  induction as with
  | nil => exact ⟨rfl, by simp⟩
  | cons a as ih =>
    obtain ⟨h1, h2⟩ := ih (fun x hx => h x (by simp [hx]))
    refine ⟨by simp [Expr.trees, h1], ?_⟩
    intro p hp
    simp only [Expr.trees, List.zip_cons_cons, List.mem_cons] at hp
    rcases hp with rfl | hp
    · exact h a (by simp)
    · exact h2 p hp

theorem tagSets_list {as : List Expr} (h : ∀ t ∈ termsAll as, t.tags.Nodup) : ∀ a ∈ as, TagSets a := by
  induction as with
  | nil => simp
  | cons a as ih =>
    intro x hx
    simp only [termsAll, List.mem_append] at h
    rcases List.mem_cons.1 hx with rfl | hx
    · exact fun t ht => h t (.inl ht)
    · exact ih (fun t ht => h t (.inr ht)) x hx

theorem printNum_exact (ho : OneType E) {e : Expr} (hp : PrintNum E e) (hg : e.Good) (hn : TagSets e) :
    FRel E e.tree e := by
  induction hp with
  | num h => exact .num (numberText_literal h)
  | @fn f h =>
    have hf : parseFunction f.name = .ok f.name := hg
    exact .fn (known_exact ho h hn) (mkNFun_ok.2 ⟨hf, rfl⟩)
  | @plus as hl _ ih =>
    have hg' := goods_iff.1 hg.2
    have hn' := tagSets_list hn
    obtain ⟨h1, h2⟩ := collect_exact (fun a ha => ih a ha (hg' a ha) (hn' a ha))
    have := FRel.plus (by rw [trees_length]; exact hl) h1 h2
    rw [show construct (.fop .plus) as = _ from hg.1] at this
    exact this
  | @times as hl _ ih =>
    have hg' := goods_iff.1 hg.2
    have hn' := tagSets_list hn
    obtain ⟨h1, h2⟩ := collect_exact (fun a ha => ih a ha (hg' a ha) (hn' a ha))
    have := FRel.times (by rw [trees_length]; exact hl) h1 h2
    rw [show construct (.fop .times) as = _ from hg.1] at this
    exact this
  | @divide a b _ _ ih1 ih2 =>
    have hn' := tagSets_list (as := [a, b]) hn
    have := FRel.divide (ih1 hg.2.1 (hn' a (by simp))) (ih2 hg.2.2.1 (hn' b (by simp)))
    rw [show construct (.fop .divide) [a, b] = _ from hg.1] at this
    exact this
  | @minus a _ ih =>
    have hn' := tagSets_list (as := [a]) hn
    have := FRel.minus (ih hg.2.1 (hn' a (by simp)))
    rw [show construct (.fop .minus) [a] = _ from hg.1] at this
    exact this

theorem dedup_vars {vs : List Var} (h : PrintVars vs) : dedupBy Var.pyEq vs = vs := by
  apply dedupBy_eq_self
  have := h.distinct
  rw [List.Nodup, List.pairwise_map] at this
  refine this.imp ?_
  intro a b hab
  cases e : b.pyEq a with
  | false => rfl
  | true =>
    simp only [Var.pyEq, Bool.and_eq_true, decide_eq_true_eq] at e
    exact absurd e.1.symm hab

theorem printCond_exact (ho : OneType E) {e : Expr} (hp : PrintCond E e) (hg : e.Good) (hn : TagSets e) :
    GRel E e.tree e := by
  induction hp with
  | @pred p h =>
    exact .atom (validName_gd (parseName_ok.1 hg.1).2) (known_exact ho h hn) (mkPred_ok.2 ⟨hg.1, hg.2, rfl⟩)
  | @eq l r hl hr ha =>
    have := known_exact ho (ts := [l, r]) (by
      intro t ht
      simp only [List.mem_cons, List.not_mem_nil, or_false] at ht
      rcases ht with rfl | rfl
      · exact hl
      · exact hr) hn
    exact .eq (starts_trees _ _) (by simpa using this) (allows_iff.1 ha) (mkEq_ok.2 ⟨hg, rfl⟩)
  | @and as _ ih =>
    have hg' := goods_iff.1 hg.2
    have hn' := tagSets_list hn
    obtain ⟨h1, h2⟩ := collect_exact (fun a ha => ih a ha (hg' a ha) (hn' a ha))
    have := GRel.and h1 h2
    rw [show mkAnd as = _ from hg.1] at this
    exact this
  | @or as _ ha ih =>
    have hg' := goods_iff.1 hg.2
    have hn' := tagSets_list hn
    obtain ⟨h1, h2⟩ := collect_exact (fun a ha => ih a ha (hg' a ha) (hn' a ha))
    have := GRel.or h1 h2 (allows_iff.1 ha)
    rw [show mkOr as = _ from hg.1] at this
    exact this
  | @imply a b _ _ ha ih1 ih2 =>
    have hn' := tagSets_list (as := [a, b]) hn
    have := GRel.imply (ih1 hg.2.1 (hn' a (by simp))) (ih2 hg.2.2.1 (hn' b (by simp))) (allows_iff.1 ha)
    rw [show construct (.bop .imply) [a, b] = _ from hg.1] at this
    exact this
  | @not a _ ih => exact .not (ih hg hn)
  | @quant q vs c ht hv _ ha ih =>
    have h1 := ih hg.2 (fun t h => hn t (by simp [terms, h]))
    obtain ⟨toks, l, h3, h4, h5⟩ := printVars_read hv
    have := GRel.quant (q := q) h3 (by rw [ht]; exact h4) h1 (by
      have := allows_iff.1 ha
      cases q <;> exact this) h5
    rw [mkQuant, dedup_vars hv] at this
    exact this
  | @comp o a b h ha hb =>
    have hn' := tagSets_list (as := [a, b]) hn
    have := GRel.comp (comp_tok h) (fun _ => printNum_tree ha _)
      (fExp_of_rel (printNum_exact ho ha hg.2.1 (hn' a (by simp))))
      (fExp_of_rel (printNum_exact ho hb hg.2.2.1 (hn' b (by simp))))
    rw [show construct (.fop o) [a, b] = _ from hg.1] at this
    exact this

theorem printAtom_exact (ho : OneType E) {e : Expr} (hp : PrintAtom E e) (hg : e.Good) (hn : TagSets e) :
    ∃ args, e.tree = .node args ∧ E.atomic args = .ok e := by
  cases hp with
  | @pred p h =>
    exact ⟨_, rfl, atomic_name_ok.2 ⟨_, p, known_exact ho h hn, mkPred_ok.2 ⟨hg.1, hg.2, rfl⟩, rfl⟩⟩
  | @eq l r hl hr ha =>
    have := known_exact ho (ts := [l, r]) (by
      intro t ht
      simp only [List.mem_cons, List.not_mem_nil, or_false] at ht
      rcases ht with rfl | rfl
      · exact hl
      · exact hr) hn
    exact ⟨_, rfl, atomic_eq_ok.2 ⟨l, r, by simpa using this, allows_iff.1 ha, mkEq_ok.2 ⟨hg, rfl⟩⟩⟩

theorem printLit_exact (ho : OneType E) {e : Expr} (hp : PrintLit E e) (hg : e.Good) (hn : TagSets e) :
    PRel E e.tree e := by
  cases hp with
  | atom h =>
    obtain ⟨args, h1, h2⟩ := printAtom_exact ho h hg hn
    cases h with
    | @pred p h =>
      obtain ⟨a1, a2, a3, a4⟩ := assignOp_reserved (parseName_ok.1 hg.1).2
      rw [Expr.tree, Tree.node.injEq] at h1
      exact .atom a1 a2 (by rw [h1]; exact h2)
    | @eq l r hl hr ha =>
      rw [Expr.tree, Tree.node.injEq] at h1
      exact .eq (by rw [h1]; exact h2)
  | @not e h =>
    obtain ⟨args, h1, h2⟩ := printAtom_exact ho h hg hn
    rw [Expr.tree, h1]; exact .not h2
  | @assign o f x h hf hx =>
    obtain ⟨w, h1, h2⟩ := assign_tok h
    have hn' := tagSets_list (as := [.nfun f, x]) hn
    have hgf : (Expr.nfun f).Good := hg.2.1
    rw [Expr.tree, h1]
    have hh : E.fHead (Expr.nfun f).tree = .ok f := by
      rw [Expr.tree, GEnv.fHead, known_exact ho hf (hn' (.nfun f) (by simp))]
      exact mkNFun_ok.2 ⟨hgf, rfl⟩
    have := PRel.assign h2 hh (fExp_of_rel (printNum_exact ho hx hg.2.2.1 (hn' x (by simp))))
    rw [show construct (.fop o) [.nfun f, x] = _ from hg.1] at this
    exact this

theorem printWhen_exact (ho : OneType E) {e : Expr} (hp : PrintWhen E e) (hg : e.Good) (hn : TagSets e) :
    CRel E e.tree e := by
  cases hp with
  | lit h =>
    obtain ⟨_, _, hs⟩ := printLit_rel h hg
    exact .one (fun args e => (hs _ _ e).2 rfl) (printLit_exact ho h hg hn)
  | @and as h =>
    have hg' := goods_iff.1 hg.2
    have hn' := tagSets_list hn
    have h1 := collect_exact (fun a ha => printLit_exact ho (h a ha) (hg' a ha) (hn' a ha))
    have := CRel.and h1
    rw [show mkAnd as = _ from hg.1] at this
    exact this

theorem printEff_exact (ho : OneType E) {top : Bool} {e : Expr} (hp : PrintEff E top e) (hg : e.Good) (hn : TagSets e) :
    ERel E top e.tree e := by
  induction hp with
  | lit h =>
    obtain ⟨_, _, hs⟩ := printLit_rel h hg
    exact .lit (fun w args e => ⟨(hs w args e).1, fun _ => (hs w args e).2⟩) (pEffect_iff.2 (printLit_exact ho h hg hn))
  | @and as _ ih =>
    have hg' := goods_iff.1 hg.2
    have hn' := tagSets_list hn
    obtain ⟨h1, h2⟩ := collect_exact (fun a ha => ih a ha (hg' a ha) (hn' a ha))
    have := ERel.and h1 h2
    rw [show mkAnd as = _ from hg.1] at this
    exact this
  | when hc he =>
    exact .when (gd_of_rel (printCond_exact ho hc hg.1 (fun t h => hn t (by simp [terms, h]))))
      (condEffect_iff.2 (printWhen_exact ho he hg.2 (fun t h => hn t (by simp [terms, h]))))
  | @fall top vs e ht hv _ ih =>
    have h1 := ih hg.2 (fun t h => hn t (by simp [terms, h]))
    obtain ⟨toks, l, h3, h4, h5⟩ := printVars_read hv
    have := ERel.fall (top := top) h3 (by rw [ht]; exact h4) h1 h5
    rw [mkForall, dedup_vars hv] at this
    exact this
  | @oneof top as hne _ ha ih =>
    have hg' := goods_iff.1 hg.2
    have hn' := tagSets_list hn
    obtain ⟨h1, h2⟩ := collect_exact (fun a ha => ih a ha (hg' a ha) (hn' a ha))
    have := ERel.oneof (top := top) (by rw [trees_length]; exact List.length_pos_iff.2 hne) h1 h2 (allows_iff.1 ha)
    rw [show construct (.bop .oneof) as = _ from hg.1] at this
    exact this

end Pddl
