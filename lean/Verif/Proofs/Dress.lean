/-
A condition that is accepted without parameters of an action in force is accepted with them.
-/
import Verif.Proofs.Scope

namespace Pddl
open Spec

theorem variable_dress {E : GEnv} (hE : E.Plain) {n : Str} {t : Term} (h : E.bare.variable n = .ok t) :
    ∃ t', E.variable n = .ok t' := by
  unfold GEnv.variable
  split
  · exact ⟨_, rfl⟩
  · rename_i hn
    have : E.bare.Plain := ⟨fun n t h => by simp [GEnv.bare, dictGet] at h, hE.constant⟩
    obtain ⟨rfl, hv⟩ := variable_plain this h
    have : mkVar n (.set []) = .ok ⟨n, []⟩ := mkVar_set_ok.2 ⟨hv, by simp, rfl⟩
    rw [this]
    exact ⟨_, rfl⟩

theorem terms_dress {E : GEnv} (hE : E.Plain) {args : List Tree} {ts : List Term} (h : E.bare.terms args = .ok ts) :
    ∃ ts', E.terms args = .ok ts' ∧ ts = ts'.map eraseTerm := by
  suffices H : ∃ ts', E.terms args = .ok ts' by
    obtain ⟨ts', h'⟩ := H
    refine ⟨ts', h', ?_⟩
    have := (terms_erase hE h').1
    rw [h] at this
    exact Except.ok.inj this
  induction args using GEnv.terms.induct generalizing ts with
  | case1 => exact ⟨[], rfl⟩
  | case2 n args ih =>
    simp only [GEnv.terms, bind_ok_iff, pure_ok, Except.ok.injEq] at h
    obtain ⟨t, ht, r, hr, rfl⟩ := h
    obtain ⟨r', hr'⟩ := ih hr
    have ht : E.constant n = .ok t := ht
    exact ⟨t :: r', by simp [GEnv.terms, ht, hr']⟩
  | case3 n args ih =>
    simp only [GEnv.terms, bind_ok_iff, pure_ok, Except.ok.injEq] at h
    obtain ⟨t, ht, r, hr, rfl⟩ := h
    obtain ⟨r', hr'⟩ := ih hr
    obtain ⟨t', ht'⟩ := variable_dress hE ht
    exact ⟨t' :: r', by simp [GEnv.terms, ht', hr']⟩
  | case4 => simp [GEnv.terms] at h

theorem consistent_dress {E : GEnv} {args : List Tree} {ts : List Term}
    (h : ∀ t ∈ ts, (∃ n, t = .var ⟨n, E.tagsOf n⟩ ∧ Writes n args) ∨ ∃ n x, t = .const n x ∧ E.constant n = .ok t)
    (hc : ∀ n, Writes n args → ∀ x, E.constant n ≠ .ok x) : termsConsistent [] ts = true := by
  rw [consistent_iff]
  intro a ha b hb hn x
  rcases h a ha with ⟨n, rfl, hw⟩ | ⟨n, y, rfl, hk⟩ <;> rcases h b hb with ⟨m, rfl, hw'⟩ | ⟨m, z, rfl, hk'⟩
  · simp only [Term.name] at hn
    rw [hn]
  · simp only [Term.name] at hn
    subst hn
    exact absurd hk' (hc _ hw _)
  · simp only [Term.name] at hn
    subst hn
    exact absurd hk (hc _ hw' _)
  · simp only [Term.name] at hn
    subst hn
    rw [hk] at hk'
    rw [Except.ok.inj hk']

theorem pairs_dress {R : Tree → Expr → Prop} {args : List Tree} {es : List Expr} (hl : args.length = es.length)
    (h : ∀ p ∈ args.zip es, ∃ e, R p.1 e) : ∃ es' : List Expr, args.length = es'.length ∧ ∀ p ∈ args.zip es', R p.1 p.2 := by
  induction args generalizing es with
  | nil => exact ⟨[], rfl, by simp⟩
  | cons a args ih =>
    cases es with
    | nil => simp at hl
    | cons e es =>
      obtain ⟨es', h1, h2⟩ := ih (es := es) (by simpa using hl) (fun p hp => h p (by simp [hp]))
      obtain ⟨e', he'⟩ := h (a, e) (by simp)
      refine ⟨e' :: es', by simpa using h1, ?_⟩
      intro p hp
      simp only [List.zip_cons_cons, List.mem_cons] at hp
      rcases hp with rfl | hp
      · exact he'
      · exact h2 p hp

theorem FRel.dress {E : GEnv} (hE : E.Plain) {t : Tree} {e : Expr} (h : FRel E.bare t e) : ∃ e', FRel E t e' := by
  induction h with
  | num h => exact ⟨_, .num h⟩
  | @plus args es h2 hl hr ih =>
    obtain ⟨es', h1, h3⟩ := pairs_dress hl ih
    exact ⟨_, .plus h2 h1 h3⟩
  | @times args es h2 hl hr ih =>
    obtain ⟨es', h1, h3⟩ := pairs_dress hl ih
    exact ⟨_, .times h2 h1 h3⟩
  | divide r1 r2 h1 h2 =>
    obtain ⟨a, h1⟩ := h1
    obtain ⟨b, h2⟩ := h2
    exact ⟨_, .divide h1 h2⟩
  | minus r1 h1 =>
    obtain ⟨a, h1⟩ := h1
    exact ⟨_, .minus h1⟩
  | fn0 h => exact ⟨_, .fn0 h⟩
  | fn h h' =>
    obtain ⟨ts', h1, rfl⟩ := terms_dress hE h
    obtain ⟨k, rfl⟩ := mkNFun_ok.1 h'
    exact ⟨_, .fn h1 (mkNFun_ok.2 ⟨k, rfl⟩)⟩

theorem GRel.dress {E : GEnv} (hE : E.Plain) {t : Tree} {e : Expr} (h : GRel E.bare t e) (hc : NoClash E t) :
    ∃ e', GRel E t e' := by
  induction h with
  | @and args es hl hr ih =>
    obtain ⟨es', h1, h3⟩ := pairs_dress hl (fun p hp => ih p hp (hc.sub (List.mem_cons_of_mem _ (List.of_mem_zip hp).1)))
    exact ⟨_, .and h1 h3⟩
  | @or args es hl hr hu ih =>
    obtain ⟨es', h1, h3⟩ := pairs_dress hl (fun p hp => ih p hp (hc.sub (List.mem_cons_of_mem _ (List.of_mem_zip hp).1)))
    exact ⟨_, .or h1 h3 hu⟩
  | not _ ih =>
    obtain ⟨a, h⟩ := ih (hc.sub (by simp))
    exact ⟨_, .not h⟩
  | imply r1 r2 hu ih1 ih2 =>
    obtain ⟨a, h1⟩ := ih1 (hc.sub (by simp))
    obtain ⟨b, h2⟩ := ih2 (hc.sub (by simp))
    exact ⟨_, .imply h1 h2 hu⟩
  | quant h1 h2 _ h4 h5 ih =>
    obtain ⟨a, h⟩ := ih (hc.sub (by simp))
    exact ⟨_, .quant h1 h2 h h4 h5⟩
  | @atom n args ts p hn h1 h2 =>
    obtain ⟨ts', g1, rfl⟩ := terms_dress hE h1
    obtain ⟨k1, k2, rfl⟩ := mkPred_ok.1 h2
    exact ⟨_, .atom hn g1 (mkPred_ok.2 ⟨k1, consistent_dress (terms_erase hE g1).2
      (fun m hw => hc m _ .refl (writes_cons hw)), rfl⟩)⟩
  | @eq args l r e hs h1 hu h2 =>
    obtain ⟨ts', g1, e1⟩ := terms_dress hE h1
    match ts', e1 with
    | [a, b], e1 =>
      exact ⟨_, .eq hs g1 hu (mkEq_ok.2 ⟨consistent_dress (terms_erase hE g1).2
        (fun m hw => hc m _ .refl (writes_cons hw)), rfl⟩)⟩
  | comp ho hs h1 h2 =>
    obtain ⟨a, r1⟩ := (fExp_rel h1).dress hE
    obtain ⟨b, r2⟩ := (fExp_rel h2).dress hE
    exact ⟨_, .comp ho hs (fExp_of_rel r1) (fExp_of_rel r2)⟩

/-- A condition is read with parameters as without, but for the types. -/
theorem gd_dress {E : GEnv} (hE : E.Plain) {t : Tree} {e : Expr} (h : E.bare.gd t = .ok e) (hc : NoClash E t) :
    ∃ e', E.gd t = .ok e' ∧ e = erase e' := by
  obtain ⟨e', h'⟩ := (gd_iff.1 h).dress hE hc
  refine ⟨e', gd_iff.2 h', ?_⟩
  have := gd_iff.2 (h'.erase hE hc)
  rw [h] at this
  exact Except.ok.inj this

end Pddl
