/- What texts with names in place of variables say. -/
import Verif.Proofs.WriteEffect

namespace Pddl
open Spec

variable {r : Str → Option Str} {E : GEnv} {D : Type} {I : Interp D} {lit : Str → Option Rat}

/-- The variables denote what the names written for them denote. -/
structure Writes (I : Interp D) (r : Str → Option Str) (ρ ρ' : Str → D) : Prop where
  name : ∀ x a, r x = some a → ρ' x = I.const a
  other : ∀ x, r x = none → ρ' x = ρ x

theorem Writes.terms {ρ ρ' : Str → D} (h : Writes I r ρ ρ') {l : List Tree} {ts : List Term} (ht : E.terms l = .ok ts) :
    treeTerms I ρ (writeIns r l) = treeTerms I ρ' l := by
  rw [terms_rel] at ht
  induction ht with
  | nil => simp [writeIns, treeTerms]
  | name _ _ ih => rw [writeIns_cons (by simp), writeIn, treeTerms, treeTerms, ih]
  | @var n t l ts _ _ ih =>
    rw [writeIns]
    cases hr : r n with
    | some a => simp only [treeTerms]; rw [ih, h.name n a hr]
    | none => simp only [treeTerms]; rw [ih, h.other n hr]

theorem termsOnly_writeIns {l : List Tree} {ts : List Term} (ht : E.terms l = .ok ts) :
    termsOnly l = true ∧ termsOnly (writeIns r l) = true := by
  rw [terms_rel] at ht
  induction ht with
  | nil => simp [writeIns, termsOnly]
  | name _ _ ih => rw [writeIns_cons (by simp), writeIn, termsOnly, termsOnly]; exact ih
  | @var n t l ts _ _ ih =>
    rw [writeIns]
    cases hr : r n with
    | some a => simp only [termsOnly]; exact ih
    | none => simp only [termsOnly]; exact ih

theorem Writes.rebind {ρ ρ' : Str → D} (h : Writes I r ρ ρ') {vs : List Var} (hv : ∀ v ∈ vs, r v.name = none) :
    (∀ ρ1, Rebind I vs ρ ρ1 → ∃ ρ1', Rebind I vs ρ' ρ1' ∧ Writes I r ρ1 ρ1') ∧
    (∀ ρ1', Rebind I vs ρ' ρ1' → ∃ ρ1, Rebind I vs ρ ρ1 ∧ Writes I r ρ1 ρ1') := by
  constructor
  · intro ρ1 hr
    refine ⟨fun x => match r x with | some a => I.const a | none => ρ1 x, ⟨?_, ?_⟩, ?_, ?_⟩
    · intro n hn
      simp only
      cases hx : r n with
      | some a => simp only; rw [h.name n a hx]
      | none => simp only; rw [h.other n hx, hr.1 n hn]
    · intro v hm
      simp only
      rw [hv v hm]
      exact hr.2 v hm
    · intro x a hx
      simp only [hx]
    · intro x hx
      simp only [hx]
  · intro ρ1' hr
    classical
    refine ⟨fun x => if ∃ v ∈ vs, v.name = x then ρ1' x else ρ x, ⟨?_, ?_⟩, ?_, ?_⟩
    · intro n hn
      simp only
      rw [if_neg (by rintro ⟨v, hv, e⟩; exact hn v hv e)]
    · intro v hm
      simp only
      rw [if_pos ⟨v, hm, rfl⟩]
      exact hr.2 v hm
    · intro x a hx
      rw [hr.1 x (by rintro v hm rfl; rw [hv v hm] at hx; cases hx)]
      exact h.name x a hx
    · intro x hx
      split
      · rfl
      · next hno => rw [hr.1 x (by rintro v hm e; exact hno ⟨v, hm, e⟩), h.other x hx]

theorem treeValues_writeIn {ρ ρ' : Str → D} {as : List Tree} (h : ∀ t ∈ as, treeValue I lit ρ (writeIn r t) = treeValue I lit ρ' t) :
    treeValues I lit ρ (as.map (writeIn r)) = treeValues I lit ρ' as := by
  induction as with
  | nil => simp [treeValues]
  | cons a as ih =>
    simp only [List.map_cons, treeValues]
    rw [h a (by simp), ih (fun t ht => h t (List.mem_cons_of_mem _ ht))]

theorem FRel.writes {ρ ρ' : Str → D} (hr : Writes I r ρ ρ') {t : Tree} {e : Expr} (h : FRel E t e) :
    treeValue I lit ρ (writeIn r t) = treeValue I lit ρ' t := by
  have hmem : ∀ {args : List Tree} {es : List Expr}, args.length = es.length →
      (∀ p ∈ args.zip es, treeValue I lit ρ (writeIn r p.1) = treeValue I lit ρ' p.1) →
      ∀ t ∈ args, treeValue I lit ρ (writeIn r t) = treeValue I lit ρ' t := by
    intro args es hl ih t ht
    obtain ⟨e, _, h⟩ := Pairs.mem_left (R := fun t (_ : Expr) => treeValue I lit ρ (writeIn r t) = treeValue I lit ρ' t) ⟨hl, ih⟩ ht
    exact h
  induction h with
  | num h => rw [writeIn]; simp [treeValue]
  | @plus args es h2 hl hall ih =>
    rw [writeIn, writeIns_cons (by simp), writeIn, writeIns_map (zip_notMark (R := FRel E) FRel.notMark hl hall),
      treeValue, treeValue, treeValues_writeIn (hmem hl ih)]
  | @times args es h2 hl hall ih =>
    rw [writeIn, writeIns_cons (by simp), writeIn, writeIns_map (zip_notMark (R := FRel E) FRel.notMark hl hall),
      treeValue, treeValue, treeValues_writeIn (hmem hl ih)]
  | @divide a b x y h1 h2 ih1 ih2 =>
    rw [writeIn, writeIns_cons (by simp), writeIn, writeIns_map (by simpa using ⟨h1.notMark, h2.notMark⟩),
      treeValue, treeValue, treeValues_writeIn (by simpa using ⟨ih1, ih2⟩)]
  | @minus a x h1 ih =>
    rw [writeIn, writeIns_cons (by simp), writeIn, writeIns_map (by simpa using h1.notMark),
      treeValue, treeValue, treeValues_writeIn (by simpa using ih)]
  | fn0 h => rw [writeIn]; simp [treeValue]
  | @fn n args ts f h1 h2 => rw [writeIn, writeIns_cons (by simp), writeIn, treeValue, treeValue, hr.terms h1]

theorem GRel.writes {ρ ρ' : Str → D} (hr : Writes I r ρ ρ') {t : Tree} {e : Expr} (h : GRel E t e) (hu : Unbound r t) :
    treeHolds I lit (writeIn r t) ρ ↔ treeHolds I lit t ρ' := by
  induction h generalizing ρ ρ' with
  | @and args es hl hall ih =>
    rw [writeIn, writeIns_cons (by simp), writeIn, writeIns_map (zip_notMark (R := GRel E) GRel.notMark hl hall),
      treeHolds_name, treeHolds_name, if_pos rfl, if_pos rfl, treeHoldsAll_iff, treeHoldsAll_iff]
    simp only [List.forall_mem_map]
    refine forall₂_congr (fun t ht => ?_)
    obtain ⟨e, he⟩ : ∃ e, (t, e) ∈ args.zip es := by
      obtain ⟨e, _, h⟩ := Pairs.mem_left (R := fun t e => (t, e) ∈ args.zip es) ⟨hl, fun p hp => hp⟩ ht
      exact ⟨e, h⟩
    exact ih (t, e) he hr (hu.sub (.node (List.mem_cons_of_mem _ ht) .refl))
  | @or args es hl hall _ ih =>
    rw [writeIn, writeIns_cons (by simp), writeIn, writeIns_map (zip_notMark (R := GRel E) GRel.notMark hl hall),
      treeHolds_name, treeHolds_name, if_neg (by decide), if_pos rfl,
      if_neg (by decide), if_pos rfl,
      treeHoldsSome_iff, treeHoldsSome_iff]
    simp only [List.mem_map, exists_exists_and_eq_and]
    refine exists_congr (fun t => and_congr_right (fun ht => ?_))
    obtain ⟨e, he⟩ : ∃ e, (t, e) ∈ args.zip es := by
      obtain ⟨e, _, h⟩ := Pairs.mem_left (R := fun t e => (t, e) ∈ args.zip es) ⟨hl, fun p hp => hp⟩ ht
      exact ⟨e, h⟩
    exact ih (t, e) he hr (hu.sub (.node (List.mem_cons_of_mem _ ht) .refl))
  | @not a e ha ih =>
    rw [writeIn, writeIns_map (by simpa using ha.notMark)]
    simp only [List.map_cons, List.map_nil, writeIn]
    rw [treeHolds_name, treeHolds_name, if_neg (by decide), if_neg (by decide), if_pos rfl,
      if_neg (by decide), if_neg (by decide), if_pos rfl]
    simp only
    rw [ih hr (hu.sub (.node (by simp) .refl))]
  | @imply a b e e' ha hb _ ih1 ih2 =>
    rw [writeIn, writeIns_map (by simpa using ⟨ha.notMark, hb.notMark⟩)]
    simp only [List.map_cons, List.map_nil, writeIn]
    rw [treeHolds_name, treeHolds_name, if_neg (by decide), if_neg (by decide), if_neg (by decide), if_pos rfl,
      if_neg (by decide), if_neg (by decide), if_neg (by decide), if_pos rfl]
    simp only
    rw [ih1 hr (hu.sub (.node (by simp) .refl)), ih2 hr (hu.sub (.node (by simp) .refl))]
  | @quant q vs c e toks l vars h1 h2 hg _ h3 ih =>
    obtain ⟨tl, htl, rfl⟩ := typedVarToks_iff.1 h1
    rw [writeIn, writeIns_map (by simpa using hg.notMark)]
    simp only [List.map_cons, List.map_nil, writeIn]
    rw [vars_kept htl (hu _ vs c tl (by cases q <;> simp [QOp.symbol]) .refl htl)]
    have hi : Unbound r c := hu.sub (.node (by simp) .refl)
    have hb : ∀ l, VarsText vs l → ∀ v ∈ l.varList, r v.name = none := by
      intro l hl v hv
      obtain ⟨p, hp, rfl⟩ := List.mem_map.1 hv
      exact hu _ vs c l (by cases q <;> simp [QOp.symbol]) .refl hl p hp
    cases q with
    | all =>
      simp only [QOp.symbol]
      rw [treeHolds_name, treeHolds_name, if_neg (by decide), if_neg (by decide), if_neg (by decide), if_neg (by decide), if_pos rfl,
      if_neg (by decide), if_neg (by decide), if_neg (by decide), if_neg (by decide), if_pos rfl]
      simp only
      refine exists_congr (fun l => and_congr_right (fun hl => ?_))
      constructor
      · intro h ρ1' hr'
        obtain ⟨ρ1, k1, k2⟩ := (hr.rebind (hb l hl)).2 ρ1' hr'
        exact (ih k2 hi).1 (h ρ1 k1)
      · intro h ρ1 hr'
        obtain ⟨ρ1', k1, k2⟩ := (hr.rebind (hb l hl)).1 ρ1 hr'
        exact (ih k2 hi).2 (h ρ1' k1)
    | ex =>
      simp only [QOp.symbol]
      rw [treeHolds_name, treeHolds_name, if_neg (by decide), if_neg (by decide), if_neg (by decide), if_neg (by decide), if_neg (by decide), if_pos rfl,
      if_neg (by decide), if_neg (by decide), if_neg (by decide), if_neg (by decide), if_neg (by decide), if_pos rfl]
      simp only
      refine exists_congr (fun l => and_congr_right (fun hl => ?_))
      constructor
      · rintro ⟨ρ1, hr', h⟩
        obtain ⟨ρ1', k1, k2⟩ := (hr.rebind (hb l hl)).1 ρ1 hr'
        exact ⟨ρ1', k1, (ih k2 hi).1 h⟩
      · rintro ⟨ρ1', hr', h⟩
        obtain ⟨ρ1, k1, k2⟩ := (hr.rebind (hb l hl)).2 ρ1' hr'
        exact ⟨ρ1, k1, (ih k2 hi).2 h⟩
  | @atom n args ts p hn h1 h2 =>
    simp only [gdKeywords, List.mem_cons, List.not_mem_nil, or_false, not_or] at hn
    obtain ⟨n1, n2, n3, n4, n5, n6⟩ := hn
    rw [writeIn, writeIns_cons (by simp), writeIn, treeHolds_name, treeHolds_name, if_neg n1, if_neg n2, if_neg n3, if_neg n4,
      if_neg n5, if_neg n6, if_neg n1, if_neg n2, if_neg n3, if_neg n4, if_neg n5, if_neg n6, hr.terms h1]
  | @eq args l r' e hs h1 _ h2 =>
    obtain ⟨t1, t2⟩ := termsOnly_writeIns (r := r) h1
    rw [writeIn, writeIns_cons (by simp), writeIn, treeHolds_tok I lit .eq (by simp), treeHolds_tok I lit .eq (by simp),
      t1, t2, sameTerms, sameTerms, hr.terms h1]
    simp
  | @comp t op a b e e' hop hst h1 h2 =>
    have f1 := fExp_rel h1
    have f2 := fExp_rel h2
    have hn : ∀ w, t ≠ .name w := by rintro w rfl; simp [compOp] at hop
    have hq : t ≠ .qmark := by rintro rfl; simp [compOp] at hop
    have hab : writeIns r [a, b] = [a, b].map (writeIn r) := writeIns_map (by simpa using ⟨f1.notMark, f2.notMark⟩)
    have hv : treeValues I lit ρ ([a, b].map (writeIn r)) = treeValues I lit ρ' [a, b] :=
      treeValues_writeIn (by simpa using ⟨f1.writes hr, f2.writes hr⟩)
    rw [writeIn, writeIns_cons (by simpa using hq), writeIn, hab, treeHolds_tok I lit t hn, treeHolds_tok I lit t hn, treeCompare,
      treeCompare, hv]
    by_cases ht : t = .eq
    · have k1 := startsWithTerm_false I (hst ht) (by simp)
      have k2 := startsWithTerm_false I (args := [a, b].map (writeIn r)) (by rw [← hab, startsWithTerm_writeIns]; exact hst ht) (by simp)
      rw [sameTerms, sameTerms, k1.1, k2.1, k1.2, k2.2]
    · simp [ht]

/-! ### Effects -/

theorem fHead_writes {ρ ρ' : Str → D} (hr : Writes I r ρ ρ') {t : Tree} {f : NFun} (h : E.fHead t = .ok f) :
    treeFluent I ρ (writeIn r t) = treeFluent I ρ' t := by
  unfold GEnv.fHead at h
  split at h
  · rw [writeIn]; simp [treeFluent]
  · obtain ⟨ts, ht, h⟩ := bind_ok_iff.1 h
    rw [writeIn, writeIns_cons (by simp), writeIn, treeFluent, treeFluent, hr.terms ht]
  · cases h

variable {c : Change D}

theorem PRel.writes {ρ ρ' : Str → D} (hr : Writes I r ρ ρ') {t : Tree} {e : Expr} (h : PRel E t e) :
    treeMakes I lit c (writeIn r t) ρ ↔ treeMakes I lit c t ρ' := by
  have hk : ∀ {w args}, t = .node (.atom (.name w) :: args) → w ≠ s%"and" ∧ w ∉ effKeywords := by
    rintro w args rfl
    exact h.not_keyword
  cases h with
  | @not a e h =>
    rw [writeIn, writeIns_map (by simp)]
    simp only [List.map_cons, List.map_nil, writeIn]
    rw [treeMakes_name, treeMakes_name, if_neg (by decide), if_neg (by decide), if_neg (by decide), if_pos rfl,
      if_neg (by decide), if_neg (by decide), if_neg (by decide), if_pos rfl]
    match a, h with
    | .atom (.name n) :: args, h =>
      obtain ⟨ts, p, h1, h2, rfl⟩ := atomic_name_ok.1 h
      rw [writeIns_cons (by simp), writeIn]
      simp only [treeDelete]
      rw [hr.terms h1]
    | .atom .eq :: args, h =>
      rw [writeIns_cons (by simp), writeIn]
      simp [treeDelete]
    | [], h => simp [GEnv.atomic] at h
    | .node _ :: _, h => simp [GEnv.atomic] at h
  | @assign w op hd x f e hop h1 h2 =>
    obtain ⟨n1, n2, n3, n4⟩ := assignOp_not_word hop
    rw [writeIn, writeIns_map (by simpa using ⟨(fHead_rel h1).notMark, (fExp_iff.1 h2).notMark⟩)]
    simp only [List.map_cons, List.map_nil, writeIn]
    rw [treeMakes_name, treeMakes_name, if_neg n1, if_neg n2, if_neg n3, if_neg n4, if_neg n1, if_neg n2, if_neg n3, if_neg n4,
      updateWord_eq, hop]
    simp only [treeUpdate]
    rw [fHead_writes hr h1, (fExp_rel h2).writes hr]
  | @atom w args e h1 h2 h3 =>
    obtain ⟨ts, p, h4, h5, rfl⟩ := atomic_name_ok.1 h3
    obtain ⟨n1, n2⟩ := hk rfl
    simp only [effKeywords, List.mem_cons, List.not_mem_nil, or_false, not_or] at n2
    rw [writeIn, writeIns_cons (by simp), writeIn]
    rw [treeMakes_name, treeMakes_name, if_neg n1, if_neg (by tauto), if_neg (by tauto), if_neg h1, if_neg n1, if_neg (by tauto),
      if_neg (by tauto), if_neg h1, updateWord_eq, h2]
    simp only
    rw [hr.terms h4]
  | @eq args e h =>
    rw [writeIn, writeIns_cons (by simp), writeIn]
    simp [treeMakes]

theorem ERel.writes {ρ ρ' : Str → D} (hr : Writes I r ρ ρ') {top : Bool} {t : Tree} {e : Expr} (h : ERel E top t e)
    (ho : NoOneof t) (hn : ¬ e.effy) : treeMakes I lit c (writeIn r t) ρ ↔ treeMakes I lit c t ρ' := by
  induction h with
  | @and args es hl hall ih =>
    rw [effy_mkAnd] at hn
    rw [writeIn, writeIns_cons (by simp), writeIn, writeIns_map (zip_notMark (R := ERel E false) ERel.notMark hl hall),
      treeMakes_name, treeMakes_name, if_pos rfl, if_pos rfl, treeMakesSome_iff, treeMakesSome_iff]
    simp only [List.mem_map, exists_exists_and_eq_and]
    refine exists_congr (fun t => and_congr_right (fun ht => ?_))
    obtain ⟨e, he⟩ : ∃ e, (t, e) ∈ args.zip es := by
      obtain ⟨e, _, h⟩ := Pairs.mem_left (R := fun t e => (t, e) ∈ args.zip es) ⟨hl, fun p hp => hp⟩ ht
      exact ⟨e, h⟩
    exact ih (t, e) he (fun a hi => ho a (hi.trans (.node (List.mem_cons_of_mem _ ht) .refl)))
      (fun h => hn ⟨e, (List.of_mem_zip he).2, h⟩)
  | fall => exact absurd trivial hn
  | when => exact absurd trivial hn
  | oneof => exact absurd .refl (ho _)
  | @lit top t e hw h => exact (pEffect_iff.1 h).writes hr

/-! ### Parts -/

theorem mem_writeIns {s : Tree} {l : List Tree} (h : s ∈ writeIns r l) :
    (∃ t ∈ l, s = writeIn r t) ∨ ∃ x a, r x = some a ∧ s = .atom (.name a) := by
  induction hk : l.length using Nat.strongRecOn generalizing l with
  | _ k ih =>
    subst hk
    rw [writeIns.eq_def] at h
    split at h
    · cases h
    · next n ts =>
      split at h
      · next a ha =>
        rcases List.mem_cons.1 h with rfl | h
        · exact .inr ⟨n, a, ha, rfl⟩
        · rcases ih _ (by simp; omega) h rfl with ⟨t, ht, e⟩ | h
          · exact .inl ⟨t, by simp [ht], e⟩
          · exact .inr h
      · rcases List.mem_cons.1 h with rfl | h
        · exact .inl ⟨.atom .qmark, by simp, by rw [writeIn]⟩
        rcases List.mem_cons.1 h with rfl | h
        · exact .inl ⟨.atom (.name n), by simp, by rw [writeIn]⟩
        · rcases ih _ (by simp; omega) h rfl with ⟨t, ht, e⟩ | h
          · exact .inl ⟨t, by simp [ht], e⟩
          · exact .inr h
    · next t ts _ =>
      rcases List.mem_cons.1 h with rfl | h
      · exact .inl ⟨t, by simp, rfl⟩
      · rcases ih _ (by simp) h rfl with ⟨t, ht, e⟩ | h
        · exact .inl ⟨t, by simp [ht], e⟩
        · exact .inr h

theorem inside_writeIn {s t : Tree} (h : Inside s (writeIn r t)) :
    (∃ s', Inside s' t ∧ s = writeIn r s') ∨ ∃ x a, r x = some a ∧ s = .atom (.name a) := by
  induction t using Tree.ind with
  | hatom k =>
    rw [writeIn] at h
    exact .inl ⟨.atom k, .refl, by cases h; rw [writeIn]⟩
  | hnode l ih =>
    generalize ht : writeIn r (.node l) = t' at h
    cases h with
    | refl => exact .inl ⟨_, .refl, ht.symm⟩
    | @node u us hu hi =>
      rw [writeIn] at ht
      injection ht with ht
      subst ht
      rcases mem_writeIns hu with ⟨v, hv, rfl⟩ | ⟨x, a, hx, rfl⟩
      · rcases ih v hv hi with ⟨s', k1, k2⟩ | k
        · exact .inl ⟨s', .node hv k1, k2⟩
        · exact .inr k
      · cases hi
        exact .inr ⟨x, a, hx, rfl⟩

theorem names_writeIn {t : Tree} (hw : ∀ w, Inside (.atom (.name w)) t → nameRegex w = true) (hv : ∀ x a, r x = some a → ValidName a) :
    ∀ w, Inside (.atom (.name w)) (writeIn r t) → nameRegex w = true := by
  intro w hi
  rcases inside_writeIn hi with ⟨s', h1, h2⟩ | ⟨x, a, hx, e⟩
  · cases s' with
    | atom k => rw [writeIn] at h2; rw [← h2] at h1; exact hw w h1
    | node l => rw [writeIn] at h2; cases h2
  · injection e with e
    injection e with e
    subst e
    exact (nameRegex_iff _).2 (hv x _ hx).1

theorem noOneof_writeIn {t : Tree} (h : NoOneof t) (hv : ∀ x a, r x = some a → ValidName a) : NoOneof (writeIn r t) := by
  intro args hi
  rcases inside_writeIn hi with ⟨s', h1, h2⟩ | ⟨x, a, hx, e⟩
  · cases s' with
    | atom k => rw [writeIn] at h2; cases h2
    | node l =>
      rw [writeIn] at h2
      injection h2 with h2
      rw [writeIns.eq_def] at h2
      split at h2
      · cases h2
      · next n ts =>
        split at h2
        · next a ha =>
          injection h2 with h2 _
          injection h2 with h2
          injection h2 with h2
          have : ¬ ValidName s%"oneof" := by decide
          exact this (h2 ▸ hv n a ha)
        · cases h2
      · next u us _ =>
        injection h2 with h2 _
        cases u with
        | atom k => rw [writeIn] at h2; rw [← h2] at h1; exact h _ h1
        | node l => rw [writeIn] at h2; cases h2
  · cases e

end Pddl
