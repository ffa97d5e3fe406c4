/-
The sections before the actions: what the parser makes of their texts.
-/
import Verif.Proofs.DeclText
import Verif.Proofs.TypeTable
import Verif.Proofs.ParseDom

namespace Pddl
open Spec

/-! ### Types -/

theorem typesLoop_mem {d : NamesBy} : ∀ {fuel : Nat} {remaining : List Str} {ind : Nat} {ls : List TypeLine},
    typesLoop d fuel remaining ind = .ok ls → ∀ l ∈ ls, l.2 ∈ remaining := by
  intro fuel
  induction fuel with
  | zero => intro remaining ind ls h; simp [typesLoop] at h
  | succ fuel ih =>
    intro remaining ind ls h
    unfold typesLoop at h
    split at h
    · simp only [pure_ok, Except.ok.injEq] at h; subst h; simp
    · split at h
      · simp at h
      · rename_i parent hp
        simp only at h
        split at h
        · exact ih h
        · obtain ⟨rest, h1, h2⟩ := bind_ok_iff.1 h
          simp only [pure_ok, Except.ok.injEq] at h2
          subst h2
          intro l hl
          rcases List.mem_cons.1 hl with rfl | hl
          · exact List.mem_of_getElem? hp
          · exact List.mem_of_mem_erase (ih h1 l hl)

theorem top_exists {d : TypeDict} (hne : d ≠ []) (hac : ∀ a, ¬ Relation.TransGen (Parent d) a a)
    (hcl : ∀ p ∈ d, p.2 ≠ some []) (hd : IsDict d) (hp : ∀ p ∈ d, ∀ t, p.2 = some t → ∃ x, (t, x) ∈ d) :
    ∃ t, (t, none) ∈ d := by
  by_contra hno
  have hstep : ∀ k, (∃ x, (k, x) ∈ d) → ∃ k', Parent d k k' ∧ ∃ x, (k', x) ∈ d := by
    rintro k ⟨x, hx⟩
    cases x with
    | none => exact absurd ⟨k, hx⟩ hno
    | some t =>
      exact ⟨t, ⟨(mem_of_lookup hd).1 hx, fun e => hcl _ hx (by rw [e])⟩, hp _ hx t rfl⟩
  choose! nxt hn1 hn2 using hstep
  obtain ⟨⟨k₀, x₀⟩, hk₀⟩ := List.exists_mem_of_ne_nil _ hne
  have hmem : ∀ i, ∃ x, (nxt^[i] k₀, x) ∈ d := by
    intro i
    induction i with
    | zero => exact ⟨x₀, hk₀⟩
    | succ i ihi => rw [Function.iterate_succ_apply']; exact hn2 _ ihi
  refine no_chain hac ⟨fun i => nxt^[i] k₀, fun i => ?_⟩
  simp only [Function.iterate_succ_apply']
  exact hn1 _ (hmem i)

theorem Prints.typeLines {gs : List (List Str × Str)} (h : ∀ g ∈ gs, (∀ n ∈ g.1, NameShape n) ∧ NameShape g.2 ∧ g.1 ≠ []) :
    Prints ((gs.map TypeLine.str).flatten) (NameList.text ⟨gs, []⟩) ∧
      ((gs.map TypeLine.str).flatten = [] ∨ ∃ r, (gs.map TypeLine.str).flatten = ' ' :: r) := by
  have hm : Prints s%"-" [.atom .minus] := Prints.tok (by decide +kernel) (by decide) (by decide) (by decide)
  induction gs with
  | nil => exact ⟨.nil, .inl rfl⟩
  | cons g gs ih =>
    obtain ⟨h1, h2⟩ := ih (fun q hq => h q (by simp [hq]))
    obtain ⟨hg1, hg2, _⟩ := h g (by simp)
    refine ⟨?_, .inr ?_⟩
    · have hj : Prints (joinStr s%" " (g.1.map id)) (g.1.flatMap (fun t => [word t])) :=
        Prints.join_map isSpace_blank (fun t h' => Prints.name (hg1 t h'))
      have hl := ((hj.sep isSpace_blank (hm.sep isSpace_blank (Prints.name hg2))).newline_end).spaces (p := s%"    ") (by decide)
      have := hl.append h1 (by
        rcases h2 with h2 | ⟨r, h2⟩
        · exact .inl h2
        · rw [h2]; exact delim_space isSpace_blank)
      have hw : ∀ n : Str, Tree.atom (.name n) = word n := fun _ => rfl
      simpa [TypeLine.str, NameList.text, flatMap_single, hw] using this
    · simp only [List.map_cons, List.flatten_cons, TypeLine.str]
      exact ⟨_, rfl⟩

theorem types_block {d : TypeDict} {rs : List Req} (hd : IsDict d) (hok : TypeNamesOk d)
    (hac : ∀ a, ¬ Relation.TransGen (Parent d) a a)
    (hcl : ∀ p ∈ d, p.2 ≠ some []) (hp : PrintTypes d rs) {σ : PState} (hσ : σ.types = none)
    (hext : d ≠ [] → Req.typing ∈ σ.ext) :
    ∃ (text : Str) (r : Option (List Tree)) (d' : TypeDict),
      typesSection d = .ok text ∧ Block text (secTree s%"types" r) ∧
      ((r = none ∧ d' = [] ∧ d = []) ∨ ∃ b, r = some b ∧ sectionTypes σ b = .ok (d', { σ with types := some d' }) ∧ d ≠ []) ∧
      IsDict d' ∧ ∀ p, p ∈ d' ↔ p ∈ d := by
  by_cases h0 : d = []
  · subst h0
    exact ⟨[], none, [], rfl, .nil, .inl ⟨rfl, rfl, rfl⟩, by simp [IsDict], fun _ => Iff.rfl⟩
  have hne : ∀ t, d.lookup t ≠ some (some []) := fun t h => hcl _ (lookup_mem h) rfl
  have hpar : ∀ {a b}, Parent d a b ↔ d.lookup a = some (some b) :=
    ⟨fun h => h.1, fun h => ⟨h, fun e => hne _ (e ▸ h)⟩⟩
  obtain ⟨ls, h1, h2, h3⟩ := typesLines_ok hd hne hac
  have h4 : ∀ l ∈ ls, l.2 ∈ parentKeys (groupTypes d) := typesLoop_mem h1
  let l : NameList := ⟨(sortedStr (noParents (groupTypes d)), s%"object") :: ls, []⟩
  have hpairs : ∀ t p, (t, p) ∈ l.pairs ↔ ∃ q, p = some q ∧ ListedUnder d t q := by
    intro t p
    simp only [NameList.pairs, l, List.map_nil, List.append_nil, List.mem_flatMap, List.mem_map, Prod.mk.injEq]
    constructor
    · rintro ⟨g, hg, a, ha, rfl, rfl⟩
      exact ⟨_, rfl, (h2.under _ _).1 ⟨g, hg, rfl, ha⟩⟩
    · rintro ⟨q, rfl, hq⟩
      obtain ⟨g, hg, rfl, ht⟩ := (h2.under _ _).2 hq
      exact ⟨g, hg, t, ht, rfl, rfl⟩
  have hkey : ∀ {t q}, ListedUnder d t q → ∃ x, (t, x) ∈ d ∧ t ≠ s%"object" ∧
      (if some q = some s%"object" then none else some q) = x := by
    intro t q h
    cases h with
    | given hpq hq =>
      have hm := (mem_of_lookup hd).2 hpq.1
      exact ⟨_, hm, hp.keys _ hm, by simp [hq]⟩
    | top hdec hall hto =>
      obtain ⟨p, hpd, hk | ⟨hk, _⟩⟩ := hdec
      · subst hk
        refine ⟨p.2, hpd, hto, ?_⟩
        cases hx : p.2 with
        | none => simp
        | some y =>
          exfalso
          have : Parent d p.1 y := hpar.2 ((mem_of_lookup hd).1 (by rw [← hx]; exact hpd))
          exact (hp.parents p hpd y hx).1 (hall y this)
      · obtain ⟨_, x, hx⟩ := hp.parents p hpd t hk
        refine ⟨x, hx, hto, ?_⟩
        cases x with
        | none => simp
        | some y =>
          exfalso
          have : Parent d t y := hpar.2 ((mem_of_lookup hd).1 hx)
          exact (hp.parents _ hx y rfl).1 (hall y this)
  have hvn : ∀ {t q}, ListedUnder d t q → ValidName t := by
    intro t q h
    obtain ⟨x, hx, hto, _⟩ := hkey h
    rcases (hok _ hx).1 with h | h
    · exact h
    · exact absurd h hto
  have hne1 : sortedStr (noParents (groupTypes d)) ≠ [] := by
    obtain ⟨t, ht⟩ := top_exists h0 hac hcl hd (fun p hp' t ht => (hp.parents p hp' t ht).2)
    have : t ∈ noParents (groupTypes d) := by
      rw [mem_noParents hd hne]
      refine .top ⟨_, ht, .inl rfl⟩ ?_ (hp.keys _ ht)
      intro p hp'
      have h5 := (mem_of_lookup hd).1 ht
      have h6 := hp'.1
      rw [h5] at h6; simp at h6
    exact sortedStr_ne (by intro e; rw [e] at this; simp at this)
  have hne2 : ∀ g ∈ ls, g.1 ≠ [] := by
    intro g hg
    obtain ⟨_, t, ht⟩ := (mem_parentKeys hd).1 (h4 g hg)
    rw [h3 g hg]
    have : t ∈ (groupTypes d).get (some g.2) := (mem_groupTypes hd).2 ht
    exact sortedStr_ne (by intro e; rw [e] at this; simp at this)
  have hvt : ∀ g ∈ l.groups, ValidType g.2 := by
    intro g hg
    rcases List.mem_cons.1 hg with rfl | hg
    · exact .inr rfl
    · obtain ⟨_, t, ht⟩ := (mem_parentKeys hd).1 (h4 g hg)
      exact (hok _ (lookup_mem ht)).2 _ rfl (fun e => hne t (e ▸ ht))
  have hlok : l.Ok := by
    refine ⟨?_, ?_, hvt, ?_⟩
    · intro g hg
      rcases List.mem_cons.1 hg with rfl | hg
      · exact hne1
      · exact hne2 g hg
    · rintro ⟨t, p⟩ hp'
      obtain ⟨q, _, hq⟩ := (hpairs t p).1 hp'
      exact hvn hq
    · have := h2.once
      simp only [NameList.pairs, l, List.map_nil, List.append_nil, List.map_flatMap, List.map_map, Function.comp_def, List.map_id']
      exact this
  have hshape : ∀ g ∈ l.groups, (∀ n ∈ g.1, NameShape n) ∧ NameShape g.2 ∧ g.1 ≠ [] := by
    intro g hg
    refine ⟨?_, validType_shape (hvt g hg), hlok.nonempty g hg⟩
    intro n hn
    exact (hvn ((h2.under n g.2).1 ⟨g, hg, rfl, hn⟩)).1
  let d' : TypeDict := l.pairs.map (fun p => if p.2 = some s%"object" then (p.1, none) else p)
  have hd'fst : d'.map Prod.fst = l.pairs.map Prod.fst := by
    simp only [d', List.map_map]
    apply List.map_congr_left
    intro p _
    simp only [Function.comp_apply]
    split <;> rfl
  have hmem : ∀ p, p ∈ d' ↔ p ∈ d := by
    rintro ⟨t, x⟩
    simp only [d', List.mem_map]
    constructor
    · rintro ⟨⟨t', p⟩, hp', e⟩
      obtain ⟨q, rfl, hq⟩ := (hpairs t' p).1 hp'
      obtain ⟨y, hy, _, hyq⟩ := hkey hq
      have : (t', y) = (t, x) := by
        rw [← e, ← hyq]
        by_cases hq : q = s%"object" <;> simp [hq]
      rw [← this]; exact hy
    · intro hx
      have hto := hp.keys _ hx
      cases x with
      | none =>
        refine ⟨(t, some s%"object"), (hpairs _ _).2 ⟨_, rfl, .top ⟨_, hx, .inl rfl⟩ ?_ hto⟩, by simp⟩
        intro p hp'
        have h5 := (mem_of_lookup hd).1 hx
        have h6 := hp'.1
        rw [h5] at h6; simp at h6
      | some y =>
        have hyo := (hp.parents _ hx y rfl).1
        refine ⟨(t, some y), (hpairs _ _).2 ⟨_, rfl, .given (hpar.2 ((mem_of_lookup hd).1 hx)) hyo⟩, by simp [hyo]⟩
  refine ⟨s%"(:types" ++ s%"\n    " ++ joinStr s%" " (sortedStr (noParents (groupTypes d))) ++ s%" - object\n" ++
    (ls.map TypeLine.str).flatten ++ s%")\n", some l.text, d', ?_, ⟨?_, .inr ⟨_, rfl⟩⟩, .inr ⟨_, rfl, ?_, h0⟩, ?_, hmem⟩
  · unfold typesSection printTypes
    rw [if_neg h0]
    show (typesLines (groupTypes d) >>= _) = _
    rw [h1, ok_bind]; rfl
  · have hk : Prints s%":types" [.atom (.kw s%"types")] := Prints.kw (k := s%"types") (by decide +kernel) (by decide +kernel)
    have hb := (Prints.typeLines hshape).1
    have := ((hk.newline_end).append hb (by
      obtain ⟨r, hr⟩ : ∃ r, ((l.groups.map TypeLine.str).flatten) = ' ' :: r := ⟨_, rfl⟩
      rw [hr]; exact delim_space isSpace_blank)).paren.newline_end
    refine Prints.congr (by simpa [secTree] using this) ?_
    simp [l, TypeLine.str]
  · unfold sectionTypes
    rw [parseTypedNames_text hlok, ok_bind]
    have := hext h0
    simp only [this, decide_true, Bool.not_true, Bool.and_false, Bool.not_false, check, if_true, ok_bind, hσ, Option.isNone_none, pure_ok]
    rfl
  · unfold IsDict
    rw [hd'fst]; exact hlok.nodup

/-! ### Constants -/

theorem constants_block {cs : List Term} (h : ∀ o ∈ cs, IsObject o) (hd : (cs.map Term.name).Nodup) (σ : PState) :
    ∃ (r : Option (List Tree)) (objs : List Term) (σ' : List (Str × Term)),
      Block (constantsSection s%"(:constants" cs) (secTree s%"constants" r) ∧
      ((r = none ∧ objs = [] ∧ σ' = []) ∨ ∃ b, r = some b ∧ sectionConstants σ b = .ok (objs, { σ with consts := σ' })) ∧
      objs.Perm cs ∧ σ' = objs.map (fun o => (o.name, o)) := by
  by_cases h0 : cs = []
  · subst h0
    exact ⟨none, [], [], .nil, .inl ⟨rfl, rfl, rfl⟩, .refl _, rfl⟩
  · have hk : Prints s%":constants" [.atom (.kw s%"constants")] := Prints.kw (k := s%"constants") (by decide +kernel) (by decide +kernel)
    obtain ⟨l, h1, h2, h3⟩ := constants_text hk h hd h0
    refine ⟨some l.text, _, constsOf l, ⟨h1, .inr ?_⟩, .inr ⟨_, rfl, ?_⟩, constsOf_eq h h3, ?_⟩
    · unfold constantsSection
      rw [if_neg h0]
      exact printTyped_paren _ _ _
    · have := constsOf_read h2
      unfold sectionConstants
      simp only [bind_ok_iff, pure_ok, Except.ok.injEq] at this ⊢
      obtain ⟨d, h4, cs, h5, h6⟩ := this
      exact ⟨d, h4, cs, h5, by rw [h6]⟩
    · simp only [constsOf, List.map_map, Function.comp_def]
      rfl

/-! ### Predicates -/

theorem predicates_block {ps : List Pred} (h : ∀ p ∈ ps, PrintPredicate p) (hb : ∀ p ∈ ps, ∃ n ts, mkPred n ts = .ok p)
    (σ : PState) :
    ∃ (r : Option (List Tree)) (qs : List Pred),
      Block (if ps = [] then [] else s%"(:predicates " ++ printPredicates ps ++ s%")\n") (secTree s%"predicates" r) ∧
      ((r = none ∧ qs = []) ∨ ∃ b, r = some b ∧
        sectionPredicates σ b = .ok (qs, { σ with preds := dictOf (qs.map (fun p => (p.name, p))) })) ∧
      qs = (sortedBy Pred.lt ps).map readPred := by
  by_cases h0 : ps = []
  · subst h0
    exact ⟨none, [], .nil, .inl ⟨rfl, rfl⟩, rfl⟩
  · have hs : ∀ p ∈ sortedBy Pred.lt ps, p ∈ ps := fun p hp => (sortBy_perm _ _).mem_iff.1 hp
    have hk : Prints s%":predicates" [.atom (.kw s%"predicates")] := Prints.kw (k := s%"predicates") (by decide +kernel) (by decide +kernel)
    have hpp := printPredicates_prints (ps := ps) (fun p hp => ⟨h p hp, by
      obtain ⟨n, ts, h1⟩ := hb p hp
      obtain ⟨h1, _, h3⟩ := mkPred_ok.1 h1
      rw [h3]; exact (parseName_ok.1 h1).2.1⟩)
    have hne : 1 ≤ ((sortedBy Pred.lt ps).map (fun p => predTree p.name (declOf p))).length := by
      rw [List.length_map]
      have : (sortedBy Pred.lt ps).length = ps.length := (sortBy_perm _ _).length_eq
      rw [this]
      exact List.length_pos_of_ne_nil h0
    refine ⟨some ((sortedBy Pred.lt ps).map (fun p => predTree p.name (declOf p))), _, ?_, .inr ⟨_, rfl, ?_⟩, rfl⟩
    · rw [if_neg h0]
      refine ⟨?_, .inr ⟨_, rfl⟩⟩
      have := (Prints.op hk hpp).newline_end
      simpa [secTree] using this
    · unfold sectionPredicates
      have hm : ((sortedBy Pred.lt ps).map (fun p => predTree p.name (declOf p))).mapM formulaSkeleton =
          .ok ((sortedBy Pred.lt ps).map readPred) := by
        generalize sortedBy Pred.lt ps = l at hs
        induction l with
        | nil => rfl
        | cons p l ih =>
          have hp := hs p (by simp)
          simp only [List.map_cons, List.mapM_cons, skeleton_read (h p hp) (hb p hp), ok_bind,
            ih (fun q hq => hs q (by simp [hq])), pure_ok]
      rw [hm, ok_bind]
      simp only [hne, decide_true, check, if_true, ok_bind, pure_ok]

/-! ### Functions -/

theorem funs_symm {a b : NFun} (h : a.pyEq b = false) : b.pyEq a = false := by
  cases hb : b.pyEq a
  · rfl
  · rw [NFun.pyEq_symm hb] at h; cases h

theorem functions_block {d : FunDict} (h : ∀ f ∈ d, PrintFunction f) (hb : ∀ f ∈ d, ∃ n ts, mkNFun n ts = .ok f.1)
    (hd : IsFunDict d) :
    ∃ (r : Option (List Tree)) (fs : FunDict),
      Block (functionsSection d) (secTree s%"functions" r) ∧
      ((r = none ∧ fs = []) ∨ ∃ b, r = some b ∧ sectionFunctions b = .ok fs) ∧
      fs.Perm d := by
  by_cases h0 : d = []
  · subst h0
    exact ⟨none, [], .nil, .inl ⟨rfl, rfl⟩, .refl _⟩
  · have hk : Prints s%":functions" [.atom (.kw s%"functions")] := Prints.kw (k := s%"functions") (by decide +kernel) (by decide +kernel)
    let items : List (Option Str × NFun) := d.map Prod.swap
    have hmem : ∀ p ∈ items, p.swap ∈ d := by
      intro p hp
      obtain ⟨q, hq, rfl⟩ := List.mem_map.1 hp
      exact hq
    have hperm := groupsOf_perm funSkeletonStr items
    have hnum : ∀ p ∈ items, ∀ t, p.1 = some t → t = s%"number" := by
      intro p hp t ht
      rcases (h _ (hmem p hp)).type with e | e
      · rw [show p.swap.2 = p.1 from rfl, ht] at e; cases e
      · rw [show p.swap.2 = p.1 from rfl, ht] at e; simpa using e
    have hpr : ∀ p ∈ items, Prints (funSkeletonStr p.2) [funTree p.2] := by
      intro p hp
      refine funTree_prints (f := p.swap) ?_ (h _ (hmem p hp))
      obtain ⟨n, ts, h1⟩ := hb _ (hmem p hp)
      obtain ⟨h2, h3⟩ := mkNFun_ok.1 h1
      rw [h3]; exact function_shape h2
    have hty := Prints.typed (f := funSkeletonStr) (tr := fun f => [funTree f]) (items := items) hk
      (fun p hp t ht => by rw [hnum p hp t ht]; exact validType_shape (.inl (by decide +kernel))) hpr
    have e : items.map (fun p => (p.1, funSkeletonStr p.2)) = d.map (fun p => (p.2, funSkeletonStr p.1)) := by
      simp [items]
    rw [e] at hty
    have hread := sectionFunctions_groups (g := groupsOf funSkeletonStr items) (by
      intro p hp
      obtain ⟨h1, a, h2⟩ := groupsOf_nonempty funSkeletonStr items p hp
      exact ⟨h1, hnum _ h2 _ rfl⟩) (by
      intro p hp
      have := hmem p (hperm.mem_iff.1 hp)
      exact funTree_read (f := p.swap) (h _ this) (hb _ this)) (by
      have h1 : (items.map Prod.swap).Pairwise (fun a b : NFun × Option Str => a.1.pyEq b.1 = false) := by
        simp only [items, List.map_map]
        have : (Prod.swap ∘ Prod.swap : NFun × Option Str → NFun × Option Str) = id := by funext ⟨a, b⟩; rfl
        rw [this, List.map_id]; exact hd
      rw [List.pairwise_map] at h1
      have h2 : (groupsOf funSkeletonStr items).pairs.Pairwise (fun a b => a.2.pyEq b.2 = false) :=
        (hperm.pairwise_iff (fun {a b} h => funs_symm h)).2 h1
      exact h2.imp (fun {a b} h => funs_symm h)) (by
      intro e
      have : items = [] := List.Perm.eq_nil (e ▸ hperm.symm)
      exact h0 (by simpa [items] using this))
    refine ⟨some _, _, ⟨?_, .inr ?_⟩, .inr ⟨_, rfl, hread⟩, ?_⟩
    · unfold functionsSection
      rw [if_neg h0]
      exact hty
    · unfold functionsSection
      rw [if_neg h0]
      exact printTyped_paren _ _ _
    · have := hperm.map Prod.swap
      simp only [items, List.map_map] at this
      have e2 : (Prod.swap ∘ Prod.swap : NFun × Option Str → NFun × Option Str) = id := by funext ⟨a, b⟩; rfl
      rw [e2, List.map_id] at this
      exact this

end Pddl
