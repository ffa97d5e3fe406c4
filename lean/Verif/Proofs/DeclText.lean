/-
The texts of declared predicates and functions, and what the parser makes of them.
-/
import Verif.Proofs.ProblemText
import Verif.Proofs.FormulaExact
import Verif.Spec.PrintDomain

namespace Pddl
open Spec

/-! ### Variables of declarations -/

/-- The tree of the types after `-`. -/
def typesTree : List Str → Tree
  | [t] => .atom (.name t)
  | ts => .node (.atom (.name s%"either") :: ts.map (fun x => .atom (.name x)))

/-- A variable of a declaration. -/
def declTrees (v : Var) : List Tree :=
  .atom .qmark :: .atom (.name v.name) :: (if v.tags = [] then [] else [.atom .minus, typesTree (sortedStr v.tags)])

/-- The variable that is read. -/
def readVar (v : Var) : Var := ⟨v.name, dd (sortedStr v.tags)⟩

theorem typesTree_text {ts : List Str} (h : ts ≠ []) : TypeText (typesTree ts) ts := by
  rcases ts with _ | ⟨a, _ | ⟨b, ts⟩⟩
  · exact absurd rfl h
  · exact .one a
  · exact .either a (b :: ts)

theorem sortedStr_ne {l : List Str} (h : l ≠ []) : sortedStr l ≠ [] := by
  intro e
  exact h (List.Perm.eq_nil (e ▸ (sortedStr_perm l).symm))

theorem Prints.declVar {v : Var} (h : NameShape v.name) (ht : ∀ t ∈ v.tags, NameShape t) :
    Prints (declVarStr (.var v)) (declTrees v) ∧ ∃ r, declVarStr (.var v) = ' ' :: r := by
  have hm : Prints s%"-" [.atom .minus] := Prints.tok (by decide +kernel) (by decide) (by decide) (by decide)
  have ht' : ∀ t ∈ sortedStr v.tags, NameShape t := fun t h => ht t (mem_sortedStr.1 h)
  unfold declVarStr declTrees
  have e1 : (Term.var v).tags = v.tags := rfl
  have e2 : (Term.var v).name = v.name := rfl
  rw [e1, e2]
  by_cases h1 : 1 < v.tags.length
  · simp only [if_pos h1]
    have hne : v.tags ≠ [] := by rintro e; rw [e] at h1; simp at h1
    rw [if_neg hne]
    have e : typesTree (sortedStr v.tags) = .node (.atom (.name s%"either") :: (sortedStr v.tags).map (fun x => .atom (.name x))) := by
      have hl : 1 < (sortedStr v.tags).length := by rw [sortedStr_length]; exact h1
      rcases hs : sortedStr v.tags with _ | ⟨a, _ | ⟨b, ts⟩⟩
      · rw [hs] at hl; simp at hl
      · rw [hs] at hl; simp at hl
      · rfl
    rw [e]
    have hk : Prints s%"either" [.atom (.name s%"either")] := Prints.tok (by decide +kernel) (by decide) (by decide) (by decide)
    have h2 : Prints (joinStr s%" " ((sortedStr v.tags).map id)) ((sortedStr v.tags).flatMap (fun t => [.atom (.name t)])) :=
      Prints.join_map isSpace_blank (fun t h' => Prints.name (ht' t h'))
    have := ((Prints.var h).sep isSpace_blank (hm.sep isSpace_blank (Prints.op hk h2))).space isSpace_blank
    refine ⟨?_, _, rfl⟩
    simpa [flatMap_single] using this
  · simp only [if_neg h1]
    rcases hs : sortedStr v.tags with _ | ⟨a, ts⟩
    · have hne : v.tags = [] := by
        by_contra hne; exact sortedStr_ne hne hs
      rw [if_pos hne]
      exact ⟨(Prints.var h).space isSpace_blank, _, rfl⟩
    · have hne : v.tags ≠ [] := by
        rintro e; rw [e] at hs; simp [sortedStr, sortBy] at hs
      rw [if_neg hne]
      have hl : (a :: ts).length = v.tags.length := by rw [← hs]; exact sortedStr_length _
      have : ts = [] := by
        cases ts with
        | nil => rfl
        | cons b ts => simp only [List.length_cons] at hl; omega
      subst this
      refine ⟨?_, _, rfl⟩
      have := ((Prints.var h).sep isSpace_blank (hm.sep isSpace_blank (Prints.name (ht' a (by simp [hs]))))).space isSpace_blank
      simpa [typesTree] using this

theorem Spec.DeclVars.tail {v : Var} {vs : List Var} (h : DeclVars (v :: vs)) : DeclVars vs :=
  ⟨fun w hw => h.names w (by simp [hw]), fun w hw => h.types w (by simp [hw]), (List.pairwise_cons.1 h.order).2,
    fun a ha b hb => h.same a (by simp [ha]) b (by simp [hb])⟩

theorem Prints.declVars {vs : List Var} (h : DeclVars vs) :
    Prints ((vs.map (fun v => declVarStr (.var v))).flatten) (vs.flatMap declTrees) ∧
      ((vs.map (fun v => declVarStr (.var v))).flatten = [] ∨ ∃ r, (vs.map (fun v => declVarStr (.var v))).flatten = ' ' :: r) := by
  induction vs with
  | nil => exact ⟨.nil, .inl rfl⟩
  | cons v vs ih =>
    obtain ⟨h1, h2⟩ := ih h.tail
    obtain ⟨h3, r, h4⟩ := Prints.declVar (h.names v (by simp)).1 (fun t ht => validType_shape (h.types v (by simp) t ht))
    refine ⟨?_, .inr ⟨r ++ (vs.map (fun v => declVarStr (.var v))).flatten, by simp [h4]⟩⟩
    have := h3.append h1 (by
      rcases h2 with h2 | ⟨r, h2⟩
      · exact .inl h2
      · rw [h2]; exact delim_space isSpace_blank)
    simpa using this

/-- The typed list of the variables of a declaration. -/
def declList : List Var → TypedList
  | [] => ⟨[], []⟩
  | v :: vs =>
    if v.tags = [] then ⟨[], (v :: vs).map (fun w => .str w.name)⟩
    else ⟨([.str v.name], .list (sortedStr v.tags)) :: (declList vs).groups, (declList vs).rest⟩

theorem declList_text {vs : List Var} (h : DeclVars vs) :
    VarsText (vs.flatMap declTrees) (declList vs) ∧
    (declList vs).assigned = vs.map (fun v => (.str v.name, sortedStr v.tags)) ∧ (declList vs).Ok := by
  induction vs with
  | nil => exact ⟨.rest [], rfl, ⟨by simp [declList], by simp [declList], by simp [declList]⟩⟩
  | cons v vs ih =>
    have ho := List.pairwise_cons.1 h.order
    have ih := ih h.tail
    by_cases e : v.tags = []
    · have hall : ∀ w ∈ v :: vs, w.tags = [] := by
        intro w hw
        rcases List.mem_cons.1 hw with rfl | hw
        · exact e
        · exact ho.1 w hw e
      have hl : declList (v :: vs) = ⟨[], (v :: vs).map (fun w => .str w.name)⟩ := by
        rw [declList, if_pos e]
      rw [hl]
      refine ⟨?_, ?_, ⟨by simp, ?_, by simp⟩⟩
      · have : (v :: vs).flatMap declTrees = ((v :: vs).map Var.name).flatMap varTrees := by
          rw [List.flatMap_map]
          apply List.flatMap_congr
          intro w hw
          simp [declTrees, hall w hw, varTrees]
        rw [this]
        have h2 := VarsText.rest ((v :: vs).map Var.name)
        rw [List.map_map] at h2
        exact h2
      · simp only [TypedList.assigned, List.flatMap_nil, List.nil_append, List.map_map]
        apply List.map_congr_left
        intro w hw
        simp [hall w hw, sortedStr, sortBy]
      · intro x hx
        obtain ⟨w, hw, rfl⟩ := List.mem_map.1 hx
        exact h.names w hw
    · have hl : declList (v :: vs) = ⟨([.str v.name], .list (sortedStr v.tags)) :: (declList vs).groups, (declList vs).rest⟩ := by
        rw [declList, if_neg e]
      rw [hl]
      refine ⟨?_, ?_, ⟨?_, ih.2.2.rest, ?_⟩⟩
      · have := VarsText.group (n := v.name) (ns := []) (typesTree_text (sortedStr_ne e)) ih.1
        simpa [declTrees, e, varTrees] using this
      · have := ih.2.1
        simp only [TypedList.assigned] at this ⊢
        rw [List.flatMap_cons, List.append_assoc, this]
        simp [typesOf]
      · intro g hg
        rcases List.mem_cons.1 hg with rfl | hg
        · intro x hx; simp at hx; subst hx; exact h.names v (by simp)
        · exact ih.2.2.items g hg
      · intro g hg
        rcases List.mem_cons.1 hg with rfl | hg
        · exact fun x hx => h.types v (by simp) x (mem_sortedStr.1 hx)
        · exact ih.2.2.types g hg

theorem declList_vars {vs : List Var} (h : DeclVars vs) :
    (declList vs).vars = vs.map (fun v => (v.name, sortedStr v.tags)) := by
  rw [TypedList.vars, (declList_text h).2.1, List.filterMap_map]
  clear h
  induction vs with
  | nil => rfl
  | cons v vs ih => simp [ih]

theorem declList_compatible {vs : List Var} (h : DeclVars vs) : Compatible (declList vs).itemsOf := by
  intro p hp q hq e
  rw [TypedList.itemsOf, (declList_text h).2.1, List.map_map] at hp hq
  obtain ⟨v, hv, rfl⟩ := List.mem_map.1 hp
  obtain ⟨w, hw, rfl⟩ := List.mem_map.1 hq
  have hn : v.name = w.name := by simpa [toItem, Item.pyEq] using e
  intro t
  simp only [Function.comp_apply, dd_mem, mem_sortedStr]
  exact h.same v hv w hw hn t

theorem declVars_toks {vs : List Var} (h : DeclVars vs) :
    ∃ toks, typedVarToks false (vs.flatMap declTrees) = some toks ∧
      typedListVariable toks = .ok (vs.map (fun v => (v.name, dd (sortedStr v.tags)))) := by
  obtain ⟨h1, _, h3⟩ := declList_text h
  refine ⟨_, typedVarToks_iff.2 ⟨_, h1, rfl⟩, ?_⟩
  rw [typedListVariable_eq h1 h3, if_pos (declList_compatible h), declList_vars h, List.map_map]
  rfl

theorem declVars_mk {vs : List Var} (h : DeclVars vs) :
    mkVars (vs.map (fun v => (v.name, dd (sortedStr v.tags)))) = .ok (vs.map readVar) := by
  rw [mkVars_ok]
  · rw [List.map_map]
    congr 1
    apply List.map_congr_left
    intro v _
    simp [readVar, dd_idem]
  · intro p hp
    obtain ⟨v, hv, rfl⟩ := List.mem_map.1 hp
    exact ⟨h.names v hv, fun t ht => h.types v hv t (mem_sortedStr.1 (dd_mem.1 ht))⟩

theorem declVars_read {vs : List Var} (h : DeclVars vs) :
    parseTypedVars (vs.flatMap declTrees) = .ok (vs.map readVar) := by
  obtain ⟨toks, h1, h2⟩ := declVars_toks h
  unfold parseTypedVars
  rw [h1]
  simp only [h2, ok_bind, declVars_mk h]

theorem readVar_same (v : Var) : SameTerm (.var (readVar v)) (.var v) := by
  have hs : SameTypes (readVar v).tags v.tags := fun t => by
    simp only [readVar, dd_mem, mem_sortedStr]
  refine ⟨rfl, hs, ?_⟩
  simp only [Term.norm, Var.norm, readVar]
  congr 2
  ext y
  simpa [readVar] using hs y

theorem readVars_same (vs : List Var) : List.Forall₂ SameTerm ((vs.map readVar).map Term.var) (vs.map Term.var) := by
  induction vs with
  | nil => exact .nil
  | cons v vs ih => exact .cons (readVar_same v) ih

theorem readVar_nodup (v : Var) : (readVar v).tags.Nodup := dedup_nodup _

theorem readVar_small {v : Var} (h : v.tags.length ≤ 1) : readVar v = v := by
  obtain ⟨n, ts⟩ := v
  rcases ts with _ | ⟨a, _ | ⟨b, ts⟩⟩
  · rfl
  · rfl
  · simp at h

/-! ### Predicates -/

/-- The tree of a declared predicate. -/
def predTree (n : Str) (vs : List Var) : Tree := .node (.atom (.name n) :: vs.flatMap declTrees)

theorem predTree_prints {n : Str} {vs : List Var} (hn : NameShape n) (h : DeclVars vs) :
    Prints (s%"(" ++ n ++ (vs.map (fun v => declVarStr (.var v))).flatten ++ s%")") [predTree n vs] := by
  obtain ⟨h1, h2⟩ := Prints.declVars h
  have := ((Prints.name hn).append h1 (by
      rcases h2 with h2 | ⟨r, h2⟩
      · exact .inl h2
      · rw [h2]; exact delim_space isSpace_blank)).paren
  simpa [predTree] using this

/-- One predicate as it is printed. -/
def predItem (p : Pred) : Str :=
  (if p.terms.length = 0 then s%"(" ++ p.name ++ s%")"
     else s%"(" ++ p.name ++ (p.terms.map declVarStr).flatten ++ s%") ") ++ s%" "

theorem predItem_prints {p : Pred} {vs : List Var} (hn : NameShape p.name) (hp : p.terms = vs.map Term.var) (h : DeclVars vs) :
    Prints (predItem p) [predTree p.name vs] := by
  have := predTree_prints hn h
  unfold predItem
  rw [hp]
  split
  · rename_i h0
    have : vs = [] := by simpa using h0
    subst this
    have h1 := ((Prints.name hn).paren).spaces_end (e := s%" ") (by decide)
    simpa [predTree] using h1
  · have h1 := this.spaces_end (e := s%"  ") (by decide)
    simpa [Function.comp_def] using h1

theorem predItems_prints {ps : List Pred} {tr : Pred → Tree} (h : ∀ p ∈ ps, Prints (predItem p) [tr p]) :
    Prints ((ps.map predItem).flatten) (ps.map tr) ∧
      ((ps.map predItem).flatten = [] ∨ ∃ r, (ps.map predItem).flatten = '(' :: r) := by
  induction ps with
  | nil => exact ⟨.nil, .inl rfl⟩
  | cons p ps ih =>
    obtain ⟨h1, h2⟩ := ih (fun q hq => h q (by simp [hq]))
    refine ⟨?_, .inr ?_⟩
    · have := (h p (by simp)).append h1 (by
        rcases h2 with h2 | ⟨r, h2⟩
        · exact .inl h2
        · rw [h2]; exact delim_bracket (by decide))
      simpa using this
    · simp only [List.map_cons, List.flatten_cons, predItem]
      split <;> exact ⟨_, rfl⟩

/-- The variables of a declared predicate. -/
def declOf (p : Pred) : List Var := p.terms.flatMap varOf

theorem declOf_vars {vs : List Var} : (vs.map Term.var).flatMap varOf = vs := by
  induction vs with
  | nil => rfl
  | cons v vs ih => simp [varOf, ih]

theorem Spec.PrintPredicate.vars {p : Pred} (h : PrintPredicate p) : p.terms = (declOf p).map Term.var ∧ DeclVars (declOf p) := by
  obtain ⟨vs, h1, h2⟩ := h
  have : declOf p = vs := by rw [declOf, h1, declOf_vars]
  rw [this]; exact ⟨h1, h2⟩

theorem printPredicates_prints {ps : List Pred} (h : ∀ p ∈ ps, PrintPredicate p ∧ NameShape p.name) :
    Prints (printPredicates ps) ((sortedBy Pred.lt ps).map (fun p => predTree p.name (declOf p))) := by
  have hs : ∀ p ∈ sortedBy Pred.lt ps, p ∈ ps := fun p hp => (sortBy_perm _ _).mem_iff.1 hp
  have := (predItems_prints (ps := sortedBy Pred.lt ps) (tr := fun p => predTree p.name (declOf p)) (fun p hp => by
    obtain ⟨h1, h2⟩ := h p (hs p hp)
    exact predItem_prints h2 h1.vars.1 h1.vars.2)).1
  exact this.strip

/-- The predicate that is read. -/
def readPred (p : Pred) : Pred := ⟨p.name, ((declOf p).map readVar).map Term.var⟩

theorem readPred_same {p : Pred} (h : PrintPredicate p) : List.Forall₂ SameTerm (readPred p).terms p.terms := by
  have := readVars_same (declOf p)
  rw [← h.vars.1] at this
  exact this

theorem readPred_norm {p : Pred} (h : PrintPredicate p) : (readPred p).norm = p.norm := by
  simp only [Pred.norm, sameTerm_norms (readPred_same h)]
  rfl

theorem skeleton_read {p : Pred} (h : PrintPredicate p) (hb : ∃ n ts, mkPred n ts = .ok p) :
    formulaSkeleton (predTree p.name (declOf p)) = .ok (readPred p) := by
  obtain ⟨n, ts, hb⟩ := hb
  obtain ⟨h1, h2, h3⟩ := mkPred_ok.1 hb
  have hp : mkPred p.name (((declOf p).map readVar).map Term.var) = .ok (readPred p) := by
    refine mkPred_ok.2 ⟨?_, ?_, rfl⟩
    · rw [h3]; exact h1
    · have := readPred_same h
      exact sameTerm_consistent this (by rw [h3]; exact h2)
  simp only [predTree, formulaSkeleton, declVars_read h.vars.2, ok_bind, hp]

/-! ### Functions -/

theorem funVar_decl {t : Term} (h : t.tags.length ≤ 1) : funVarStr t = declVarStr t := by
  unfold funVarStr declVarStr
  rw [if_neg (by omega)]

theorem Spec.PrintFunction.vars {f : NFun × Option Str} (h : PrintFunction f) :
    ∃ vs : List Var, f.1.terms = vs.map Term.var ∧ DeclVars vs ∧ (∀ v ∈ vs, v.tags.length ≤ 1) := h.terms

/-- The tree of a declared function. -/
def funTree (f : NFun) : Tree := predTree f.name (f.terms.flatMap varOf)

theorem funTree_prints {f : NFun × Option Str} (hn : NameShape f.1.name) (h : PrintFunction f) :
    Prints (funSkeletonStr f.1) [funTree f.1] := by
  obtain ⟨vs, h1, h2, h3⟩ := h.terms
  have e : f.1.terms.flatMap varOf = vs := by rw [h1, declOf_vars]
  have e2 : (f.1.terms.map funVarStr) = vs.map (fun v => declVarStr (.var v)) := by
    rw [h1, List.map_map]
    apply List.map_congr_left
    intro v hv
    exact funVar_decl (h3 v hv)
  have := predTree_prints hn h2
  unfold funSkeletonStr funTree
  rw [e]
  split
  · rename_i h0
    have : vs = [] := by rw [h1] at h0; simpa using h0
    subst this
    simpa [predTree] using (Prints.name hn).paren
  · rw [e2]; exact this

theorem funTree_read {f : NFun × Option Str} (h : PrintFunction f) (hb : ∃ n ts, mkNFun n ts = .ok f.1) :
    functionSkeleton (funTree f.1) = .ok f.1 := by
  obtain ⟨vs, h1, h2, h3⟩ := h.terms
  obtain ⟨n, ts, hb⟩ := hb
  obtain ⟨h4, h5⟩ := mkNFun_ok.1 hb
  have e : f.1.terms.flatMap varOf = vs := by rw [h1, declOf_vars]
  obtain ⟨toks, h6, h7⟩ := declVars_toks h2
  have hid : vs.map readVar = vs := by
    conv_rhs => rw [← List.map_id vs]
    exact List.map_congr_left (fun v hv => readVar_small (h3 v hv))
  have hmk : mkNFun f.1.name f.1.terms = .ok f.1 := mkNFun_ok.2 ⟨by rw [h5]; exact h4, rfl⟩
  simp only [funTree, predTree, functionSkeleton, e, h6, h7, ok_bind]
  split
  · rename_i hc
    have := h.cost hc
    rw [this, hc] at hmk
    exact hmk
  · rw [declVars_mk h2, hid, ok_bind, ← h1]
    exact hmk

theorem functionToks_fns {fs : List NFun} (b : Bool) (ts : List Tree)
    (h : ∀ f ∈ fs, functionSkeleton (funTree f) = .ok f) :
    functionToks b (fs.map funTree ++ ts) =
      (do let r ← functionToks (b || !fs.isEmpty) ts; pure (fs.map TTok.fn ++ r)) := by
  induction fs generalizing b with
  | nil =>
    simp only [List.map_nil, List.nil_append, List.isEmpty_nil, Bool.not_true, Bool.or_false]
    cases functionToks b ts <;> rfl
  | cons f fs ih =>
    have ih := ih true (fun g hg => h g (by simp [hg]))
    have hf := h f (by simp)
    unfold funTree predTree at hf
    simp only [List.map_cons, List.cons_append]
    have e : functionToks b (funTree f :: (fs.map funTree ++ ts)) =
      (do let f' ← functionSkeleton (funTree f); let r ← functionToks true (fs.map funTree ++ ts); pure (.fn f' :: r)) := by
      unfold funTree predTree
      cases b <;> rfl
    rw [e, h f (by simp), ok_bind, ih]
    simp only [List.isEmpty_cons, Bool.not_false, Bool.or_true, Bool.true_or]
    cases functionToks true ts <;> rfl

/-- The groups as a typed list of functions. -/
def funList (g : Groups NFun) : TypedList :=
  ⟨g.groups.map (fun p => (p.2.map .fn, .str p.1)), g.rest.map .fn⟩

theorem functionToks_groups {g : Groups NFun} (hne : ∀ p ∈ g.groups, p.2 ≠ [] ∧ p.1 = s%"number")
    (h : ∀ p ∈ g.pairs, functionSkeleton (funTree p.2) = .ok p.2) :
    functionToks false (g.trees (fun f => [funTree f])) = .ok (funList g).tokens := by
  obtain ⟨gs, rest⟩ := g
  induction gs with
  | nil =>
    have := functionToks_fns (fs := rest) false [] (fun f hf => h (none, f) (by
      simp only [Groups.pairs, List.flatMap_nil, List.nil_append]
      exact List.mem_map.2 ⟨f, hf, rfl⟩))
    rw [List.append_nil] at this
    simp only [Groups.trees, List.flatMap_nil, List.nil_append, flatMap_single, this, functionToks, pure_ok, ok_bind,
      List.append_nil]
    rfl
  | cons g gs ih =>
    obtain ⟨t, fs⟩ := g
    obtain ⟨h1, h2⟩ := hne (t, fs) (by simp)
    simp only at h1 h2
    subst h2
    have ih := ih (fun p hp => hne p (by simp [hp])) (fun p hp => h p (by
      simp only [Groups.pairs, List.flatMap_cons, List.append_assoc] at hp ⊢
      exact List.mem_append_right _ hp))
    have e : Groups.trees (fun f => [funTree f]) ⟨(s%"number", fs) :: gs, rest⟩ =
        fs.map funTree ++ (.atom .minus :: word s%"number" :: Groups.trees (fun f => [funTree f]) ⟨gs, rest⟩) := by
      simp [Groups.trees, flatMap_single]
    rw [e, functionToks_fns _ _ (fun f hf => h (some s%"number", f) (by
      simp only [Groups.pairs, List.flatMap_cons]
      exact List.mem_append_left _ (List.mem_append_left _ (List.mem_map.2 ⟨f, hf, rfl⟩))))]
    have : (false || !fs.isEmpty) = true := by cases fs <;> simp_all
    rw [this]
    simp only [word, functionToks, decide_true, check, if_true, ok_bind, ih, pure_ok]
    simp [funList, TypedList.tokens]

theorem funList_items (g : Groups NFun) :
    (funList g).itemsOf = g.pairs.map (fun p => (Item.fn p.2, p.1.toList)) := by
  have h1 : ∀ s : Str, dd [s] = [s] := fun s => rfl
  simp only [TypedList.itemsOf, TypedList.assigned, funList, Groups.pairs, List.map_append, List.map_flatMap,
    List.flatMap_map, List.map_map, Function.comp_def, toItem, typesOf, h1, dd_nil, Option.toList]

theorem fns_filterMap (L : List (Option Str × NFun)) :
    (L.map (fun p => (Item.fn p.2, p.1.toList.head?))).filterMap
      (fun p => match p.1 with | .fn f => some (f, p.2) | .name _ => none) = L.map Prod.swap := by
  induction L with
  | nil => rfl
  | cons p L ih =>
    obtain ⟨t, f⟩ := p
    simp only [List.map_cons, List.filterMap_cons, ih]
    cases t <;> rfl

/-- What the functions section gives. -/
theorem sectionFunctions_groups {g : Groups NFun} (hne : ∀ p ∈ g.groups, p.2 ≠ [] ∧ p.1 = s%"number")
    (h : ∀ p ∈ g.pairs, functionSkeleton (funTree p.2) = .ok p.2)
    (hd : g.pairs.Pairwise (fun a b => b.2.pyEq a.2 = false)) (hpos : g.pairs ≠ []) :
    sectionFunctions (g.trees (fun f => [funTree f])) = .ok (g.pairs.map Prod.swap) := by
  have htypes : (funList g).Ok := by
    refine ⟨?_, ?_, ?_⟩
    · intro x hx t ht
      obtain ⟨y, _, rfl⟩ := List.mem_map.1 hx
      obtain ⟨f, _, rfl⟩ := List.mem_map.1 ht
      trivial
    · intro t ht
      obtain ⟨f, _, rfl⟩ := List.mem_map.1 ht
      trivial
    · intro x hx
      obtain ⟨y, hy, rfl⟩ := List.mem_map.1 hx
      show ValidType y.1
      rw [(hne y hy).2]
      exact .inl (by decide +kernel)
  have hl : decide (1 ≤ (g.trees (fun f => [funTree f])).length) = true := by
    rw [decide_eq_true_eq]
    by_contra h0
    apply hpos
    have : g.trees (fun f => [funTree f]) = [] := by
      apply List.eq_nil_of_length_eq_zero; omega
    obtain ⟨gs, rest⟩ := g
    simp only [Groups.trees, List.append_eq_nil_iff, flatMap_single, List.map_eq_nil_iff, List.flatMap_eq_nil_iff] at this
    have hgs : gs = [] := by
      cases gs with
      | nil => rfl
      | cons x gs => exact absurd (this.1 x (by simp)).2 (by simp)
    simp [Groups.pairs, hgs, this.2]
  unfold sectionFunctions
  rw [functionToks_groups hne h, ok_bind, hl]
  simp only [check, if_true, ok_bind]
  rw [parseTypedList_eq false _ htypes, funList_items]
  have := (addAll_false (M := []) (L := g.pairs.map (fun p => (Item.fn p.2, p.1.toList))) List.Pairwise.nil).1
    (by
      rw [List.nil_append]
      unfold Unequal
      rw [List.pairwise_map]
      exact hd)
  simp only [List.nil_append] at this
  rw [this]
  simp only [ok_bind, TIndex.names, namesOf_eq]
  rw [if_pos]
  · simp only [ok_bind, pure_ok, typedListError, List.map_map, Function.comp_def]
    exact congrArg Except.ok (fns_filterMap g.pairs)
  · intro p hp
    obtain ⟨q, _, rfl⟩ := List.mem_map.1 hp
    cases q.1 <;> simp

end Pddl
