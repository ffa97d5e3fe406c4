/-
Printable conditions and effects are read back as equal ones.
-/
import Verif.Proofs.FormulaText
import Verif.Proofs.Tags

namespace Pddl
open Spec

variable {E : GEnv}

/-! ### Terms -/

/-- Equal terms with the same types. -/
def SameTerm (a b : Term) : Prop := a.name = b.name ∧ SameTypes a.tags b.tags ∧ a.norm = b.norm

theorem Known.valid {t : Term} (h : Known E t) : ValidName t.name := by
  cases t with
  | var v => exact h.1
  | const n x => exact h.1

theorem known_terms {ts : List Term} (h : ∀ t ∈ ts, Known E t) :
    ∃ ts', E.terms (ts.flatMap Term.trees) = .ok ts' ∧ List.Forall₂ SameTerm ts' ts := by
  induction ts with
  | nil => exact ⟨[], rfl, .nil⟩
  | cons t ts ih =>
    obtain ⟨ts', h1, h2⟩ := ih (fun x hx => h x (by simp [hx]))
    have ht := h t (by simp)
    cases t with
    | const n x =>
      obtain ⟨_, hc⟩ := ht
      exact ⟨.const n x :: ts', by simp [Term.trees, GEnv.terms, hc, h1], .cons ⟨rfl, fun _ => Iff.rfl, rfl⟩ h2⟩
    | var v =>
      obtain ⟨hv, hc⟩ := ht
      rcases hc with ⟨w, hw, hn, hs⟩ | ⟨hw, hs⟩
      · refine ⟨.var w :: ts', ?_, .cons ⟨hn, hs, ?_⟩ h2⟩
        · simp [Term.trees, GEnv.terms, GEnv.variable, hw, h1]
        · simp only [Term.norm, Var.norm, hn]
          congr 2
          ext y; simpa using hs y
      · refine ⟨.var ⟨v.name, []⟩ :: ts', ?_, .cons ⟨rfl, ?_, ?_⟩ h2⟩
        · have : mkVar v.name (.set []) = .ok ⟨v.name, []⟩ :=
            mkVar_set_ok.2 ⟨hv, by simp, by simp [dedupBy, dedupAux]⟩
          simp [Term.trees, GEnv.terms, GEnv.variable, hw, this, h1]
        · intro y; simp [Term.tags, hs]
        · simp [Term.norm, Var.norm, hs]

theorem sameTerm_norms {ts' ts : List Term} (h : List.Forall₂ SameTerm ts' ts) :
    ts'.map Term.norm = ts.map Term.norm := by
  induction h with
  | nil => rfl
  | cons h1 _ ih => simp [h1.2.2, ih]

theorem sameTerm_mem {ts' ts : List Term} (h : List.Forall₂ SameTerm ts' ts) {a : Term} (ha : a ∈ ts') :
    ∃ b ∈ ts, SameTerm a b := by
  induction h with
  | nil => simp at ha
  | cons h1 _ ih =>
    rcases List.mem_cons.1 ha with rfl | ha
    · exact ⟨_, by simp, h1⟩
    · obtain ⟨b, hb, h2⟩ := ih ha
      exact ⟨b, by simp [hb], h2⟩

theorem sameTerm_consistent {ts' ts : List Term} (h : List.Forall₂ SameTerm ts' ts)
    (hc : termsConsistent [] ts = true) : termsConsistent [] ts' = true := by
  rw [consistent_iff] at hc ⊢
  intro a ha b hb hab t
  obtain ⟨a', ha', h1⟩ := sameTerm_mem h ha
  obtain ⟨b', hb', h2⟩ := sameTerm_mem h hb
  rw [h1.2.1 t, h2.2.1 t]
  exact hc a' ha' b' hb' (by rw [← h1.1, ← h2.1, hab]) t

/-! ### Operands -/

theorem collect {R : Tree → Expr → Prop} {as : List Expr}
    (h : ∀ a ∈ as, ∃ e', R a.tree e' ∧ e'.norm = a.norm) :
    ∃ es', (Expr.trees as).length = es'.length ∧ (∀ p ∈ (Expr.trees as).zip es', R p.1 p.2) ∧
      Expr.norms es' = Expr.norms as := by
  induction as with
  | nil => exact ⟨[], rfl, by simp [Expr.trees], rfl⟩
  | cons a as ih =>
    obtain ⟨e', h1, h2⟩ := h a (by simp)
    obtain ⟨es', h3, h4, h5⟩ := ih (fun x hx => h x (by simp [hx]))
    refine ⟨e' :: es', by simp [Expr.trees, h3], ?_, by simp [Expr.norms, h2, h5]⟩
    intro p hp
    simp only [Expr.trees, List.zip_cons_cons, List.mem_cons] at hp
    rcases hp with rfl | hp
    · exact h1
    · exact h4 p hp

theorem construct_norm {c : Cls} {as es : List Expr} (g : Stable c as) (h : Expr.norms es = Expr.norms as) :
    (construct c es).norm = (Expr.ofCls c as).norm := by
  rw [construct_congr h, g]

theorem trees_length (as : List Expr) : (Expr.trees as).length = as.length := by
  rw [Expr.trees_eq]; simp

/-! ### Numbers -/

theorem digitText_digits {w : Str} (h : DigitText w) : Digits w :=
  ⟨h.1, fun c hc => by
    have := h.2 c hc
    simp only [Digit, Char.le_def, UInt32.le_iff_toNat_le] at this
    simp only [isDigitC, Bool.and_eq_true, decide_eq_true_eq]
    exact this⟩

theorem numberText_shape {F : FloatOf} {n : Num} (h : NumberText F n) : NumberShape n.text := by
  cases h with
  | int n =>
    have : ¬ ((n : Int) < 0) := by omega
    simp only [Num.text, this, if_false, Int.natAbs_natCast]
    exact Or.inl (natDigits_spec n).1
  | flt a b ha hb _ => exact Or.inr ⟨a, b, rfl, digitText_digits ha, digitText_digits hb⟩

theorem numberText_literal {F : FloatOf} {n : Num} (h : NumberText F n) : numLiteral F n.text = .ok n := by
  cases h with
  | int n =>
    have : ¬ ((n : Int) < 0) := by omega
    simp only [Num.text, this, if_false, Int.natAbs_natCast]
    exact numLiteral_natDigits F n
  | flt a b ha hb hf =>
    have : '.' ∈ a ++ '.' :: b := by simp
    simp [numLiteral, Num.text, hf]

theorem printNum_rel {e : Expr} (hp : PrintNum E e) (hg : e.Good) :
    (∃ e', FRel E e.tree e' ∧ e'.norm = e.norm) ∧ Writable e := by
  induction hp with
  | num h => exact ⟨⟨_, .num (numberText_literal h), rfl⟩, .num (Prints.number (numberText_shape h))⟩
  | @fn f h =>
    obtain ⟨ts', h1, h2⟩ := known_terms h
    have hf : parseFunction f.name = .ok f.name := hg
    refine ⟨⟨.nfun ⟨f.name, ts'⟩, .fn h1 (mkNFun_ok.2 ⟨hf, rfl⟩), ?_⟩, .nfun ?_ (fun t ht => (Known.valid (h t ht)).1)⟩
    · simp [Expr.norm, sameTerm_norms h2]
    · rcases (parseFunction_ok.1 hf).2 with hv | hv
      · exact hv.1
      · rw [hv]; exact (nameRegex_iff _).1 (by decide)
  | @plus as hl _ ih =>
    have hg' := goods_iff.1 hg.2
    obtain ⟨es, h1, h2, h3⟩ := collect (fun a ha => (ih a ha (hg' a ha)).1)
    exact ⟨⟨_, .plus (by rw [trees_length]; exact hl) h1 h2, construct_norm hg.1 h3⟩,
      .bfun (fun a ha => (ih a ha (hg' a ha)).2)⟩
  | @times as hl _ ih =>
    have hg' := goods_iff.1 hg.2
    obtain ⟨es, h1, h2, h3⟩ := collect (fun a ha => (ih a ha (hg' a ha)).1)
    exact ⟨⟨_, .times (by rw [trees_length]; exact hl) h1 h2, construct_norm hg.1 h3⟩,
      .bfun (fun a ha => (ih a ha (hg' a ha)).2)⟩
  | @divide a b _ _ ih1 ih2 =>
    obtain ⟨⟨x, h1, h2⟩, w1⟩ := ih1 hg.2.1
    obtain ⟨⟨y, h3, h4⟩, w2⟩ := ih2 hg.2.2.1
    refine ⟨⟨_, .divide h1 h3, construct_norm hg.1 (by simp [Expr.norms, h2, h4])⟩, .bfun ?_⟩
    intro z hz
    simp only [List.mem_cons, List.not_mem_nil, or_false] at hz
    rcases hz with rfl | rfl
    · exact w1
    · exact w2
  | @minus a _ ih =>
    obtain ⟨⟨x, h1, h2⟩, w1⟩ := ih hg.2.1
    refine ⟨⟨_, .minus h1, construct_norm hg.1 (by simp [Expr.norms, h2])⟩, .bfun ?_⟩
    intro z hz
    simp only [List.mem_cons, List.not_mem_nil, or_false] at hz
    subst hz; exact w1

theorem printNum_tree {e : Expr} (hp : PrintNum E e) (l : List Tree) :
    startsWithTerm (e.tree :: l) = false := by
  cases hp <;> rfl

/-! ### Variables -/

theorem validType_shape {t : Str} (h : ValidType t) : NameShape t := by
  rcases h with h | h
  · exact h.1
  · rw [h]; exact (nameRegex_iff _).1 (by decide)

theorem Spec.PrintVars.shapes {vs : List Var} (h : PrintVars vs) :
    ∀ v ∈ vs, NameShape v.name ∧ ∀ t ∈ v.tags, NameShape t := by
  intro v hv
  refine ⟨(h.names v hv).1, ?_⟩
  intro t ht
  rcases h.types v hv with e | ⟨x, e, hx⟩
  · rw [e] at ht; simp at ht
  · rw [e] at ht; simp at ht; subst ht; exact validType_shape hx

/-- The typed list of printable variables. -/
def varsList : List Var → TypedList
  | [] => ⟨[], []⟩
  | v :: vs =>
    match v.tags with
    | [] => ⟨[], (v :: vs).map (fun w => .str w.name)⟩
    | ts => ⟨([.str v.name], .list ts) :: (varsList vs).groups, (varsList vs).rest⟩

theorem varsList_text {vs : List Var} (h : PrintVars vs) :
    VarsText (vs.flatMap quantVarTrees) (varsList vs) ∧
    (varsList vs).assigned = vs.map (fun v => (.str v.name, v.tags)) ∧ (varsList vs).Ok := by
  induction vs with
  | nil => exact ⟨.rest [], rfl, ⟨by simp [varsList], by simp [varsList], by simp [varsList]⟩⟩
  | cons v vs ih =>
    have hd := h.distinct
    simp only [List.map_cons, List.nodup_cons] at hd
    have ho := List.pairwise_cons.1 h.order
    have ih := ih ⟨fun w hw => h.names w (by simp [hw]), hd.2, fun w hw => h.types w (by simp [hw]), ho.2⟩
    rcases h.types v (by simp) with e | ⟨t, e, ht⟩
    · have hall : ∀ w ∈ v :: vs, w.tags = [] := by
        intro w hw
        rcases List.mem_cons.1 hw with rfl | hw
        · exact e
        · exact ho.1 w hw e
      have hl : varsList (v :: vs) = ⟨[], (v :: vs).map (fun w => .str w.name)⟩ := by
        rw [varsList, e]
      rw [hl]
      refine ⟨?_, ?_, ⟨by simp, ?_, by simp⟩⟩
      · have : (v :: vs).flatMap quantVarTrees = ((v :: vs).map Var.name).flatMap varTrees := by
          rw [List.flatMap_map]
          apply List.flatMap_congr
          intro w hw
          simp [quantVarTrees, hall w hw, varTrees]
        rw [this]
        have h2 := VarsText.rest ((v :: vs).map Var.name)
        rw [List.map_map] at h2
        exact h2
      · simp only [TypedList.assigned, List.flatMap_nil, List.nil_append, List.map_map]
        apply List.map_congr_left
        intro w hw
        simp [hall w hw]
      · intro x hx
        obtain ⟨w, hw, rfl⟩ := List.mem_map.1 hx
        exact h.names w hw
    · have hl : varsList (v :: vs) = ⟨([.str v.name], .list [t]) :: (varsList vs).groups, (varsList vs).rest⟩ := by
        rw [varsList, e]
      rw [hl]
      refine ⟨?_, ?_, ⟨?_, ih.2.2.rest, ?_⟩⟩
      · have := VarsText.group (n := v.name) (ns := []) (TypeText.one t) ih.1
        simpa [quantVarTrees, e, varTrees] using this
      · have := ih.2.1
        simp only [TypedList.assigned] at this ⊢
        rw [List.flatMap_cons, List.append_assoc, this]
        simp [typesOf, e]
      · intro g hg
        rcases List.mem_cons.1 hg with rfl | hg
        · intro x hx; simp at hx; subst hx; exact h.names v (by simp)
        · exact ih.2.2.items g hg
      · intro g hg
        rcases List.mem_cons.1 hg with rfl | hg
        · intro x hx; simp at hx; subst hx; exact ht
        · exact ih.2.2.types g hg

theorem varsList_vars {vs : List Var} (h : PrintVars vs) :
    (varsList vs).vars = vs.map (fun v => (v.name, v.tags)) := by
  rw [TypedList.vars, (varsList_text h).2.1, List.filterMap_map]
  induction vs with
  | nil => rfl
  | cons v vs ih =>
    have hd := h.distinct
    simp only [List.map_cons, List.nodup_cons] at hd
    have ho := List.pairwise_cons.1 h.order
    simp [ih ⟨fun w hw => h.names w (by simp [hw]), hd.2, fun w hw => h.types w (by simp [hw]), ho.2⟩]

theorem varsList_compatible {vs : List Var} (h : PrintVars vs) : Compatible (varsList vs).itemsOf := by
  intro p hp q hq e
  rw [TypedList.itemsOf, (varsList_text h).2.1, List.map_map] at hp hq
  obtain ⟨v, hv, rfl⟩ := List.mem_map.1 hp
  obtain ⟨w, hw, rfl⟩ := List.mem_map.1 hq
  have hn : v.name = w.name := by simpa [toItem, Item.pyEq] using e
  have : v = w := by
    by_contra hne
    exact (List.inj_on_of_nodup_map h.distinct hv hw).mt hne hn
  subst this
  exact fun _ => Iff.rfl

theorem dd_small {ts : List Str} (h : ts = [] ∨ ∃ t, ts = [t] ∧ ValidType t) : dd ts = ts := by
  rcases h with rfl | ⟨t, rfl, _⟩ <;> simp [dd, dedupBy, dedupAux, memBy]

theorem printVars_read {vs : List Var} (h : PrintVars vs) :
    ∃ toks l, typedVarToks false (vs.flatMap quantVarTrees) = some toks ∧
      typedListVariable toks = .ok l ∧ mkVars l = .ok vs := by
  obtain ⟨h1, _, h3⟩ := varsList_text h
  refine ⟨_, vs.map (fun v => (v.name, v.tags)), typedVarToks_iff.2 ⟨_, h1, rfl⟩, ?_, ?_⟩
  · rw [typedListVariable_eq h1 h3, if_pos (varsList_compatible h), varsList_vars h, List.map_map]
    congr 1
    apply List.map_congr_left
    intro v hv
    simp [dd_small (h.types v hv)]
  · rw [mkVars_ok]
    · rw [List.map_map]
      congr 1
      conv_rhs => rw [← List.map_id vs]
      apply List.map_congr_left
      intro v hv
      simp [dd_small (h.types v hv)]
    · intro p hp
      obtain ⟨v, hv, rfl⟩ := List.mem_map.1 hp
      refine ⟨h.names v hv, ?_⟩
      intro t ht
      rcases h.types v hv with e | ⟨x, e, hx⟩
      · simp [e] at ht
      · simp [e] at ht; subst ht; exact hx

/-! ### Conditions -/

theorem allows_iff {rs : List Req} : Allows E rs ↔ E.hasAny rs = true := by
  simp [Allows, GEnv.hasAny]

theorem validName_gd {n : Str} (h : ValidName n) : n ∉ gdKeywords := by
  intro hn
  apply ((valid_iff n).1 h).2
  simp only [gdKeywords, List.mem_cons, List.not_mem_nil, or_false] at hn
  rcases hn with rfl | rfl | rfl | rfl | rfl | rfl <;> decide

theorem pred_back {p : Pred} (h : ∀ t ∈ p.terms, Known E t) (hg : (Expr.pred p).Good) :
    ∃ ts q, E.terms (p.terms.flatMap Term.trees) = .ok ts ∧ mkPred p.name ts = .ok q ∧
      (Expr.pred q).norm = (Expr.pred p).norm := by
  obtain ⟨ts', h1, h2⟩ := known_terms h
  exact ⟨ts', ⟨p.name, ts'⟩, h1, mkPred_ok.2 ⟨hg.1, sameTerm_consistent h2 hg.2, rfl⟩,
    by simp [Expr.norm, sameTerm_norms h2]⟩

theorem eq_back {l r : Term} (hl : Known E l) (hr : Known E r) (hg : (Expr.eq l r).Good) :
    ∃ l' r', E.terms (l.trees ++ r.trees) = .ok [l', r'] ∧ mkEq l' r' = .ok (.eq l' r') ∧
      (Expr.eq l' r').norm = (Expr.eq l r).norm := by
  obtain ⟨ts', h1, h2⟩ := known_terms (E := E) (ts := [l, r]) (by
    intro t ht
    simp only [List.mem_cons, List.not_mem_nil, or_false] at ht
    rcases ht with rfl | rfl
    · exact hl
    · exact hr)
  have hl2 := h2.length_eq
  obtain ⟨l', r', rfl⟩ := length_two hl2
  refine ⟨l', r', by simpa using h1, mkEq_ok.2 ⟨sameTerm_consistent h2 hg, rfl⟩, ?_⟩
  have := sameTerm_norms h2
  simp only [List.map_cons, List.map_nil, List.cons.injEq, and_true] at this
  simp [Expr.norm, this.1, this.2]

theorem pred_writable {p : Pred} (h : ∀ t ∈ p.terms, Known E t) (hg : (Expr.pred p).Good) :
    Writable (.pred p) :=
  .pred (parseName_ok.1 hg.1).2.1 (fun t ht => (Known.valid (h t ht)).1)

theorem quant_norm {vs : List Var} : varsNorm (dedupBy Var.pyEq vs) = varsNorm vs := varsNorm_dedup vs

theorem comp_tok {o : FOp} (h : IsComparison o) : compOp o.tok = some o := by
  cases o <;> first | rfl | exact absurd h (by simp [IsComparison])

theorem starts_trees (t : Term) (l : List Tree) : startsWithTerm (t.trees ++ l) = true := by
  cases t <;> rfl

theorem pair_writable {o : FOp} {a b : Expr} (ha : Writable a) (hb : Writable b) : Writable (.bfun o [a, b]) := by
  refine .bfun ?_
  intro z hz
  simp only [List.mem_cons, List.not_mem_nil, or_false] at hz
  rcases hz with rfl | rfl
  · exact ha
  · exact hb

theorem printCond_rel {e : Expr} (hp : PrintCond E e) (hg : e.Good) :
    (∃ e', GRel E e.tree e' ∧ e'.norm = e.norm) ∧ Writable e := by
  induction hp with
  | @pred p h =>
    obtain ⟨ts, q, h1, h2, h3⟩ := pred_back h hg
    exact ⟨⟨_, .atom (validName_gd (parseName_ok.1 hg.1).2) h1 h2, h3⟩, pred_writable h hg⟩
  | @eq l r hl hr ha =>
    obtain ⟨l', r', h1, h2, h3⟩ := eq_back hl hr hg
    exact ⟨⟨_, .eq (starts_trees _ _) h1 (allows_iff.1 ha) h2, h3⟩, .eq (Known.valid hl).1 (Known.valid hr).1⟩
  | @and as _ ih =>
    have hg' := goods_iff.1 hg.2
    obtain ⟨es, h1, h2, h3⟩ := collect (fun a ha => (ih a ha (hg' a ha)).1)
    exact ⟨⟨_, .and h1 h2, construct_norm hg.1 h3⟩, .bin (fun a ha => (ih a ha (hg' a ha)).2)⟩
  | @or as _ ha ih =>
    have hg' := goods_iff.1 hg.2
    obtain ⟨es, h1, h2, h3⟩ := collect (fun a ha => (ih a ha (hg' a ha)).1)
    exact ⟨⟨_, .or h1 h2 (allows_iff.1 ha), construct_norm hg.1 h3⟩, .bin (fun a ha => (ih a ha (hg' a ha)).2)⟩
  | @imply a b _ _ ha ih1 ih2 =>
    obtain ⟨⟨x, h1, h2⟩, w1⟩ := ih1 hg.2.1
    obtain ⟨⟨y, h3, h4⟩, w2⟩ := ih2 hg.2.2.1
    refine ⟨⟨_, .imply h1 h3 (allows_iff.1 ha), construct_norm hg.1 (by simp [Expr.norms, h2, h4])⟩, .bin ?_⟩
    intro z hz
    simp only [List.mem_cons, List.not_mem_nil, or_false] at hz
    rcases hz with rfl | rfl
    · exact w1
    · exact w2
  | @not a _ ih =>
    obtain ⟨⟨x, h1, h2⟩, w⟩ := ih hg
    exact ⟨⟨_, .not h1, by simp [Expr.norm, h2]⟩, .not w⟩
  | @quant q vs c ht hv _ ha ih =>
    obtain ⟨⟨x, h1, h2⟩, w⟩ := ih hg.2
    obtain ⟨toks, l, h3, h4, h5⟩ := printVars_read hv
    refine ⟨⟨_, .quant h3 (by rw [ht]; exact h4) h1 ?_ h5, ?_⟩, .quant hv.shapes w⟩
    · have := allows_iff.1 ha
      cases q <;> exact this
    · simp [mkQuant, Expr.norm, varsNorm_dedup, h2]
  | @comp o a b ho ha hb =>
    obtain ⟨⟨x, h1, h2⟩, w1⟩ := printNum_rel ha hg.2.1
    obtain ⟨⟨y, h3, h4⟩, w2⟩ := printNum_rel hb hg.2.2.1
    refine ⟨⟨_, .comp (comp_tok ho) (fun _ => printNum_tree ha _) (fExp_of_rel h1) (fExp_of_rel h3),
      construct_norm hg.1 (by simp [Expr.norms, h2, h4])⟩, pair_writable w1 w2⟩

/-! ### Effects -/

theorem printAtom_back {e : Expr} (hp : PrintAtom E e) (hg : e.Good) :
    Writable e ∧ ∃ args, e.tree = .node args ∧ ∃ e', E.atomic args = .ok e' ∧ e'.norm = e.norm := by
  cases hp with
  | @pred p h =>
    obtain ⟨ts, q, h1, h2, h3⟩ := pred_back h hg
    exact ⟨pred_writable h hg, _, rfl, _, atomic_name_ok.2 ⟨ts, q, h1, h2, rfl⟩, h3⟩
  | @eq l r hl hr ha =>
    obtain ⟨l', r', h1, h2, h3⟩ := eq_back hl hr hg
    exact ⟨.eq (Known.valid hl).1 (Known.valid hr).1, _, rfl, _,
      atomic_eq_ok.2 ⟨l', r', h1, allows_iff.1 ha, h2⟩, h3⟩

theorem assign_tok {o : FOp} (h : IsAssignment o) : ∃ w, o.tok = .name w ∧ assignOp w = some o := by
  cases o <;> first | exact ⟨_, rfl, by decide⟩ | exact absurd h (by simp [IsAssignment])

theorem assignOp_reserved {n : Str} (h : ValidName n) : n ≠ s%"not" ∧ assignOp n = none ∧
    n ∉ effKeywords ∧ n ≠ s%"and" := by
  have hr : ∀ w : Str, w ∈ allSymbols → n ≠ w := by
    rintro w hw rfl; exact ((valid_iff n).1 h).2 hw
  refine ⟨hr s%"not" (by decide), ?_, ?_, hr s%"and" (by decide)⟩
  · simp only [assignOp]
    rw [if_neg (hr s%"assign" (by decide)), if_neg (hr s%"scale-up" (by decide)),
      if_neg (hr s%"scale-down" (by decide)), if_neg (hr s%"increase" (by decide)),
      if_neg (hr s%"decrease" (by decide))]
  · simp only [effKeywords, List.mem_cons, List.not_mem_nil, or_false, not_or]
    exact ⟨hr s%"forall" (by decide), hr s%"when" (by decide), hr s%"oneof" (by decide)⟩

theorem assignOp_other {w : Str} {o : FOp} (h : assignOp w = some o) : w ∉ effKeywords ∧ w ≠ s%"and" := by
  constructor
  · intro hw
    simp only [effKeywords, List.mem_cons, List.not_mem_nil, or_false] at hw
    rcases hw with rfl | rfl | rfl <;> simp [assignOp] at h
  · rintro rfl; simp [assignOp] at h

/-- The word a tree starts with does not start a compound effect. -/
def Simple (t : Tree) : Prop :=
  ∀ w args, t = .node (.atom (.name w) :: args) → w ∉ effKeywords ∧ w ≠ s%"and"

theorem printLit_rel {e : Expr} (hp : PrintLit E e) (hg : e.Good) :
    (∃ e', PRel E e.tree e' ∧ e'.norm = e.norm) ∧ Writable e ∧ Simple e.tree := by
  cases hp with
  | atom h =>
    cases h with
    | @pred p h =>
      obtain ⟨ts, q, h1, h2, h3⟩ := pred_back h hg
      obtain ⟨a1, a2, a3, a4⟩ := assignOp_reserved (parseName_ok.1 hg.1).2
      refine ⟨⟨_, .atom a1 a2 (atomic_name_ok.2 ⟨ts, q, h1, h2, rfl⟩), h3⟩, pred_writable h hg, ?_⟩
      intro w args e
      simp only [Expr.tree, Tree.node.injEq, List.cons.injEq, Tree.atom.injEq, Tok.name.injEq] at e
      rw [← e.1]; exact ⟨a3, a4⟩
    | @eq l r hl hr ha =>
      obtain ⟨l', r', h1, h2, h3⟩ := eq_back hl hr hg
      refine ⟨⟨_, .eq (atomic_eq_ok.2 ⟨l', r', h1, allows_iff.1 ha, h2⟩), h3⟩,
        .eq (Known.valid hl).1 (Known.valid hr).1, ?_⟩
      intro w args e
      simp [Expr.tree] at e
  | @not e h =>
    obtain ⟨w, args, h1, e', h2, h3⟩ := printAtom_back h hg
    refine ⟨⟨.not e', ?_, by simp [Expr.norm, h3]⟩, .not w, ?_⟩
    · rw [Expr.tree, h1]; exact .not h2
    · intro w args e
      simp only [Expr.tree, Tree.node.injEq, List.cons.injEq, Tree.atom.injEq, Tok.name.injEq] at e
      rw [← e.1]; decide
  | @assign o f x ho hf hx =>
    obtain ⟨w, h1, h2⟩ := assign_tok ho
    have hgf : (Expr.nfun f).Good := hg.2.1
    obtain ⟨⟨y, h3, h4⟩, w2⟩ := printNum_rel hx hg.2.2.1
    obtain ⟨_, w1⟩ := printNum_rel (PrintNum.fn hf) hgf
    obtain ⟨ts, h5, h6⟩ := known_terms hf
    refine ⟨⟨construct (.fop o) [.nfun ⟨f.name, ts⟩, y], ?_, construct_norm hg.1 ?_⟩, pair_writable w1 w2, ?_⟩
    · rw [Expr.tree, h1]
      refine .assign h2 ?_ (fExp_of_rel h3)
      rw [Expr.tree, GEnv.fHead, h5]
      exact mkNFun_ok.2 ⟨hgf, rfl⟩
    · simp [Expr.norms, Expr.norm, sameTerm_norms h6, h4]
    · intro w' args e
      rw [Expr.tree, h1] at e
      simp only [Tree.node.injEq, List.cons.injEq, Tree.atom.injEq, Tok.name.injEq] at e
      rw [← e.1]; exact assignOp_other h2

theorem printWhen_rel {e : Expr} (hp : PrintWhen E e) (hg : e.Good) :
    (∃ e', CRel E e.tree e' ∧ e'.norm = e.norm) ∧ Writable e := by
  cases hp with
  | lit h =>
    obtain ⟨⟨e', h1, h2⟩, w, hs⟩ := printLit_rel h hg
    exact ⟨⟨e', .one (fun args e => (hs _ _ e).2 rfl) h1, h2⟩, w⟩
  | @and as h =>
    have hg' := goods_iff.1 hg.2
    obtain ⟨es, h1, h2, h3⟩ := collect (fun a ha => (printLit_rel (h a ha) (hg' a ha)).1)
    exact ⟨⟨_, .and ⟨h1, h2⟩, construct_norm hg.1 h3⟩,
      .bin (fun a ha => (printLit_rel (h a ha) (hg' a ha)).2.1)⟩

theorem printEff_rel {top : Bool} {e : Expr} (hp : PrintEff E top e) (hg : e.Good) :
    (∃ e', ERel E top e.tree e' ∧ e'.norm = e.norm) ∧ Writable e := by
  induction hp with
  | lit h =>
    obtain ⟨⟨e', h1, h2⟩, w, hs⟩ := printLit_rel h hg
    exact ⟨⟨e', .lit (fun w args e => ⟨(hs w args e).1, fun _ => (hs w args e).2⟩) (pEffect_iff.2 h1), h2⟩, w⟩
  | @and as _ ih =>
    have hg' := goods_iff.1 hg.2
    obtain ⟨es, h1, h2, h3⟩ := collect (fun a ha => (ih a ha (hg' a ha)).1)
    exact ⟨⟨_, .and h1 h2, construct_norm hg.1 h3⟩, .bin (fun a ha => (ih a ha (hg' a ha)).2)⟩
  | when hc he =>
    obtain ⟨⟨c', h1, h2⟩, w1⟩ := printCond_rel hc hg.1
    obtain ⟨⟨e', h3, h4⟩, w2⟩ := printWhen_rel he hg.2
    exact ⟨⟨_, .when (gd_of_rel h1) (condEffect_iff.2 h3), by simp [Expr.norm, h2, h4]⟩, .when w1 w2⟩
  | @fall top vs e ht hv _ ih =>
    obtain ⟨⟨x, h1, h2⟩, w⟩ := ih hg.2
    obtain ⟨toks, l, h3, h4, h5⟩ := printVars_read hv
    exact ⟨⟨_, .fall h3 (by rw [ht]; exact h4) h1 h5, by simp [mkForall, Expr.norm, varsNorm_dedup, h2]⟩,
      .fall hv.shapes w⟩
  | @oneof top as hne _ ha ih =>
    have hg' := goods_iff.1 hg.2
    obtain ⟨es, h1, h2, h3⟩ := collect (fun a ha => (ih a ha (hg' a ha)).1)
    refine ⟨⟨_, .oneof ?_ h1 h2 (allows_iff.1 ha), construct_norm hg.1 h3⟩,
      .bin (fun a ha => (ih a ha (hg' a ha)).2)⟩
    rw [trees_length]
    exact List.length_pos_iff.2 hne

end Pddl
