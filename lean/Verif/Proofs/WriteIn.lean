/- Texts with names in place of variables are read, and what they say. -/
import Verif.Proofs.Replace
import Verif.Proofs.TextSem
import Verif.Proofs.EffectSem
import Verif.Proofs.Consistent

namespace Pddl
open Spec

variable {r : Str → Option Str} {E : GEnv}

/-- The environment in which the text with names in place of variables is read. -/
def GEnv.ground (E : GEnv) : GEnv := ⟨E.float, E.ext, fun n => .ok (.const n none), [], E.typedVars⟩

theorem ground_variable {n : Str} (h : dictGet E.params n = none) : E.ground.variable n = E.variable n := by
  unfold GEnv.variable
  rw [h]
  rfl

/-- The variables without a name written for them are not parameters. -/
def Covers (r : Str → Option Str) (E : GEnv) : Prop := ∀ n, r n = none → dictGet E.params n = none

theorem variable_tags {n : Str} {t : Term} (h : E.ground.variable n = .ok t) : t.tags = [] := by
  unfold GEnv.variable at h
  have : dictGet E.ground.params n = none := rfl
  rw [this] at h
  obtain ⟨v, hv, h⟩ := bind_ok_iff.1 h
  simp only [pure_ok, Except.ok.injEq] at h
  subst h
  rw [(mkVar_set_ok.1 hv).2.2]
  rfl

theorem terms_ground (hc : Covers r E) {l : List Tree} {ts : List Term} (h : E.terms l = .ok ts) :
    ∃ ts', E.ground.terms (writeIns r l) = .ok ts' ∧ ts'.length = ts.length ∧ ∀ t ∈ ts', t.tags = [] := by
  rw [terms_rel] at h
  simp only [terms_rel]
  induction h with
  | nil => exact ⟨[], by rw [writeIns]; exact .nil, rfl, by simp⟩
  | @name n t l ts h1 h2 ih =>
    obtain ⟨ts', k1, k2, k3⟩ := ih
    rw [writeIns_cons (by simp), writeIn]
    refine ⟨.const n none :: ts', .name rfl k1, by simp [k2], ?_⟩
    intro t ht
    rcases List.mem_cons.1 ht with rfl | ht
    · rfl
    · exact k3 t ht
  | @var n t l ts h1 h2 ih =>
    obtain ⟨ts', k1, k2, k3⟩ := ih
    rw [writeIns]
    cases hr : r n with
    | some a =>
      refine ⟨.const a none :: ts', .name rfl k1, by simp [k2], ?_⟩
      intro t ht
      rcases List.mem_cons.1 ht with rfl | ht
      · rfl
      · exact k3 t ht
    | none =>
      have h1' := h1
      rw [← ground_variable (hc n hr)] at h1'
      refine ⟨t :: ts', .var h1' k1, by simp [k2], ?_⟩
      intro t ht
      rcases List.mem_cons.1 ht with rfl | ht
      · exact variable_tags h1'
      · exact k3 t ht

theorem untagged_consistent {ts : List Term} (h : ∀ t ∈ ts, t.tags = []) : termsConsistent [] ts = true := by
  rw [termsConsistent_nil]
  refine List.Pairwise.imp_of_mem (R := fun _ _ => True) ?_ (List.pairwise_of_forall (fun _ _ => trivial))
  intro a b ha hb _
  simp [Agree, h a ha, h b hb]

theorem list_ground {Q : Tree → Expr → Prop} {args : List Tree} {es : List Expr} (hl : args.length = es.length)
    (h : ∀ p ∈ args.zip es, ∃ e', Q (writeIn r p.1) e') :
    ∃ es', (args.map (writeIn r)).length = es'.length ∧ ∀ p ∈ (args.map (writeIn r)).zip es', Q p.1 p.2 := by
  induction args generalizing es with
  | nil => exact ⟨[], rfl, by simp⟩
  | cons a args ih =>
    cases es with
    | nil => simp at hl
    | cons e es =>
      obtain ⟨e', he⟩ := h (a, e) (by simp)
      obtain ⟨es', h1, h2⟩ := ih (es := es) (by simpa using hl) (fun p hp => h p (by simp [hp]))
      refine ⟨e' :: es', by simpa using h1, ?_⟩
      intro p hp
      simp only [List.map_cons, List.zip_cons_cons, List.mem_cons] at hp
      rcases hp with rfl | hp
      · exact he
      · exact h2 p hp

theorem FRel.ground (hc : Covers r E) {t : Tree} {e : Expr} (h : FRel E t e) : ∃ e', FRel E.ground (writeIn r t) e' := by
  induction h with
  | @num s n hn => exact ⟨_, by rw [writeIn]; exact .num hn⟩
  | @plus args es h2 hl hall ih =>
    have hq := zip_notMark (R := FRel E) FRel.notMark hl hall
    obtain ⟨es', h1, h3⟩ := list_ground hl ih
    rw [writeIn, writeIns_cons (by simp), writeIn, writeIns_map hq]
    exact ⟨_, .plus (by simpa using h2) h1 h3⟩
  | @times args es h2 hl hall ih =>
    have hq := zip_notMark (R := FRel E) FRel.notMark hl hall
    obtain ⟨es', h1, h3⟩ := list_ground hl ih
    rw [writeIn, writeIns_cons (by simp), writeIn, writeIns_map hq]
    exact ⟨_, .times (by simpa using h2) h1 h3⟩
  | @divide a b x y h1 h2 ih1 ih2 =>
    obtain ⟨e1, k1⟩ := ih1
    obtain ⟨e2, k2⟩ := ih2
    rw [writeIn, writeIns_map (by simpa using ⟨h1.notMark, h2.notMark⟩)]
    simp only [List.map_cons, List.map_nil, writeIn]
    exact ⟨_, .divide k1 k2⟩
  | @minus a x h1 ih =>
    obtain ⟨e1, k1⟩ := ih
    rw [writeIn, writeIns_map (by simpa using h1.notMark)]
    simp only [List.map_cons, List.map_nil, writeIn]
    exact ⟨_, .minus k1⟩
  | fn0 hf => exact ⟨_, by rw [writeIn]; exact .fn0 hf⟩
  | @fn n args ts f ht hf =>
    obtain ⟨ts', k1, _, _⟩ := terms_ground hc ht
    rw [writeIn, writeIns_cons (by simp), writeIn]
    exact ⟨_, .fn k1 (mkNFun_ok.2 ⟨(mkNFun_ok.1 hf).1, rfl⟩)⟩

/-- The quantifiers bind no variable for which a name is written. -/
def Unbound (r : Str → Option Str) (t : Tree) : Prop :=
  ∀ w vs c l, w = s%"forall" ∨ w = s%"exists" → Inside (.node [.atom (.name w), .node vs, c]) t → VarsText vs l →
    ∀ p ∈ l.vars, r p.1 = none

theorem Unbound.sub {s t : Tree} (h : Unbound r t) (hi : Inside s t) : Unbound r s :=
  fun w vs c l hw h' => h w vs c l hw (h'.trans hi)

theorem names_kept (ns : List Str) : writeIns r (ns.map (fun x => Tree.atom (.name x))) = ns.map (fun x => Tree.atom (.name x)) := by
  induction ns with
  | nil => simp [writeIns]
  | cons n ns ih => rw [List.map_cons, writeIns_cons (by simp), ih, writeIn]

theorem type_kept {t : Tree} {types : List Str} (h : TypeText t types) : writeIn r t = t := by
  cases h with
  | one n => rw [writeIn]
  | either n ns => rw [writeIn, writeIns_cons (by simp), writeIn, names_kept]
  | fused c cs ns => rw [writeIn, writeIns_cons (by simp), writeIn, names_kept]

theorem varTrees_kept {ns : List Str} (rest : List Tree) (hn : ∀ n ∈ ns, r n = none) :
    writeIns r (ns.flatMap varTrees ++ rest) = ns.flatMap varTrees ++ writeIns r rest := by
  induction ns with
  | nil => rfl
  | cons n ns ih =>
    have ih := ih (fun n hn' => hn n (List.mem_cons_of_mem _ hn'))
    simp only [List.flatMap_cons, varTrees, List.cons_append, List.nil_append]
    rw [writeIns, hn n (by simp)]
    simp only
    rw [ih]

theorem vars_kept {vs : List Tree} {l : TypedList} (h : VarsText vs l) (hn : ∀ p ∈ l.vars, r p.1 = none) :
    writeIns r vs = vs := by
  induction h with
  | rest ns =>
    have := varTrees_kept (r := r) (ns := ns) [] (fun n h => hn (n, []) (by
      simp only [TypedList.vars, TypedList.assigned, List.flatMap_nil, List.nil_append, List.mem_filterMap, List.mem_map]
      exact ⟨_, ⟨_, ⟨n, h, rfl⟩, rfl⟩, rfl⟩))
    simpa [writeIns] using this
  | @group n ns t types ts l ht hts ih =>
    have hv : (⟨((n :: ns).map .str, .list types) :: l.groups, l.rest⟩ : TypedList).vars =
        (n :: ns).map (fun x => (x, types)) ++ l.vars := by
      simp only [TypedList.vars, TypedList.assigned, List.flatMap_cons, List.append_assoc, List.filterMap_append]
      congr 1
      simp [List.map_map, List.filterMap_map, Function.comp_def, typesOf]
    rw [hv] at hn
    have ht' : t ≠ .atom .qmark := by rintro rfl; cases ht
    rw [varTrees_kept _ (fun x hx => hn (x, types) (List.mem_append_left _ (List.mem_map.2 ⟨x, hx, rfl⟩))),
      writeIns_cons (by simp), writeIn, writeIns_cons ht', type_kept ht, ih (fun p hp => hn p (List.mem_append_right _ hp))]

theorem GRel.ground (hc : Covers r E) {t : Tree} {e : Expr} (h : GRel E t e) (hu : Unbound r t) :
    ∃ e', GRel E.ground (writeIn r t) e' := by
  induction h with
  | @and args es hl hall ih =>
    have hq := zip_notMark (R := GRel E) GRel.notMark hl hall
    obtain ⟨es', h1, h3⟩ := list_ground hl (fun p hp => ih p hp
      (hu.sub (.node (List.mem_cons_of_mem _ (List.of_mem_zip hp).1) .refl)))
    rw [writeIn, writeIns_cons (by simp), writeIn, writeIns_map hq]
    exact ⟨_, .and h1 h3⟩
  | @or args es hl hall hr ih =>
    have hq := zip_notMark (R := GRel E) GRel.notMark hl hall
    obtain ⟨es', h1, h3⟩ := list_ground hl (fun p hp => ih p hp
      (hu.sub (.node (List.mem_cons_of_mem _ (List.of_mem_zip hp).1) .refl)))
    rw [writeIn, writeIns_cons (by simp), writeIn, writeIns_map hq]
    exact ⟨_, .or h1 h3 hr⟩
  | @not a e ha ih =>
    obtain ⟨e', k⟩ := ih (hu.sub (.node (by simp) .refl))
    rw [writeIn, writeIns_map (by simpa using ha.notMark)]
    simp only [List.map_cons, List.map_nil, writeIn]
    exact ⟨_, .not k⟩
  | @imply a b e e' ha hb hr ih1 ih2 =>
    obtain ⟨e1, k1⟩ := ih1 (hu.sub (.node (by simp) .refl))
    obtain ⟨e2, k2⟩ := ih2 (hu.sub (.node (by simp) .refl))
    rw [writeIn, writeIns_map (by simpa using ⟨ha.notMark, hb.notMark⟩)]
    simp only [List.map_cons, List.map_nil, writeIn]
    exact ⟨_, .imply k1 k2 hr⟩
  | @quant q vs c e toks l vars h1 h2 hg hr h3 ih =>
    obtain ⟨e1, k1⟩ := ih (hu.sub (.node (by simp) .refl))
    obtain ⟨tl, htl, rfl⟩ := typedVarToks_iff.1 h1
    rw [writeIn, writeIns_map (by simpa using hg.notMark)]
    simp only [List.map_cons, List.map_nil, writeIn]
    rw [vars_kept htl (hu _ vs c tl (by cases q <;> simp [QOp.symbol]) .refl htl)]
    exact ⟨_, .quant h1 h2 k1 hr h3⟩
  | @atom n args ts p hn h1 h2 =>
    obtain ⟨ts', k1, _, k2⟩ := terms_ground hc h1
    rw [writeIn, writeIns_cons (by simp), writeIn]
    exact ⟨_, .atom hn k1 (mkPred_ok.2 ⟨(mkPred_ok.1 h2).1, untagged_consistent k2, rfl⟩)⟩
  | @eq args l r' e hs h1 hr h2 =>
    obtain ⟨ts', k1, k2, k3⟩ := terms_ground hc h1
    match ts', k2, k3, k1 with
    | [a, b], _, k3, k1 =>
      rw [writeIn, writeIns_cons (by simp), writeIn]
      exact ⟨_, .eq (by rw [startsWithTerm_writeIns]; exact hs) k1 hr (mkEq_ok.2 ⟨untagged_consistent k3, rfl⟩)⟩
  | @comp t op a b e e' ht hs h1 h2 =>
    obtain ⟨e1, k1⟩ := (fExp_iff.1 h1).ground hc
    obtain ⟨e2, k2⟩ := (fExp_iff.1 h2).ground hc
    have hq : t ≠ .qmark := by rintro rfl; simp [compOp] at ht
    have hab : writeIns r [a, b] = [writeIn r a, writeIn r b] := by
      rw [writeIns_map (by simpa using ⟨(fExp_iff.1 h1).notMark, (fExp_iff.1 h2).notMark⟩)]; rfl
    rw [writeIn, writeIns_cons (by simpa using hq), writeIn, hab]
    exact ⟨_, .comp ht (fun e => by rw [← hab, startsWithTerm_writeIns]; exact hs e) (fExp_iff.2 k1) (fExp_iff.2 k2)⟩

end Pddl
