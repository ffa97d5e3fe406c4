/-
A domain text is accepted exactly if it obeys the rules.
-/
import Verif.Proofs.RulesFuns

namespace Pddl.Rules
open Spec Spec.Rules Spec.Grammar

/-! ### Actions and derived predicates -/

theorem derivedDef_vars {F : FloatOf} {σ : PState} {b : List Tree} {d : Derived} (h : derivedDef F σ b = .ok d) :
    ∀ t ∈ d.pred.terms, ∃ v, t = .var v := by
  obtain ⟨t1, c, head, cond, rfl, hh, _, hd⟩ := derivedDef_ok h
  obtain ⟨_, p, env, us, _, _, _, hm, _, he⟩ := derivedPredicate_ok hd
  rw [he]
  exact retag_vars hm (skeleton_vars hh)

theorem WordsOk.tail {t : Tree} {ts : List Tree} (h : WordsOk (.node (t :: ts))) : WordsOk (.node ts) := by
  intro w hi
  cases hi with
  | node hm hi => exact h w (.node (List.mem_cons_of_mem _ hm) hi)

theorem WordsOk.body {k : Str} {b : List Tree} (h : WordsOk (section_ k b)) : WordsOk (.node b) := WordsOk.tail h

theorem structures_in {F : FloatOf} {D : Decls} {ts : List Tree} {ps : List (Str × List Str)} {σ σ' : PState} {as : List Action}
    {ds : List Derived} (h : StateIn D ps σ) (hw : WordsOk (.node ts)) (hs : structures F σ ts = .ok (as, ds, σ')) :
    (∀ a ∈ as, AFrom D a) ∧ (∀ d ∈ ds, ∀ t ∈ d.pred.terms, ∃ v, t = .var v) ∧
      ((∀ a ∈ as, ATyped D a) → (∀ d ∈ ds, ∀ t ∈ d.pred.terms, ∀ x ∈ t.tags, Declared D.types x) → StructuresIn F D ps ts) := by
  induction ts generalizing ps σ as ds with
  | nil =>
    simp only [structures, pure_ok, Except.ok.injEq, Prod.mk.injEq] at hs
    obtain ⟨rfl, rfl, _⟩ := hs
    exact ⟨by simp, by simp, fun _ _ => .nil⟩
  | cons t ts ih =>
    have hwt : WordsOk t := hw.sub (by simp)
    unfold structures at hs
    split at hs
    · simp at *
    · rename_i k body ts' heq
      injection heq with h1 h2
      subst h2
      subst h1
      split at hs
      · rename_i hk
        subst hk
        obtain ⟨⟨a, σ1⟩, ha, hs⟩ := bind_ok_iff.1 hs
        obtain ⟨⟨as', ds', σ2⟩, hs', hs⟩ := bind_ok_iff.1 hs
        simp only [pure_ok, Except.ok.injEq, Prod.mk.injEq] at hs
        obtain ⟨rfl, rfl, rfl⟩ := hs
        obtain ⟨hf, l, n, vs, pre, eff, e, hst, hin⟩ := h.action_in hwt ha
        obtain ⟨i1, i2, i3⟩ := ih hst hw.tail hs'
        refine ⟨?_, i2, ?_⟩
        · intro x hx
          rcases List.mem_cons.1 hx with rfl | hx
          · exact hf
          · exact i1 x hx
        · intro k1 k2
          have e' : Tree.node (.atom (.kw s%"action") :: body) = actionText n vs pre eff := e
          rw [e']
          exact .action (hin (k1 a (by simp))) (i3 (fun x hx => k1 x (by simp [hx])) k2)
      · split at hs
        · rename_i hk
          subst hk
          obtain ⟨d, hd, hs⟩ := bind_ok_iff.1 hs
          obtain ⟨⟨as', ds', σ2⟩, hs', hs⟩ := bind_ok_iff.1 hs
          simp only [pure_ok, Except.ok.injEq, Prod.mk.injEq] at hs
          obtain ⟨rfl, rfl, rfl⟩ := hs
          obtain ⟨i1, i2, i3⟩ := ih h hw.tail hs'
          refine ⟨i1, ?_, ?_⟩
          · intro x hx
            rcases List.mem_cons.1 hx with rfl | hx
            · exact derivedDef_vars hd
            · exact i2 x hx
          · intro k1 k2
            obtain ⟨hh, c, rfl, hin⟩ := h.derived_in hwt hd (k2 d (by simp))
            exact .derived hin (i3 k1 fun x hx => k2 x (by simp [hx]))
        · cases hs
    · cases hs

theorem in_structures {F : FloatOf} {D : Decls} {ts : List Tree} {ps : List (Str × List Str)} {σ : PState}
    (h : StateIn D ps σ) (hw : WordsOk (.node ts)) (hs : StructuresIn F D ps ts) :
    ∃ as ds σ', structures F σ ts = .ok (as, ds, σ') ∧ (∀ a ∈ as, ATyped D a) ∧
      ∀ d ∈ ds, ∀ t ∈ d.pred.terms, ∀ x ∈ t.tags, Declared D.types x := by
  induction hs generalizing σ with
  | nil => exact ⟨[], [], σ, rfl, by simp, by simp⟩
  | @action ps l n vs pre eff ts ha _ ih =>
    obtain ⟨b, a, σ1, e, h1, h2, h3⟩ := h.in_action (hw.sub (by simp)) ha
    obtain ⟨as, ds, σ', i1, i2, i3⟩ := ih h3 hw.tail
    refine ⟨a :: as, ds, σ', ?_, ?_, i3⟩
    · rw [e, structures_consAction, h1, ok_bind]
      show (do let (as, ds, σ'') ← structures F σ1 ts; pure (a :: as, ds, σ'')) = _
      rw [i1]
      rfl
    · intro x hx
      rcases List.mem_cons.1 hx with rfl | hx
      · exact h2
      · exact i2 x hx
  | @derived ps hd c ts hh _ ih =>
    obtain ⟨d, h1, h2⟩ := h.in_derived (hw.sub (by simp)) hh
    obtain ⟨as, ds, σ', i1, i2, i3⟩ := ih h hw.tail
    refine ⟨as, d :: ds, σ', ?_, i2, ?_⟩
    · rw [structures_consDerived, h1, ok_bind, i1]
      rfl
    · intro x hx
      rcases List.mem_cons.1 hx with rfl | hx
      · exact h2
      · exact i3 x hx

theorem structuresIn_only {F : FloatOf} {D : Decls} {ts : List Tree} {ps : List (Str × List Str)} (h : StructuresIn F D ps ts) :
    ∀ t ∈ ts, (∃ b, t = section_ s%"derived" b) ∨ ∃ b, t = section_ s%"action" b := by
  induction h with
  | nil => simp
  | action _ _ ih =>
    intro t ht
    rcases List.mem_cons.1 ht with rfl | ht
    · exact .inr ⟨_, rfl⟩
    · exact ih t ht
  | derived _ _ ih =>
    intro t ht
    rcases List.mem_cons.1 ht with rfl | ht
    · exact .inl ⟨_, rfl⟩
    · exact ih t ht

theorem derived_heads {D : Decls} {ds : List Derived} (h : ∀ d ∈ ds, ∀ t ∈ d.pred.terms, ∃ v, t = .var v) :
    (∀ x ∈ firstOcc Derived.pyEq ds, ∀ t ∈ x.pred.terms, ∀ y ∈ t.tags, Declared D.types y) ↔
      ∀ x ∈ ds, ∀ t ∈ x.pred.terms, ∀ y ∈ t.tags, Declared D.types y := by
  rw [forall_firstOcc eqv_derived]
  intro a ha b _ e hk
  have := Derived.pyEq_iff.1 e
  simp only [Derived.norm, Pred.norm, Prod.mk.injEq] at this
  exact norm_vars this.1.2 (h a ha) hk

/-! ### The sections -/

theorem inForce_nil (r : Req) : ¬ InForce [] r := by unfold InForce; simp

theorem reqs_in {r : Option (List Tree)} {rs : List Req} {σ1 : PState}
    (h : (r = none ∧ rs = [] ∧ σ1 = PState.fresh) ∨
      ∃ b, r = some b ∧ parseRequirements b = .ok rs ∧ σ1 = { PState.fresh with ext := extendReqs rs }) :
    OptIn (fun b rs => Requirements b ∧ ReqsWritten b rs) r rs ∧
      ∃ x, σ1 = { PState.fresh with ext := x } ∧ ∀ r, r ∈ x ↔ InForce rs r := by
  rcases h with ⟨rfl, rfl, rfl⟩ | ⟨b, rfl, h, rfl⟩
  · exact ⟨rfl, [], rfl, fun r => ⟨by simp, fun h => absurd h (inForce_nil r)⟩⟩
  · exact ⟨⟨requirements_grammar h, parseRequirements_written h⟩, _, rfl, fun r => mem_extendReqs⟩

theorem inForce_congr {rs rs' : List Req} (h : ∀ r, r ∈ rs ↔ r ∈ rs') (r : Req) : InForce rs r ↔ InForce rs' r := by
  unfold InForce; simp only [h]

theorem in_reqs {r : Option (List Tree)} {R : List Req}
    (h : OptIn (fun b rs => Requirements b ∧ ReqsWritten b rs) r R) :
    ∃ rs σ1, ((r = none ∧ rs = [] ∧ σ1 = PState.fresh) ∨
      ∃ b, r = some b ∧ parseRequirements b = .ok rs ∧ σ1 = { PState.fresh with ext := extendReqs rs }) ∧
      (∀ r, r ∈ rs ↔ r ∈ R) ∧ ∃ x, σ1 = { PState.fresh with ext := x } ∧ ∀ r, r ∈ x ↔ InForce R r := by
  cases r with
  | none =>
    have : R = [] := h
    subst this
    exact ⟨[], _, .inl ⟨rfl, rfl, rfl⟩, by simp, [], rfl, fun r => ⟨by simp, fun h => absurd h (inForce_nil r)⟩⟩
  | some b =>
    obtain ⟨h1, h2⟩ := h
    obtain ⟨rs, hrs⟩ := parseRequirements_of h1
    have hm : ∀ r, r ∈ rs ↔ r ∈ R := fun r => (parseRequirements_written hrs r).trans (h2 r).symm
    exact ⟨rs, _, .inr ⟨b, rfl, hrs, rfl⟩, hm, _, rfl, fun r => mem_extendReqs.trans (inForce_congr hm r)⟩

/-- What the parser remembers of the types. -/
def TypesKept (o : Option TypeDict) (T : TypeDict) : Prop := (o = none ∧ T = []) ∨ o = some T

theorem types_in {r : Option (List Tree)} {R : List Req} {T : TypeDict} {σ1 σ2 : PState} (hw : ∀ b, r = some b → WordsOk (.node b))
    (hσ : σ1.types = none) (hx : ∀ r, r ∈ σ1.ext ↔ InForce R r)
    (h : (r = none ∧ T = [] ∧ σ2 = σ1) ∨ ∃ b, r = some b ∧ sectionTypes σ1 b = .ok (T, σ2)) :
    IsDict T ∧ (∃ o, σ2 = { σ1 with types := o } ∧ TypesKept o T) ∧
      (TypeNamesOk T → HierarchyOk T R → OptIn (TypesIn R) r T) := by
  rcases h with ⟨rfl, rfl, rfl⟩ | ⟨b, rfl, h⟩
  · refine ⟨by simp [IsDict], ⟨none, ?_, .inl ⟨rfl, rfl⟩⟩, fun _ _ => rfl⟩
    rw [← hσ]
  · obtain ⟨l, e, hl, ht, rfl, rfl⟩ := (sectionTypes_iff (hw b rfl) hσ).1 h
    exact ⟨objectless_dict hl, ⟨_, rfl, .inr rfl⟩, fun h1 h2 => ⟨l, e, hl, fun hg => (hx _).1 (ht hg), rfl, h1, h2⟩⟩

theorem hierarchyOk_nil (R : List Req) : HierarchyOk [] R := by
  have hp : ∀ a b, ¬ Parent [] a b := fun a b h => by simp [Parent] at h
  refine ⟨fun ⟨a, b, h⟩ => absurd h (hp a b), fun b => hp _ b, fun a h => ?_⟩
  obtain ⟨b, h, _⟩ := (Relation.TransGen.head'_iff.1 h)
  exact hp _ _ h

theorem in_types {r : Option (List Tree)} {R : List Req} {T : TypeDict} {σ1 : PState} (hw : ∀ b, r = some b → WordsOk (.node b))
    (hσ : σ1.types = none) (hx : ∀ r, r ∈ σ1.ext ↔ InForce R r) (h : OptIn (TypesIn R) r T) :
    IsDict T ∧ TypeNamesOk T ∧ HierarchyOk T R ∧ ∃ o, TypesKept o T ∧
      ((r = none ∧ T = [] ∧ { σ1 with types := o } = σ1) ∨ ∃ b, r = some b ∧ sectionTypes σ1 b = .ok (T, { σ1 with types := o })) := by
  cases r with
  | none =>
    have : T = [] := h
    subst this
    refine ⟨by simp [IsDict], by simp [TypeNamesOk], hierarchyOk_nil R, none, .inl ⟨rfl, rfl⟩, .inl ⟨rfl, rfl, ?_⟩⟩
    rw [← hσ]
  | some b =>
    obtain ⟨l, e, hl, ht, rfl, h1, h2⟩ := h
    exact ⟨objectless_dict hl, h1, h2, _, .inr rfl, .inr ⟨b, rfl, (sectionTypes_iff (hw b rfl) hσ).2
      ⟨l, e, hl, fun hg => (hx _).2 (ht hg), rfl, rfl⟩⟩⟩

theorem consts_in {r : Option (List Tree)} {cs : List Term} {σ2 σ3 : PState} (hw : ∀ b, r = some b → WordsOk (.node b))
    (hσ : σ2.consts = [])
    (h : (r = none ∧ cs = [] ∧ σ3 = σ2) ∨ ∃ b, r = some b ∧ sectionConstants σ2 b = .ok (cs, σ3)) :
    ∃ C : List (Str × Option Str), (C.map Prod.fst).Nodup ∧ cs = (constDict C).map Prod.snd ∧ σ3 = { σ2 with consts := constDict C } ∧
      ∀ ok : Str → Prop, (∀ p ∈ C, ∀ t, p.2 = some t → ok t) → OptIn (ConstantsIn ok) r C := by
  rcases h with ⟨rfl, rfl, rfl⟩ | ⟨b, rfl, h⟩
  · refine ⟨[], by simp, rfl, ?_, fun _ _ => rfl⟩
    show σ3 = { σ3 with consts := [] }
    rw [← hσ]
  · obtain ⟨l, e, hl, rfl, rfl⟩ := (sectionConstants_iff (hw b rfl)).1 h
    exact ⟨l.pairs, hl.nodup, rfl, rfl, fun ok h => ⟨l, e, hl, rfl, h⟩⟩

theorem in_consts {r : Option (List Tree)} {C : List (Str × Option Str)} {σ2 : PState} {ok : Str → Prop}
    (hw : ∀ b, r = some b → WordsOk (.node b)) (hσ : σ2.consts = []) (h : OptIn (ConstantsIn ok) r C) :
    (C.map Prod.fst).Nodup ∧ (∀ p ∈ C, ∀ t, p.2 = some t → ok t) ∧
      ((r = none ∧ (constDict C).map Prod.snd = [] ∧ { σ2 with consts := constDict C } = σ2) ∨
        ∃ b, r = some b ∧ sectionConstants σ2 b = .ok ((constDict C).map Prod.snd, { σ2 with consts := constDict C })) := by
  cases r with
  | none =>
    have : C = [] := h
    subst this
    refine ⟨by simp, by simp, .inl ⟨rfl, rfl, ?_⟩⟩
    show { σ2 with consts := [] } = σ2
    rw [← hσ]
  | some b =>
    obtain ⟨l, e, hl, rfl, h1⟩ := h
    exact ⟨hl.nodup, h1, .inr ⟨b, rfl, (sectionConstants_iff (hw b rfl)).2 ⟨l, e, hl, rfl, rfl⟩⟩⟩

/-- The predicates that the parser keeps. -/
def predDict (ps : List Pred) : List (Str × Pred) := dictOf (ps.map (fun p => (p.name, p)))

theorem preds_in {r : Option (List Tree)} {ps : List Pred} {σ3 σ4 : PState} (hw : ∀ b, r = some b → WordsOk (.node b))
    (hσ : σ3.preds = [])
    (h : (r = none ∧ ps = [] ∧ σ4 = σ3) ∨ ∃ b, r = some b ∧ sectionPredicates σ3 b = .ok (ps, σ4)) :
    ∃ Q, List.Forall₂ DeclIn ps Q ∧ σ4 = { σ3 with preds := predDict ps } ∧
      ∀ ok : Str → Prop, (∀ q ∈ Q, ∀ p ∈ q.2, ∀ t ∈ p.2, ok t) → OptIn (PredicatesIn ok) r Q := by
  rcases h with ⟨rfl, rfl, rfl⟩ | ⟨b, rfl, h⟩
  · refine ⟨[], .nil, ?_, fun _ _ => rfl⟩
    show σ4 = { σ4 with preds := [] }
    rw [← hσ]
  · obtain ⟨Q, h1, h2, h3⟩ := sectionPredicates_in (hw b rfl) h
    exact ⟨Q, h1, h2, h3⟩

theorem in_preds {r : Option (List Tree)} {Q : List (Str × List (Str × List Str))} {σ3 : PState} {ok : Str → Prop}
    (hw : ∀ b, r = some b → WordsOk (.node b)) (hσ : σ3.preds = []) (h : OptIn (PredicatesIn ok) r Q) :
    (∀ q ∈ Q, ∀ p ∈ q.2, ∀ t ∈ p.2, ok t) ∧ ∃ ps, List.Forall₂ DeclIn ps Q ∧
      ((r = none ∧ ps = [] ∧ { σ3 with preds := predDict ps } = σ3) ∨
        ∃ b, r = some b ∧ sectionPredicates σ3 b = .ok (ps, { σ3 with preds := predDict ps })) := by
  cases r with
  | none =>
    have : Q = [] := h
    subst this
    refine ⟨by simp, [], .nil, .inl ⟨rfl, rfl, ?_⟩⟩
    show { σ3 with preds := [] } = σ3
    rw [← hσ]
  | some b =>
    obtain ⟨h1, ps, h2, h3⟩ := in_sectionPredicates (σ := σ3) (hw b rfl) h
    exact ⟨h1, ps, h2, .inr ⟨b, rfl, h3⟩⟩

theorem hierarchyOk_congr {d : TypeDict} {rs rs' : List Req} (h : ∀ r, r ∈ rs ↔ r ∈ rs') : HierarchyOk d rs ↔ HierarchyOk d rs' :=
  ⟨fun k => ⟨fun e => (h _).1 (k.typing e), k.object, k.acyclic⟩, fun k => ⟨fun e => (h _).2 (k.typing e), k.object, k.acyclic⟩⟩

/-- The constructor accepts exactly if the rules for the whole are obeyed. -/
theorem mkDomain_in {D : Decls} {n : Str} {rs : List Req} {ps : List Pred} {funs : FunDict} {ds : List Derived} {as : List Action}
    (hd : IsDict D.types) (hr : ∀ r, r ∈ rs ↔ r ∈ D.reqs) (hc : (D.consts.map Prod.fst).Nodup) (hp : List.Forall₂ DeclIn ps D.preds)
    (hds : ∀ d ∈ ds, ∀ t ∈ d.pred.terms, ∃ v, t = .var v) (has : ∀ a ∈ as, AFrom D a) :
    (∃ d, mkDomain { name := n, reqs := rs, types := D.types, constants := (constDict D.consts).map Prod.snd,
                     predicates := ps, functions := funs, derived := ds, actions := as } = .ok d) ↔
      ValidName n ∧ TypeNamesOk D.types ∧ HierarchyOk D.types D.reqs ∧ FunsOk D.reqs funs ∧
      (∀ p ∈ D.consts, ∀ t, p.2 = some t → D.typeOk t) ∧ (∀ p ∈ D.preds, ∀ q ∈ p.2, ∀ t ∈ q.2, D.typeOk t) ∧
      (∀ a ∈ as, ATyped D a) ∧ ∀ d ∈ ds, ∀ t ∈ d.pred.terms, ∀ x ∈ t.tags, Declared D.types x := by
  have hT : ∀ t, WellTypedTerm (Declared D.types) rs t ↔ WellTypedTerm (Declared D.types) D.reqs t :=
    wellTypedTerm_congr (fun _ => Iff.rfl) hr
  constructor
  · rintro ⟨d, h⟩
    obtain ⟨h1, h2, h3, h4, h5, h6, h7, h8, _⟩ := (mkDomain_ok hd).1 h
    have hcs := (consts_typed hc).1 fun t ht => (hT t).1 (h5 t ht)
    refine ⟨h1, h2, (hierarchyOk_congr hr).1 h3, ?_, hcs, (preds_typed hp).1 fun p hp t ht => (hT t).1 (h6 p hp t ht), ?_,
      (derived_heads hds).1 h8⟩
    · exact ⟨fun e => (hr _).1 (h4.1 e), fun e => (h4.2 e).imp (hr _).1 (hr _).1⟩
    · exact (actions_iff hcs has).1 fun x hx => ⟨(h7 x hx).1, (h7 x hx).2.1, fun t ht => (hT t).1 ((h7 x hx).2.2 t ht)⟩
  · rintro ⟨h1, h2, h3, h4, h5, h6, h7, h8⟩
    have h7' := (actions_iff h5 has).2 h7
    exact ⟨_, (mkDomain_ok hd).2 ⟨h1, h2, (hierarchyOk_congr hr).2 h3, ⟨fun e => (hr _).2 (h4.1 e),
      fun e => (h4.2 e).imp (hr _).2 (hr _).2⟩, fun t ht => (hT t).2 ((consts_typed hc).2 h5 t ht),
      fun p hm t ht => (hT t).2 ((preds_typed hp).2 h6 p hm t ht),
      fun x hx => ⟨(h7' x hx).1, (h7' x hx).2.1, fun t ht => (hT t).2 ((h7' x hx).2.2 t ht)⟩, (derived_heads hds).2 h8, rfl⟩⟩

theorem stateIn_sections {D : Decls} {x : List Req} {o : Option TypeDict} {ps : List Pred} (hx : ∀ r, r ∈ x ↔ InForce D.reqs r)
    (ho : TypesKept o D.types) (hd : IsDict D.types) (hc : (D.consts.map Prod.fst).Nodup) (hp : List.Forall₂ DeclIn ps D.preds)
    (hcs : ∀ p ∈ D.consts, ∀ t, p.2 = some t → D.typeOk t) (hps : ∀ p ∈ D.preds, ∀ q ∈ p.2, ∀ t ∈ q.2, D.typeOk t) :
    StateIn D [] ⟨x, constDict D.consts, predDict ps, [], o⟩ where
  ext := hx
  const := fun n t => constDict_get hc n t
  pred := fun n => preds_lookup hp n
  types := ho
  dict := hd
  param := by intro n t h; cases h
  noParam := by simp
  paramFn := by simp
  constOk := hcs
  predOk := hps

/-- The sections of a text, as the parser takes them. -/
theorem takeSections {ts : List Tree} {s : DomainSections} (hs : s.Of (.node ts)) (ho : OnlyStructures s) :
    ∃ t0 t1 t2 t3 t4, header s%"domain" ts = .ok (s.name, t0) ∧ takeSection s%"requirements" t0 = (s.reqs, t1) ∧
      takeSection s%"types" t1 = (s.types, t2) ∧ takeSection s%"constants" t2 = (s.constants, t3) ∧
      takeSection s%"predicates" t3 = (s.predicates, t4) ∧ takeSection s%"functions" t4 = (s.functions, s.structures) := by
  obtain ⟨h, hh, e⟩ := hs
  simp only [Tree.node.injEq] at e
  refine ⟨optText s%"requirements" s.reqs ++ (optText s%"types" s.types ++ (optText s%"constants" s.constants ++
      (optText s%"predicates" s.predicates ++ (optText s%"functions" s.functions ++ s.structures)))), _, _, _, _, ?_,
    Props.takeSection_rest ?_, Props.takeSection_rest ?_, Props.takeSection_rest ?_, Props.takeSection_rest ?_,
    Props.takeSection_rest ?_⟩
  · rw [e, header_of hh]
    simp only [List.append_assoc]
  · intro b hb
    simp only [List.mem_append] at hb
    rcases hb with hb | hb | hb | hb | hb
    · exact notin_optText (by decide) b hb
    · exact notin_optText (by decide) b hb
    · exact notin_optText (by decide) b hb
    · exact notin_optText (by decide) b hb
    · exact notin_structures ho (by decide) (by decide) b hb
  · intro b hb
    simp only [List.mem_append] at hb
    rcases hb with hb | hb | hb | hb
    · exact notin_optText (by decide) b hb
    · exact notin_optText (by decide) b hb
    · exact notin_optText (by decide) b hb
    · exact notin_structures ho (by decide) (by decide) b hb
  · intro b hb
    simp only [List.mem_append] at hb
    rcases hb with hb | hb | hb
    · exact notin_optText (by decide) b hb
    · exact notin_optText (by decide) b hb
    · exact notin_structures ho (by decide) (by decide) b hb
  · intro b hb
    simp only [List.mem_append] at hb
    rcases hb with hb | hb
    · exact notin_optText (by decide) b hb
    · exact notin_structures ho (by decide) (by decide) b hb
  · exact notin_structures ho (by decide) (by decide)

/-- Words inside the sections. -/
theorem sections_words {ts : List Tree} {s : DomainSections} (hs : s.Of (.node ts)) (hw : WordsOk (.node ts)) :
    (∀ b, s.types = some b → WordsOk (.node b)) ∧ (∀ b, s.constants = some b → WordsOk (.node b)) ∧
    (∀ b, s.predicates = some b → WordsOk (.node b)) ∧ (∀ b, s.functions = some b → WordsOk (.node b)) ∧
    WordsOk (.node s.structures) := by
  obtain ⟨h, hh, e⟩ := hs
  simp only [Tree.node.injEq] at e
  have key : ∀ k b, section_ k b ∈ ts → WordsOk (.node b) := fun k b hm => WordsOk.body (hw.sub hm)
  refine ⟨fun b hb => key s%"types" b ?_, fun b hb => key s%"constants" b ?_, fun b hb => key s%"predicates" b ?_,
    fun b hb => key s%"functions" b ?_, ?_⟩
  · rw [e]; simp [hb, optText]
  · rw [e]; simp [hb, optText]
  · rw [e]; simp [hb, optText]
  · rw [e]; simp [hb, optText]
  · intro w hi
    cases hi with
    | node hm hi => exact hw w (.node (by rw [e]; simp [hm]) hi)

theorem domainDef_in {F : FloatOf} {ts : List Tree} {d : Domain} {σ' : PState} (hw : WordsOk (.node ts))
    (h : domainDef F PState.fresh ts = .ok (d, σ')) : ∃ s D, s.Of (.node ts) ∧ SectionsIn F s D := by
  obtain ⟨P⟩ := domainDef_ok h
  obtain ⟨n, ts0, hheader, r1, ts1, h1, rs, σ1, hreqs, r2, ts2, h2, types, σ2, htypes, r3, ts3, h3, consts, σ3, hconsts,
    r4, ts4, h4, preds, σ4, hpreds, r5, ts5, h5, funs, hfuns, as, ds, σ5, hstruct, hdomain, hσ'⟩ := P
  have hs : DomainSections.Of (.node ts) ⟨n, r1, r2, r3, r4, r5, ts5⟩ := DomainParse.sections_of
    (σ := PState.fresh) (σ' := σ') (F := F) (d := d)
    ⟨n, ts0, hheader, r1, ts1, h1, rs, σ1, hreqs, r2, ts2, h2, types, σ2, htypes, r3, ts3, h3, consts, σ3, hconsts,
      r4, ts4, h4, preds, σ4, hpreds, r5, ts5, h5, funs, hfuns, as, ds, σ5, hstruct, hdomain, hσ'⟩
  obtain ⟨w2, w3, w4, w5, w6⟩ := sections_words hs hw
  obtain ⟨i1, x, rfl, hx⟩ := reqs_in hreqs
  obtain ⟨hd, ⟨o, rfl, ho⟩, i2⟩ := types_in w2 rfl hx htypes
  obtain ⟨C, hC, rfl, rfl, i3⟩ := consts_in w3 rfl hconsts
  obtain ⟨Q, hQ, rfl, i4⟩ := preds_in w4 rfl hpreds
  let D : Decls := ⟨rs, types, C, Q⟩
  obtain ⟨q1, q2, q3, q4, q5, q6, q7, q8, _⟩ := (mkDomain_ok hd).1 hdomain
  have hcs := (consts_typed (D := D) hC).1 q5
  have hps := (preds_typed (D := D) hQ).1 q6
  have hst := stateIn_sections (D := D) hx ho hd hC hQ hcs hps
  obtain ⟨j1, j2, j3⟩ := structures_in hst w6 hstruct
  obtain ⟨m1, m2, m3, m4, _, _, m7, m8⟩ := (mkDomain_in (D := D) (n := n) (funs := funs) hd (fun _ => Iff.rfl) hC hQ j2 j1).1 ⟨d, hdomain⟩
  refine ⟨_, D, hs, ⟨m1, i1, i2 m2 m3, i3 _ hcs, i4 _ hps, ?_, j3 m7 m8⟩⟩
  intro b hb
  rcases hfuns with ⟨e, _⟩ | ⟨b', e, hf⟩
  · rw [show r5 = some b from hb] at e; cases e
  · have : b = b' := by
      have := (show r5 = some b from hb).symm.trans e
      simpa using this
    subst this
    exact (sectionFunctions_in (w5 b hb)).1 ⟨funs, hf, m4⟩

theorem in_domainDef {F : FloatOf} {ts : List Tree} {s : DomainSections} {D : Decls} (hw : WordsOk (.node ts))
    (hs : s.Of (.node ts)) (h : SectionsIn F s D) : ∃ r, domainDef F PState.fresh ts = .ok r := by
  obtain ⟨w2, w3, w4, w5, w6⟩ := sections_words hs hw
  obtain ⟨t0, t1, t2, t3, t4, k0, k1, k2, k3, k4, k5⟩ := takeSections hs (structuresIn_only h.structures)
  obtain ⟨rs, σ1, hreqs, hr, x, rfl, hx⟩ := in_reqs h.reqs
  obtain ⟨hd, hT1, hT2, o, ho, htypes⟩ := in_types (σ1 := { PState.fresh with ext := x }) w2 rfl hx h.types
  obtain ⟨hC, hcs, hconsts⟩ := in_consts (σ2 := { PState.fresh with ext := x, types := o }) w3 rfl h.constants
  obtain ⟨hps, ps, hQ, hpreds⟩ := in_preds (σ3 := { PState.fresh with ext := x, types := o, consts := constDict D.consts }) w4 rfl h.predicates
  obtain ⟨funs, hfuns, hfok⟩ : ∃ funs, ((s.functions = none ∧ funs = []) ∨ ∃ b, s.functions = some b ∧ sectionFunctions b = .ok funs) ∧
      FunsOk D.reqs funs := by
    cases hf : s.functions with
    | none => exact ⟨[], .inl ⟨rfl, rfl⟩, by simp [FunsOk]⟩
    | some b =>
      obtain ⟨d, h1, h2⟩ := (sectionFunctions_in (w5 b hf)).2 (h.functions b hf)
      exact ⟨d, .inr ⟨b, rfl, h1⟩, h2⟩
  have hst := stateIn_sections hx ho hd hC hQ hcs hps
  obtain ⟨as, ds, σ5, hstruct, ha, hds⟩ := in_structures hst w6 h.structures
  obtain ⟨j1, j2, _⟩ := structures_in hst w6 hstruct
  obtain ⟨d, hdomain⟩ := (mkDomain_in (n := s.name) (funs := funs) hd hr hC hQ j2 j1).2
    ⟨h.name, hT1, hT2, hfok, hcs, hps, ha, hds⟩
  exact ⟨_, DomainParse.run (d := d) (σ' := { σ5 with types := none }) ⟨s.name, t0, k0, s.reqs, t1, k1, rs, _, hreqs, s.types, t2, k2,
    D.types, _, htypes, s.constants, t3, k3, _, _, hconsts, s.predicates, t4, k4, ps, _, hpreds, s.functions, s.structures, k5,
    funs, hfuns, as, ds, σ5, hstruct, hdomain, rfl⟩⟩

/-- A domain text is accepted exactly if it obeys the rules. -/
theorem parseDomain_iff (F : FloatOf) (text : Str) : (∃ r, parseDomain F PState.fresh text = .ok r) ↔ DomainIn F text := by
  constructor
  · rintro ⟨⟨d, σ'⟩, h⟩
    obtain ⟨ts, h1, h2⟩ := parseDomain_ok h
    obtain ⟨s, D, hs, hD⟩ := domainDef_in (fun w hi => readText_words h1 (by simp) hi) h2
    exact ⟨_, s, D, readText_brackets.1 h1, hs, hD⟩
  · rintro ⟨t, s, D, hb, hs, hD⟩
    have hr := readText_brackets.2 hb
    obtain ⟨_, _, e⟩ := id hs
    subst e
    obtain ⟨r, h⟩ := in_domainDef (fun w hi => readText_words hr (by simp) hi) hs hD
    refine ⟨r, ?_⟩
    unfold parseDomain
    rw [hr, ok_bind]
    exact h

end Pddl.Rules
