/-
The rules for formulas and the callbacks for formulas.
-/
import Verif.Proofs.RulesExpr
import Verif.Proofs.EffectRead
import Verif.Props.Parser

namespace Pddl.Rules
open Pddl Spec Spec.Rules Grammar

/-- What the callbacks for formulas read is what the rules speak of. -/
structure EnvIn (Γ : Scope) (E : GEnv) : Prop where
  float : E.float = Γ.float
  ext : ∀ r, r ∈ E.ext ↔ InForce Γ.reqs r
  const : ∀ n t, E.constant n = .ok t ↔ ∃ tag, t = .const n tag ∧ (n, tag) ∈ Γ.consts
  typed : E.typedVars = typedListVariable
  param : ∀ n t, dictGet E.params n = some t → ∃ v types, t = .var v ∧ v.name = n ∧ ValidName n ∧ TagsOk v.tags ∧
    (n, types) ∈ Γ.params ∧ SameTypes v.tags types
  noParam : ∀ n, dictGet E.params n = none → ∀ p ∈ Γ.params, p.1 ≠ n
  paramFn : ∀ p ∈ Γ.params, ∀ q ∈ Γ.params, p.1 = q.1 → SameTypes p.2 q.2

variable {Γ : Scope} {E : GEnv}

theorem EnvIn.constFn (h : EnvIn Γ E) : ConstFn E := by
  intro n t ht
  obtain ⟨tag, rfl, _⟩ := (h.const n t).1 ht
  exact ⟨tag, rfl⟩

theorem EnvIn.variable_ok (h : EnvIn Γ E) {n : Str} {t : Term} (ht : E.variable n = .ok t) :
    ∃ v : Var, t = .var v ∧ v.name = n ∧ ValidName n ∧ TagsOk v.tags ∧
      ((∃ types, (n, types) ∈ Γ.params ∧ SameTypes v.tags types) ∨ ((∀ p ∈ Γ.params, p.1 ≠ n) ∧ v.tags = [])) := by
  unfold GEnv.variable at ht
  cases hd : dictGet E.params n with
  | some u =>
    rw [hd] at ht
    simp only [pure_ok, Except.ok.injEq] at ht
    subst ht
    obtain ⟨v, types, rfl, h1, h2, h3, h4, h5⟩ := h.param n _ hd
    exact ⟨v, rfl, h1, h2, h3, .inl ⟨types, h4, h5⟩⟩
  | none =>
    rw [hd] at ht
    simp only [bind_ok_iff, pure_ok, Except.ok.injEq] at ht
    obtain ⟨v, hv, rfl⟩ := ht
    obtain ⟨h1, _, rfl⟩ := mkVar_set_ok.1 hv
    exact ⟨_, rfl, rfl, h1, ⟨by simp [dedupBy, dedupAux], by simp [dedupBy, dedupAux]⟩, .inr ⟨h.noParam n hd, by simp [dedupBy, dedupAux]⟩⟩

theorem EnvIn.varFn (h : EnvIn Γ E) : VarFn E := by
  intro n t ht
  obtain ⟨v, rfl, hn, hv, _⟩ := h.variable_ok ht
  exact ⟨v, rfl, hn ▸ hv⟩

theorem EnvIn.terms_ok (h : EnvIn Γ E) {args : List Tree} : ∀ {ts : List Term}, E.terms args = .ok ts →
    ∃ l, TermsIn Γ args l ∧ List.Forall₂ SameT ts l := by
  induction args using GEnv.terms.induct with
  | case1 => intro ts ht; simp [GEnv.terms] at ht; subst ht; exact ⟨[], .nil, .nil⟩
  | case2 n args ih =>
    intro ts ht
    simp only [GEnv.terms, bind_ok_iff, pure_ok, Except.ok.injEq] at ht
    obtain ⟨t, ht, r, hr, rfl⟩ := ht
    obtain ⟨l, h1, h2⟩ := ih hr
    obtain ⟨tag, rfl, hc⟩ := (h.const n t).1 ht
    exact ⟨_, .const hc h1, .cons (.refl _) h2⟩
  | case3 n args ih =>
    intro ts ht
    simp only [GEnv.terms, bind_ok_iff, pure_ok, Except.ok.injEq] at ht
    obtain ⟨t, ht, r, hr, rfl⟩ := ht
    obtain ⟨l, h1, h2⟩ := ih hr
    obtain ⟨v, rfl, hn, hv, _, hp⟩ := h.variable_ok ht
    rcases hp with ⟨types, h3, h4⟩ | ⟨h3, h4⟩
    · exact ⟨_, TermsIn.param (n := n) h3 h1, .cons (.var hn h4) h2⟩
    · exact ⟨_, TermsIn.var (n := n) h3 hv h1, .cons (.var hn (by rw [h4]; exact sameTypes_refl _)) h2⟩
  | case4 => intro ts ht; simp [GEnv.terms] at ht

theorem EnvIn.terms_of (h : EnvIn Γ E) {args : List Tree} {l : List Term} (ht : TermsIn Γ args l) :
    ∃ ts, E.terms args = .ok ts ∧ List.Forall₂ SameT ts l := by
  induction ht with
  | nil => exact ⟨[], rfl, .nil⟩
  | @const n tag ts l hc _ ih =>
    obtain ⟨us, h1, h2⟩ := ih
    have := (h.const n (.const n tag)).2 ⟨tag, rfl, hc⟩
    exact ⟨_ :: us, by simp [word, GEnv.terms, this, h1], .cons (.refl _) h2⟩
  | @param n types ts l hp _ ih =>
    obtain ⟨us, h1, h2⟩ := ih
    cases hd : dictGet E.params n with
    | none => exact absurd rfl (h.noParam n hd _ hp)
    | some t =>
      obtain ⟨v, types', rfl, h3, h4, h5, h6, h7⟩ := h.param n _ hd
      refine ⟨.var v :: us, ?_, .cons (.var h3 (sameTypes_trans h7 (h.paramFn _ h6 _ hp rfl))) h2⟩
      simp [varTrees, GEnv.terms, GEnv.variable, hd, h1]
  | @var n ts l hp hv _ ih =>
    obtain ⟨us, h1, h2⟩ := ih
    cases hd : dictGet E.params n with
    | none =>
      have : mkVar n (.set []) = .ok ⟨n, []⟩ := mkVar_set_ok.2 ⟨hv, by simp, by simp [dedupBy, dedupAux]⟩
      refine ⟨.var ⟨n, []⟩ :: us, ?_, .cons (.refl _) h2⟩
      simp [varTrees, GEnv.terms, GEnv.variable, hd, h1, this]
    | some t =>
      obtain ⟨v, types', rfl, h3, h4, h5, h6, h7⟩ := h.param n _ hd
      exact absurd rfl (hp _ h6)

/-! ### Lists of variables -/

theorem vars_name {l : TypedList} {n : Str} {types : List Str} :
    (n, types) ∈ l.vars ↔ (TTok.str n, types) ∈ l.assigned := by
  simp only [TypedList.vars, List.mem_filterMap]
  constructor
  · rintro ⟨⟨k, ts⟩, hq, h⟩
    cases k with
    | str m => simp only [Option.some.injEq, Prod.mk.injEq] at h; obtain ⟨rfl, rfl⟩ := h; exact hq
    | list l => simp at h
    | fn f => simp at h
  · intro h; exact ⟨_, h, rfl⟩

theorem itemsOf_vars {vs : List Tree} {tl : TypedList} (h : VarsText vs tl) {p : Item × List Str} (hp : p ∈ tl.itemsOf) :
    ∃ q ∈ tl.vars, p = (.name q.1, dd q.2) := by
  unfold TypedList.itemsOf at hp
  obtain ⟨⟨k, ts⟩, hm, rfl⟩ := List.mem_map.1 hp
  obtain ⟨n, hn⟩ := h.assigned _ hm
  simp only at hn
  subst hn
  exact ⟨(n, ts), vars_name.2 hm, rfl⟩

theorem group_types {vs : List Tree} {tl : TypedList} (h : VarsText vs tl) :
    ∀ g ∈ tl.groups, ∃ n types, g.2 = .list types ∧ (n, types) ∈ tl.vars := by
  intro g hg
  obtain ⟨hne, types, e⟩ := h.shape.1 g hg
  cases hl : g.1 with
  | nil => exact absurd hl hne
  | cons t ts =>
    obtain ⟨n, rfl, _⟩ := h.shape.2.1 g hg t (by rw [hl]; simp)
    refine ⟨n, types, e, vars_name.2 ?_⟩
    simp only [TypedList.assigned, List.mem_append, List.mem_flatMap, List.mem_map]
    exact .inl ⟨g, hg, .str n, by rw [hl]; simp, by rw [e]; rfl⟩

/-- A list of variables that obeys the rules can be read. -/
theorem vars_in {ok : Str → Prop} {vs : List Tree} {l : List (Str × List Str)} (h : VarsIn ok vs l) :
    ∃ tl, VarsText vs tl ∧ l = tl.vars ∧ tl.Ok ∧ Compatible tl.itemsOf := by
  obtain ⟨⟨tl, h1, rfl⟩, h2, h3⟩ := h
  refine ⟨tl, h1, rfl, ⟨?_, ?_, ?_⟩, ?_⟩
  · intro g hg t ht
    obtain ⟨n, rfl, _⟩ := h1.shape.2.1 g hg t ht
    refine (h2 (n, typesOf g.2) (vars_name.2 ?_)).1
    simp only [TypedList.assigned, List.mem_append, List.mem_flatMap, List.mem_map]
    exact .inl ⟨g, hg, _, ht, rfl⟩
  · intro t ht
    obtain ⟨n, rfl, _⟩ := h1.shape.2.2 t ht
    refine (h2 (n, []) (vars_name.2 ?_)).1
    simp only [TypedList.assigned, List.mem_append, List.mem_flatMap, List.mem_map]
    exact .inr ⟨_, ht, rfl⟩
  · intro g hg
    obtain ⟨n, types, e, hm⟩ := group_types h1 g hg
    rw [e]
    exact fun t ht => ((h2 _ hm).2 t ht).1
  · intro p hp q hq e
    obtain ⟨p', hp', rfl⟩ := itemsOf_vars h1 hp
    obtain ⟨q', hq', rfl⟩ := itemsOf_vars h1 hq
    have e' : p'.1 = q'.1 := by simpa [Item.pyEq] using e
    intro x
    simp only [dd_mem]
    exact h3 p' hp' q' hq' e' x

/-- A list of variables that is read obeys the rules. -/
theorem in_vars {ok : Str → Prop} {vs : List Tree} {tl : TypedList} (h : VarsText vs tl) (hok : tl.Ok)
    (hc : Compatible tl.itemsOf) (ht : ∀ v ∈ builtVars tl, ∀ x ∈ v.tags, ok x) : VarsIn ok vs tl.vars := by
  refine ⟨⟨tl, h, rfl⟩, ?_, fun p hp q hq e => compatible_vars hc hp hq e⟩
  intro p hp
  obtain ⟨h1, h2⟩ := vars_valid hok p hp
  refine ⟨h1, fun t htp => ⟨h2 t htp, ?_⟩⟩
  exact ht ⟨p.1, dd p.2⟩ (List.mem_map.2 ⟨p, hp, rfl⟩) t (dd_mem.2 htp)

theorem built_ok {tl : TypedList} (hok : tl.Ok) (hc : Compatible tl.itemsOf) : VsOk (builtVars tl) := by
  constructor
  · intro v hv
    obtain ⟨p, hp, rfl⟩ := List.mem_map.1 hv
    obtain ⟨h1, h2⟩ := vars_valid hok p hp
    exact ⟨h1, dedup_nodup _, fun t ht => h2 t (dd_mem.1 ht)⟩
  · intro v hv w hw e x
    obtain ⟨p, hp, rfl⟩ := List.mem_map.1 hv
    obtain ⟨q, hq, rfl⟩ := List.mem_map.1 hw
    simp only [dd_mem]
    exact compatible_vars hc hp hq e x

theorem dedup_vars_ok {vs : List Var} (h : VsOk vs) : VsOk (dedupBy Var.pyEq vs) :=
  ⟨fun v hv => h.1 v (dedupBy_subset hv), fun v hv w hw => h.2 v (dedupBy_subset hv) w (dedupBy_subset hw)⟩

theorem var_cover {vs : List Var} {v : Var} (hv : v ∈ vs) : ∃ w ∈ dedupBy Var.pyEq vs, w.norm = v.norm := by
  obtain ⟨b, hb, e⟩ := memBy_iff.mp (dedupBy_cover (eq := Var.pyEq) (fun _ => Var.pyEq_iff.2 rfl) hv)
  exact ⟨b, hb, (Var.pyEq_iff.mp e).symm⟩

theorem built_tags {ok : Str → Prop} {tl : TypedList} (h : ∀ v ∈ dedupBy Var.pyEq (builtVars tl), ∀ x ∈ v.tags, ok x) :
    ∀ v ∈ builtVars tl, ∀ x ∈ v.tags, ok x := by
  intro v hv x hx
  obtain ⟨w, hw, e⟩ := var_cover hv
  exact h w hw x (((norm_tags e).2 x).2 hx)

theorem built_matches {tl : TypedList} : Matches (dedupBy Var.pyEq (builtVars tl)) tl.vars := by
  constructor
  · intro v hv
    obtain ⟨p, hp, rfl⟩ := List.mem_map.1 (dedupBy_subset hv)
    exact ⟨p, hp, rfl, fun x => dd_mem⟩
  · intro p hp
    obtain ⟨w, hw, e⟩ := var_cover (vs := builtVars tl) (List.mem_map.2 ⟨p, hp, rfl⟩)
    exact ⟨w, hw, (norm_tags e).1, fun x => ((norm_tags e).2 x).trans dd_mem⟩

/-- The typed list of a quantifier, as it is read. -/
theorem EnvIn.typed_iff (h : EnvIn Γ E) {vs : List Tree} (hw : ∀ w, .atom (.name w) ∈ vs → nameRegex w = true)
    {vars : List Var} : (∃ toks l, typedVarToks false vs = some toks ∧ E.typedVars toks = .ok l ∧ mkVars l = .ok vars) ↔
      ∃ tl, VarsText vs tl ∧ tl.Ok ∧ Compatible tl.itemsOf ∧ vars = builtVars tl := by
  have hp : parseTypedVars vs = .ok vars ↔
      ∃ toks l, typedVarToks false vs = some toks ∧ E.typedVars toks = .ok l ∧ mkVars l = .ok vars := by
    rw [h.typed]
    unfold parseTypedVars
    cases typedVarToks false vs with
    | none => simp
    | some toks =>
      simp only [bind_ok_iff, Option.some.injEq]
      constructor
      · rintro ⟨l, h1, h2⟩; exact ⟨_, l, rfl, h1, h2⟩
      · rintro ⟨_, l, rfl, h1, h2⟩; exact ⟨l, h1, h2⟩
  rw [← hp]
  constructor
  · exact parseTypedVars_ok hw
  · rintro ⟨tl, h1, h2, h3, rfl⟩; exact parseTypedVars_eq h1 h2 h3

/-! ### Numeric expressions -/

theorem parseFunction_iff {n : Str} : parseFunction n = .ok n ↔ ValidFunction n :=
  ⟨fun h => (parseFunction_ok.1 h).2, fun h => parseFunction_ok.2 ⟨rfl, h⟩⟩

theorem parseName_iff {n : Str} : parseName n = .ok n ↔ ValidName n :=
  ⟨fun h => (parseName_ok.1 h).2, fun h => parseName_ok.2 ⟨rfl, h⟩⟩

theorem EnvIn.fHead_iff (h : EnvIn Γ E) {t : Tree} : (∃ f, E.fHead t = .ok f) ↔ FHeadIn Γ t := by
  constructor
  · rintro ⟨f, hf⟩
    unfold GEnv.fHead at hf
    split at hf
    · exact .name (parseFunction_iff.1 (mkNFun_ok.1 hf).1)
    · obtain ⟨ts, h1, h2⟩ := bind_ok_iff.1 hf
      obtain ⟨l, h3, _⟩ := h.terms_ok h1
      exact .args (parseFunction_iff.1 (mkNFun_ok.1 h2).1) h3
    · simp at hf
  · intro hf
    cases hf with
    | name hn => exact ⟨_, mkNFun_ok.2 ⟨parseFunction_iff.2 hn, rfl⟩⟩
    | @args n ts l hn ht =>
      obtain ⟨us, h1, _⟩ := h.terms_of ht
      exact ⟨⟨n, us⟩, by simp only [word, GEnv.fHead, h1, ok_bind]; exact mkNFun_ok.2 ⟨parseFunction_iff.2 hn, rfl⟩⟩

/-- Choosing one value for each. -/
theorem pairs_of {α β : Type} {R : α → β → Prop} {l : List α} (h : ∀ a ∈ l, ∃ b, R a b) : ∃ bs, Pairs R l bs := by
  induction l with
  | nil => exact ⟨[], Pairs.nil⟩
  | cons a l ih =>
    obtain ⟨b, hb⟩ := h a (by simp)
    obtain ⟨bs, hbs⟩ := ih (fun x hx => h x (List.mem_cons_of_mem _ hx))
    exact ⟨b :: bs, Pairs.cons_iff.2 ⟨hb, hbs⟩⟩

theorem FRel.in (h : EnvIn Γ E) {t : Tree} {e : Expr} (hf : FRel E t e) : FExpIn Γ t := by
  induction hf with
  | @num s n hn =>
    refine .literal fun hd => ?_
    unfold numLiteral at hn
    rw [if_pos hd, h.float] at hn
    intro e
    rw [e] at hn
    simp at hn
  | plus h2 hl _ ih => exact .plus h2 fun t ht => by obtain ⟨e, _, hp⟩ := Pairs.mem_left (R := fun t _ => FExpIn Γ t) ⟨hl, ih⟩ ht; exact hp
  | times h2 hl _ ih => exact .times h2 fun t ht => by obtain ⟨e, _, hp⟩ := Pairs.mem_left (R := fun t _ => FExpIn Γ t) ⟨hl, ih⟩ ht; exact hp
  | divide _ _ h1 h2 => exact .divide h1 h2
  | minus _ h1 => exact .negate h1
  | fn0 hn => exact .head (.name (parseFunction_iff.1 (mkNFun_ok.1 hn).1))
  | fn ht hn =>
    obtain ⟨l, h3, _⟩ := h.terms_ok ht
    exact .head (.args (parseFunction_iff.1 (mkNFun_ok.1 hn).1) h3)

theorem FExpIn.rel (h : EnvIn Γ E) {t : Tree} (hf : FExpIn Γ t) : ∃ e, FRel E t e := by
  induction hf with
  | @literal s hs =>
    have : ∃ n, numLiteral E.float s = .ok n := by
      unfold numLiteral
      split
      · rename_i hd
        rw [h.float]
        cases hF : Γ.float s with
        | none => exact absurd hF (hs hd)
        | some p => exact ⟨_, rfl⟩
      · exact ⟨_, rfl⟩
    obtain ⟨n, hn⟩ := this
    exact ⟨_, .num hn⟩
  | plus h2 _ ih => obtain ⟨es, h1, h3⟩ := pairs_of ih; exact ⟨_, .plus h2 h1 h3⟩
  | times h2 _ ih => obtain ⟨es, h1, h3⟩ := pairs_of ih; exact ⟨_, .times h2 h1 h3⟩
  | divide _ _ h1 h2 => obtain ⟨e, he⟩ := h1; obtain ⟨e', he'⟩ := h2; exact ⟨_, .divide he he'⟩
  | negate _ h1 => obtain ⟨e, he⟩ := h1; exact ⟨_, .minus he⟩
  | @head t ht =>
    obtain ⟨f, hf⟩ := h.fHead_iff.2 ht
    cases ht with
    | name hn => exact ⟨_, .fn0 hf⟩
    | args hn h' =>
      simp only [word, GEnv.fHead] at hf
      obtain ⟨ts, h1, h2⟩ := bind_ok_iff.1 hf
      exact ⟨_, .fn h1 h2⟩

theorem EnvIn.fExp_iff (h : EnvIn Γ E) {t : Tree} : (∃ e, E.fExp t = .ok e) ↔ FExpIn Γ t := by
  simp only [Pddl.fExp_iff]
  exact ⟨fun ⟨_, he⟩ => FRel.in h he, FExpIn.rel h⟩

/-! ### Regular results -/

theorem frel_qok {t : Tree} {e : Expr} (h : FRel E t e) : QOk e ∧ NoEffect e := by
  have hc : ∀ c as, (QOk (.ofCls c as) ∧ NoEffect (.ofCls c as)) ↔ ∀ a ∈ as, QOk a ∧ NoEffect a := by
    intro c as
    have : NoEffect (.ofCls c as) ↔ NoEffects as := by cases c <;> rfl
    rw [qOk_cls, this, noEffects_iff]
    exact ⟨fun h a ha => ⟨h.1 a ha, h.2 a ha⟩, fun h => ⟨fun a ha => (h a ha).1, fun a ha => (h a ha).2⟩⟩
  induction h with
  | num _ => simp [QOk, NoEffect]
  | plus _ hl _ ih =>
    exact construct_keeps (P := fun e => QOk e ∧ NoEffect e) hc (fun e he => by obtain ⟨a, _, hp⟩ := Pairs.mem_right (R := fun _ e => QOk e ∧ NoEffect e) ⟨hl, ih⟩ he; exact hp)
  | times _ hl _ ih =>
    exact construct_keeps (P := fun e => QOk e ∧ NoEffect e) hc (fun e he => by obtain ⟨a, _, hp⟩ := Pairs.mem_right (R := fun _ e => QOk e ∧ NoEffect e) ⟨hl, ih⟩ he; exact hp)
  | divide _ _ h1 h2 => exact construct_keeps (P := fun e => QOk e ∧ NoEffect e) hc (by simp [h1, h2])
  | minus _ h1 => exact construct_keeps (P := fun e => QOk e ∧ NoEffect e) hc (by simp [h1])
  | fn0 _ => simp [QOk, NoEffect]
  | fn _ _ => simp [QOk, NoEffect]

theorem frel_binders {t : Tree} {e : Expr} {ok : Str → Prop} (h : FRel E t e) : BindersOk ok e := by
  induction h with
  | num _ => simp [BindersOk, binders]
  | plus _ hl _ ih =>
    exact construct_keeps bindersOk_cls (fun e he => by obtain ⟨a, _, hp⟩ := Pairs.mem_right (R := fun _ e => BindersOk ok e) ⟨hl, ih⟩ he; exact hp)
  | times _ hl _ ih =>
    exact construct_keeps bindersOk_cls (fun e he => by obtain ⟨a, _, hp⟩ := Pairs.mem_right (R := fun _ e => BindersOk ok e) ⟨hl, ih⟩ he; exact hp)
  | divide _ _ h1 h2 => exact construct_keeps bindersOk_cls (by simp [h1, h2])
  | minus _ h1 => exact construct_keeps bindersOk_cls (by simp [h1])
  | fn0 _ => simp [BindersOk, binders]
  | fn _ _ => simp [BindersOk, binders]

theorem frel_fits {t : Tree} {e : Expr} {τ : Str → Option (List Str)} (h : FRel E t e) : fits τ e := by
  induction h with
  | num _ => simp [fits]
  | plus _ hl _ ih =>
    exact construct_keeps fits_cls (fun e he => by obtain ⟨a, _, hp⟩ := Pairs.mem_right (R := fun _ e => fits τ e) ⟨hl, ih⟩ he; exact hp)
  | times _ hl _ ih =>
    exact construct_keeps fits_cls (fun e he => by obtain ⟨a, _, hp⟩ := Pairs.mem_right (R := fun _ e => fits τ e) ⟨hl, ih⟩ he; exact hp)
  | divide _ _ h1 h2 => exact construct_keeps fits_cls (by simp [h1, h2])
  | minus _ h1 => exact construct_keeps fits_cls (by simp [h1])
  | fn0 _ => simp [fits]
  | fn _ _ => simp [fits]

/-- All words of a text are words. -/
def WordsOk (t : Tree) : Prop := ∀ w, Inside (.atom (.name w)) t → nameRegex w = true

theorem WordsOk.sub {l : List Tree} {t : Tree} (h : WordsOk (.node l)) (ht : t ∈ l) : WordsOk t :=
  fun w hw => h w (hw.trans (.node ht .refl))

end Pddl.Rules
