/-
A parsed domain declares what is written.
-/
import Verif.Spec.Written
import Verif.Proofs.RetagSem
import Verif.Proofs.GrammarSound
import Verif.Proofs.ActionText
import Verif.Proofs.NamesText
import Verif.Proofs.DeclText
import Verif.Proofs.EffectSem
import Verif.Proofs.TextSem

namespace Pddl
open Spec Grammar

/-! ### The sections -/

theorem header_named {k : Str} {ts rest : List Tree} {n : Str} (h : header k ts = .ok (n, rest)) :
    ∃ t, NamedHeader k t n ∧ ts = word s%"define" :: t :: rest := by
  unfold header at h
  split at h
  · rename_i hd r hd1
    split at h
    · rename_i n' hd2
      simp only [pure_ok, Except.ok.injEq, Prod.mk.injEq] at h
      obtain ⟨rfl, rfl⟩ := h
      refine ⟨.node hd, ⟨hd, rfl, dropKeyword_grammar.1 hd2⟩, ?_⟩
      have := dropKeyword_grammar.1 hd1
      generalize hg : Tree.node hd :: r = x at this
      cases this with
      | word rest => rfl
      | fused c cs rest hc => simp [word] at hg
    · cases h
  · cases h

theorem opt_text {k : Str} {ts rest : List Tree} {o : Option (List Tree)}
    (h : takeSection k ts = (o, rest)) : ts = optText k o ++ rest := by
  cases o with
  | none => rw [takeSection_none h]; rfl
  | some b => rw [takeSection_some h]; rfl

/-- The sections that were read. -/
def DomainParse.sections {F σ ts d σ'} (P : DomainParse F σ ts d σ') : DomainSections where
  name := P.n
  reqs := P.r1
  types := P.r2
  constants := P.r3
  predicates := P.r4
  functions := P.r5
  structures := P.ts5

theorem DomainParse.sections_of {F σ ts d σ'} (P : DomainParse F σ ts d σ') : P.sections.Of (.node ts) := by
  obtain ⟨t, ht, hts⟩ := header_named P.hheader
  refine ⟨t, ht, ?_⟩
  have : ts = word s%"define" :: t :: (optText s%"requirements" P.r1 ++ optText s%"types" P.r2 ++
      optText s%"constants" P.r3 ++ optText s%"predicates" P.r4 ++ optText s%"functions" P.r5 ++ P.ts5) := by
    refine hts.trans ?_
    rw [opt_text P.h1, opt_text P.h2, opt_text P.h3, opt_text P.h4, opt_text P.h5]
    simp
  exact congrArg Tree.node this

/-! ### Requirements -/

theorem requireKey_some {t : Tree} {r : Req} (h : requireKey t = some r) : t = .atom (.kw r.value) ∧ r ≠ .objectFluents := by
  unfold requireKey at h
  split at h
  · have h1 := List.find?_some h
    have h2 := List.mem_of_find?_eq_some h
    simp only [decide_eq_true_eq] at h1
    simp only [List.mem_filter, decide_eq_true_eq] at h2
    exact ⟨by rw [h1], h2.2⟩
  · cases h

theorem mapM_some_mem {α β} {f : α → Option β} {l : List α} {r : List β} (h : l.mapM f = some r) :
    (∀ y ∈ r, ∃ x ∈ l, f x = some y) ∧ ∀ x ∈ l, ∃ y ∈ r, f x = some y := by
  induction l generalizing r with
  | nil => simp at h; subst h; simp
  | cons a l ih =>
    simp only [List.mapM_cons, Option.bind_eq_bind, Option.bind_eq_some_iff, Option.pure_def, Option.some.injEq] at h
    obtain ⟨b, hb, bs, hbs, rfl⟩ := h
    obtain ⟨i1, i2⟩ := ih hbs
    constructor
    · intro y hy
      rcases List.mem_cons.1 hy with rfl | hy
      · exact ⟨a, by simp, hb⟩
      · obtain ⟨x, hx, h⟩ := i1 y hy; exact ⟨x, by simp [hx], h⟩
    · intro x hx
      rcases List.mem_cons.1 hx with rfl | hx
      · exact ⟨b, by simp, hb⟩
      · obtain ⟨y, hy, h⟩ := i2 x hx; exact ⟨y, by simp [hy], h⟩

theorem parseRequirements_written {b : List Tree} {rs : List Req} (h : parseRequirements b = .ok rs) : ReqsWritten b rs := by
  unfold parseRequirements at h
  split at h
  · cases h
  · split at h
    · rename_i rs' hm
      simp only [pure_ok, Except.ok.injEq] at h
      subst h
      intro r
      rw [mem_reqSet]
      obtain ⟨h1, h2⟩ := mapM_some_mem hm
      constructor
      · intro hr
        obtain ⟨x, hx, h⟩ := h1 r hr
        rw [← (requireKey_some h).1]; exact hx
      · intro hb
        obtain ⟨y, hy, h⟩ := h2 _ hb
        have := (requireKey_some h).1
        simp only [Tree.atom.injEq, Tok.kw.injEq] at this
        have e : r = y := by revert this; cases r <;> cases y <;> decide
        rwa [e]
    · cases h

/-! ### Typed lists of names -/

theorem Spec.NameList.Ok.pair_types {l : NameList} (h : l.Ok) {p : Str × Option Str} (hp : p ∈ l.pairs) {t : Str}
    (ht : p.2 = some t) : ValidType t := by
  unfold NameList.pairs at hp
  rcases List.mem_append.1 hp with hp | hp
  · obtain ⟨g, hg, hp⟩ := List.mem_flatMap.1 hp
    obtain ⟨n, _, rfl⟩ := List.mem_map.1 hp
    simp only [Option.some.injEq] at ht
    rw [← ht]; exact h.types g hg
  · obtain ⟨n, _, rfl⟩ := List.mem_map.1 hp
    simp at ht

theorem validType_ne {t : Str} (h : ValidType t) : t ≠ [] := by
  rintro rfl
  revert h
  decide +kernel

theorem sectionTypes_written {σ σ' : PState} {b : List Tree} {d : TypeDict}
    (hw : ∀ w, .atom (.name w) ∈ b → nameRegex w = true) (h : sectionTypes σ b = .ok (d, σ')) :
    TypesWritten b (cleanDict d) ∧ IsDict d := by
  unfold sectionTypes at h
  obtain ⟨d', h1, h2⟩ := bind_ok_iff.1 h
  obtain ⟨_, _, h3⟩ := bind_ok_iff.1 h2
  obtain ⟨_, _, h4⟩ := bind_ok_iff.1 h3
  simp only [pure_ok, Except.ok.injEq, Prod.mk.injEq] at h4
  obtain ⟨l, hl, rfl, rfl⟩ := (parseTypedNames_iff hw).1 h1
  refine ⟨⟨l, rfl, ?_⟩, ?_⟩
  · rw [← h4.1, cleanDict, List.map_map]
    refine List.map_congr_left (fun p hp => ?_)
    simp only [Function.comp_apply]
    split
    · rfl
    · obtain ⟨n, t⟩ := p
      cases t with
      | none => rfl
      | some t =>
        have := validType_ne (hl.pair_types hp rfl)
        cases t with
        | nil => exact absurd rfl this
        | cons c cs => rfl
  · rw [← h4.1]
    have := hl.nodup
    unfold IsDict
    rw [List.map_map]
    refine (congrArg List.Nodup (List.map_congr_left (fun p hp => ?_))).mp this
    simp only [Function.comp_apply]
    split <;> rfl

theorem sectionConstants_written {σ σ' : PState} {b : List Tree} {cs : List Term}
    (hw : ∀ w, .atom (.name w) ∈ b → nameRegex w = true) (h : sectionConstants σ b = .ok (cs, σ')) :
    ConstantsWritten b (dedupBy Term.pyEq cs) := by
  unfold sectionConstants at h
  obtain ⟨d, h1, h2⟩ := bind_ok_iff.1 h
  obtain ⟨cs', h3, h4⟩ := bind_ok_iff.1 h2
  simp only [pure_ok, Except.ok.injEq, Prod.mk.injEq] at h4
  obtain ⟨l, hl, rfl, rfl⟩ := (parseTypedNames_iff hw).1 h1
  have h3 := mkConsts_ok h3
  refine ⟨l, rfl, ?_⟩
  have hd : IsDict cs' := by
    rw [h3]
    have := hl.nodup
    simpa [IsDict, List.map_map, Function.comp_def] using this
  rw [← h4.1, dictOf_nodup hd, h3, List.map_map, dedupBy_eq_self]
  · rfl
  · rw [List.pairwise_map]
    have := hl.nodup
    rw [List.Nodup, List.pairwise_map] at this
    refine this.imp (fun h => ?_)
    simp only [Function.comp_apply, Term.pyEq, decide_eq_false_iff_not]
    exact fun e => h e.symm

/-! ### Typed lists of variables -/

theorem builtVars_written {b : List Tree} {l : TypedList} (h : VarsText b l) : VarsWritten b ((builtVars l).map Term.var) := by
  refine ⟨l, h, ?_⟩
  unfold builtVars
  rw [List.map_map]
  induction l.vars with
  | nil => exact .nil
  | cons p ps ih =>
    refine .cons ⟨_, rfl, rfl, fun x => ?_⟩ ih
    simp [dd_mem]

theorem Spec.VarsWritten.congr {b : List Tree} {ts us : List Term} (h : VarsWritten b ts)
    (e : us.map Term.norm = ts.map Term.norm) : VarsWritten b us := by
  obtain ⟨l, hl, hf⟩ := h
  refine ⟨l, hl, ?_⟩
  generalize l.vars = ps at hf
  induction hf generalizing us with
  | nil => simp at e; subst e; exact .nil
  | cons h _ ih =>
    cases us with
    | nil => simp at e
    | cons u us =>
      simp only [List.map_cons, List.cons.injEq] at e
      refine .cons ?_ (ih e.2)
      obtain ⟨v, rfl, h1, h2⟩ := h
      cases u with
      | const n x => simp [Term.norm] at e
      | var u =>
        have := e.1
        simp only [Term.norm, NTerm.var.injEq, Var.norm, Prod.mk.injEq] at this
        refine ⟨u, rfl, this.1.trans h1, fun x => ?_⟩
        rw [← h2 x, ← List.mem_toFinset, this.2, List.mem_toFinset]

theorem formulaSkeleton_written {t : Tree} {p : Pred} (hw : ∀ w, Inside (.atom (.name w)) t → nameRegex w = true)
    (h : formulaSkeleton t = .ok p) : PredicateWritten t p := by
  unfold formulaSkeleton at h
  split at h
  · rename_i n b
    obtain ⟨vs, hv, h⟩ := bind_ok_iff.1 h
    obtain ⟨_, _, rfl⟩ := mkPred_ok.1 h
    obtain ⟨l, hl, _, _, rfl⟩ := parseTypedVars_ok (fun w h => hw w (.node (.tail _ h) .refl)) hv
    exact ⟨b, rfl, builtVars_written hl⟩
  · cases h

theorem Spec.PredicateWritten.congr {t : Tree} {p q : Pred} (h : PredicateWritten t p) (e : q.pyEq p = true) :
    PredicateWritten t q := by
  rw [Pred.pyEq_iff] at e
  simp only [Pred.norm, Prod.mk.injEq] at e
  obtain ⟨b, h1, h2⟩ := h
  exact ⟨b, by rw [e.1]; exact h1, h2.congr e.2⟩

theorem sectionPredicates_written {σ σ' : PState} {b : List Tree} {ps : List Pred}
    (hw : ∀ t ∈ b, ∀ w, Inside (.atom (.name w)) t → nameRegex w = true) (h : sectionPredicates σ b = .ok (ps, σ')) :
    (∀ p ∈ dedupBy Pred.pyEq ps, ∃ t ∈ b, PredicateWritten t p) ∧
      ∀ t ∈ b, ∃ p ∈ dedupBy Pred.pyEq ps, PredicateWritten t p := by
  unfold sectionPredicates at h
  obtain ⟨ps', h1, h2⟩ := bind_ok_iff.1 h
  obtain ⟨_, _, h3⟩ := bind_ok_iff.1 h2
  simp only [pure_ok, Except.ok.injEq, Prod.mk.injEq] at h3
  rw [h3.1] at h1
  have h1 := mapM_ok_iff.1 h1
  constructor
  · intro p hp
    obtain ⟨t, ht, h⟩ := zipped_right h1 (dedupBy_subset hp)
    exact ⟨t, ht, formulaSkeleton_written (hw t ht) h⟩
  · intro t ht
    obtain ⟨p, hp, h⟩ := zipped_left h1 ht
    obtain ⟨q, hq, e⟩ := memBy_iff.1 (dedupBy_cover (fun a => Pred.pyEq_iff.2 rfl) hp)
    exact ⟨q, hq, (formulaSkeleton_written (hw t ht) h).congr (eqv_pred.symm e)⟩

/-! ### Functions -/

theorem functionSkeleton_read {t : Tree} {f : NFun} (hw : ∀ w, Inside (.atom (.name w)) t → nameRegex w = true)
    (h : functionSkeleton t = .ok f) : FunctionRead t f := by
  unfold functionSkeleton at h
  split at h
  · rename_i n b
    split at h
    · cases h
    · rename_i toks ht
      obtain ⟨r, hr, h⟩ := bind_ok_iff.1 h
      split at h
      · rename_i hn
        obtain ⟨_, rfl⟩ := mkNFun_ok.1 h
        exact .inr ⟨b, rfl, by rw [hn]; rfl, typedVars_grammar ht⟩
      · rename_i hn
        obtain ⟨vs, hv, h⟩ := bind_ok_iff.1 h
        obtain ⟨_, rfl⟩ := mkNFun_ok.1 h
        have hp : parseTypedVars b = .ok vs := by
          unfold parseTypedVars
          rw [ht]
          simp only [hr, ok_bind, hv]
        obtain ⟨l, hl, _, _, rfl⟩ := parseTypedVars_ok (fun w h => hw w (.node (.tail _ h) .refl)) hp
        exact .inl ⟨⟨b, rfl, builtVars_written hl⟩, hn⟩
  · cases h

/-- The tokens up to the next type. -/
theorem functionToks_open {flag : Bool} {ts : List Tree} : ∀ {toks}, functionToks flag ts = .ok toks →
    ∃ acc : List (Tree × NFun), (∀ p ∈ acc, functionSkeleton p.1 = .ok p.2) ∧
      ((ts = acc.map Prod.fst ∧ toks = acc.map (fun p => TTok.fn p.2)) ∨
        ∃ ts' toks', (flag = true ∨ acc ≠ []) ∧ ts = acc.map Prod.fst ++ .atom .minus :: word s%"number" :: ts' ∧
          toks = acc.map (fun p => TTok.fn p.2) ++ .str s%"-" :: .str s%"number" :: toks' ∧
          functionToks false ts' = .ok toks') := by
  fun_induction functionToks flag ts with
  | case1 b =>
    intro toks h
    simp only [pure_ok, Except.ok.injEq] at h
    subst h
    exact ⟨[], by simp, .inl ⟨rfl, rfl⟩⟩
  | case2 t ts ih =>
    intro toks h
    obtain ⟨_, hc, h⟩ := bind_ok_iff.1 h
    obtain ⟨r, hr, h⟩ := bind_ok_iff.1 h
    simp only [pure_ok, Except.ok.injEq] at h
    simp only [check_ok, decide_eq_true_eq] at hc
    subst h; subst hc
    exact ⟨[], by simp, .inr ⟨ts, r, .inl rfl, rfl, rfl, hr⟩⟩
  | case3 flag b ts ih =>
    intro toks h
    obtain ⟨f, hf, h⟩ := bind_ok_iff.1 h
    obtain ⟨r, hr, h⟩ := bind_ok_iff.1 h
    simp only [pure_ok, Except.ok.injEq] at h
    subst h
    obtain ⟨acc, ha, h⟩ := ih hr
    refine ⟨(.node b, f) :: acc, ?_, ?_⟩
    · intro p hp
      rcases List.mem_cons.1 hp with rfl | hp
      · exact hf
      · exact ha p hp
    · rcases h with ⟨rfl, rfl⟩ | ⟨ts', toks', _, rfl, rfl, h⟩
      · exact .inl ⟨rfl, rfl⟩
      · exact .inr ⟨ts', toks', .inr (by simp), rfl, rfl, by assumption⟩
  | case4 => intro toks h; cases h

theorem functionToks_text : ∀ (n : Nat) {ts : List Tree}, ts.length = n → ∀ {toks}, functionToks false ts = .ok toks →
    ∃ (l : List (Tree × Option Str)) (g : Groups NFun), FunctionsText ts l ∧ toks = (funList g).tokens ∧
      (∀ p ∈ g.groups, p.1 = s%"number") ∧
      List.Forall₂ (fun p q => functionSkeleton p.1 = .ok q.2 ∧ q.1 = p.2) l g.pairs := by
  intro n
  induction n using Nat.strongRecOn with
  | _ n ih =>
    intro ts hn toks h
    obtain ⟨acc, ha, h'⟩ := functionToks_open h
    clear h
    rename' h' => h
    have hz : ∀ x : Option Str, List.Forall₂ (fun (p : Tree × Option Str) (q : Option Str × NFun) =>
        functionSkeleton p.1 = .ok q.2 ∧ q.1 = p.2) ((acc.map Prod.fst).map (fun t => (t, x))) ((acc.map Prod.snd).map (fun f => (x, f))) := by
      intro x
      clear h
      induction acc with
      | nil => exact .nil
      | cons p acc ih => exact .cons ⟨ha p (by simp), rfl⟩ (ih (fun p hp => ha p (by simp [hp])))
    rcases h with ⟨rfl, rfl⟩ | ⟨ts', toks', hne, rfl, rfl, h⟩
    · refine ⟨_, ⟨[], acc.map Prod.snd⟩, .rest _, ?_, by simp, ?_⟩
      · simp [funList, TypedList.tokens]
      · simpa [Groups.pairs] using hz none
    · obtain ⟨l, g, h1, rfl, h2, h3⟩ := ih ts'.length (by rw [← hn]; simp; omega) rfl h
      refine ⟨_, ⟨(s%"number", acc.map Prod.snd) :: g.groups, g.rest⟩, .group ?_ h1, ?_, ?_, ?_⟩
      · rcases hne with h | h
        · cases h
        · simpa using h
      · simp [funList, TypedList.tokens]
      · intro p hp
        rcases List.mem_cons.1 hp with rfl | hp
        · rfl
        · exact h2 p hp
      · have : Groups.pairs ⟨(s%"number", acc.map Prod.snd) :: g.groups, g.rest⟩ =
            (acc.map Prod.snd).map (fun f => (some s%"number", f)) ++ g.pairs := by
          simp [Groups.pairs]
        rw [this]
        exact List.rel_append (hz _) h3

theorem funList_ok {g : Groups NFun} (hne : ∀ p ∈ g.groups, p.1 = s%"number") : (funList g).Ok := by
  refine ⟨?_, ?_, ?_⟩
  · intro x hx t ht
    obtain ⟨y, _, rfl⟩ := List.mem_map.1 hx
    obtain ⟨f, _, rfl⟩ := List.mem_map.1 ht
    trivial
  · intro t ht
    obtain ⟨f, _, rfl⟩ := List.mem_map.1 ht
    trivial
  · intro x hx
    obtain ⟨y, hy, rfl⟩ := List.mem_map.1 hx
    show ValidType y.1
    rw [hne y hy]
    exact .inl (by decide +kernel)

theorem sectionFunctions_written {b : List Tree} {d : FunDict}
    (hw : ∀ t ∈ b, ∀ w, Inside (.atom (.name w)) t → nameRegex w = true) (h : sectionFunctions b = .ok d) :
    FunctionsWritten FunctionRead b d := by
  unfold sectionFunctions at h
  obtain ⟨toks, h1, h2⟩ := bind_ok_iff.1 h
  obtain ⟨_, _, h3⟩ := bind_ok_iff.1 h2
  clear h h2
  rw [typedListError_ok] at h3
  obtain ⟨l, g, hl, rfl, hg, hf⟩ := functionToks_text _ rfl h1
  rw [parseTypedList_eq false _ (funList_ok hg), funList_items] at h3
  have hu : Unequal ([] ++ g.pairs.map (fun p => (Item.fn p.2, p.1.toList))) := by
    by_contra hc
    rw [(addAll_false List.Pairwise.nil).2 hc] at h3
    cases h3
  rw [(addAll_false List.Pairwise.nil).1 hu] at h3
  simp only [ok_bind, TIndex.names, namesOf_eq, List.nil_append] at h3
  rw [if_pos] at h3
  · simp only [ok_bind, pure_ok, List.map_map, Function.comp_def, Except.ok.injEq] at h3
    have h3 := h3.symm.trans (fns_filterMap g.pairs)
    refine ⟨l, hl, ?_⟩
    rw [h3]
    have hm : ∀ p ∈ l, p.1 ∈ b := by
      clear * - hl
      induction hl with
      | rest ts => intro p hp; obtain ⟨t, ht, rfl⟩ := List.mem_map.1 hp; exact ht
      | group _ _ ih =>
        intro p hp
        rcases List.mem_append.1 hp with hp | hp
        · obtain ⟨t, ht, rfl⟩ := List.mem_map.1 hp; simp [ht]
        · simp [ih p hp]
    generalize g.pairs = ps at hf
    clear * - hf hm hw
    induction hf with
    | nil => exact .nil
    | cons h _ ih =>
      refine .cons ⟨functionSkeleton_read (hw _ (hm _ (by simp))) h.1, h.2⟩ (ih (fun p hp => hm p (by simp [hp])))
  · intro p hp
    obtain ⟨q, _, rfl⟩ := List.mem_map.1 hp
    cases q.1 <;> simp

/-! ### Actions and derived predicates -/

/-- Every structure gives an action or a derived predicate. -/
theorem structures_all {F : FloatOf} {σ σ' : PState} {ts : List Tree} {as : List Action}
    {ds : List Derived} (h : structures F σ ts = .ok (as, ds, σ')) (hp : ParamsOk σ) :
    ParamsOk σ' ∧
    (∀ t ∈ ts, (∃ body σ1 σ2 a, t = section_ s%"action" body ∧ σ1.Same σ ∧ actionDef F σ1 body = .ok (a, σ2) ∧ a ∈ as) ∨
      ∃ body σ1 d, t = section_ s%"derived" body ∧ σ1.Same σ ∧ ParamsOk σ1 ∧ derivedDef F σ1 body = .ok d ∧ d ∈ ds) ∧
    (∀ d ∈ ds, ∃ body σ1, section_ s%"derived" body ∈ ts ∧ σ1.Same σ ∧ ParamsOk σ1 ∧ derivedDef F σ1 body = .ok d) := by
  induction ts generalizing σ as ds with
  | nil =>
    simp only [structures, pure_ok, Except.ok.injEq, Prod.mk.injEq] at h
    obtain ⟨rfl, rfl, rfl⟩ := h
    exact ⟨hp, by simp, by simp⟩
  | cons t' ts ih =>
    unfold structures at h
    split at h
    · simp at *
    · rename_i k body ts' heq
      injection heq with h1 h2
      subst h2
      subst h1
      split at h
      · rename_i hk
        subst hk
        obtain ⟨⟨a, σ1⟩, ha, h⟩ := bind_ok_iff.1 h
        obtain ⟨⟨as', ds', σ2⟩, hs, h⟩ := bind_ok_iff.1 h
        simp only [pure_ok, Except.ok.injEq, Prod.mk.injEq] at h
        obtain ⟨rfl, rfl, rfl⟩ := h
        have hsm := actionDef_same ha
        have hp1 : ParamsOk σ1 := by
          obtain ⟨n, ps, t, t', params, p, e, _, hpar, rfl, _⟩ := actionDef_ok ha
          exact actionParameters_vars hpar
        obtain ⟨i0, i1, i2⟩ := ih hs hp1
        refine ⟨i0, ?_, ?_⟩
        · intro t ht
          rcases List.mem_cons.1 ht with rfl | ht
          · exact .inl ⟨body, _, σ1, a, rfl, .refl _, ha, by simp⟩
          · rcases i1 t ht with ⟨b, s1, s2, a, hb, hsame, hd, hm⟩ | ⟨b, s1, d, hb, hsame, hq, hd, hm⟩
            · exact .inl ⟨b, s1, s2, a, hb, hsame.trans hsm, hd, by simp [hm]⟩
            · exact .inr ⟨b, s1, d, hb, hsame.trans hsm, hq, hd, hm⟩
        · intro x hx
          obtain ⟨b, s1, hb, hsame, hq, hd⟩ := i2 x hx
          exact ⟨b, s1, by simp [hb], hsame.trans hsm, hq, hd⟩
      · split at h
        · rename_i hk
          subst hk
          obtain ⟨d, hd, h⟩ := bind_ok_iff.1 h
          obtain ⟨⟨as', ds', σ2⟩, hs, h⟩ := bind_ok_iff.1 h
          simp only [pure_ok, Except.ok.injEq, Prod.mk.injEq] at h
          obtain ⟨rfl, rfl, rfl⟩ := h
          obtain ⟨i0, i1, i2⟩ := ih hs hp
          refine ⟨i0, ?_, ?_⟩
          · intro t ht
            rcases List.mem_cons.1 ht with rfl | ht
            · exact .inr ⟨body, _, d, rfl, .refl _, hp, hd, by simp⟩
            · rcases i1 t ht with ⟨b, s1, s2, a, hb, hsame, hd, hm⟩ | ⟨b, s1, d, hb, hsame, hq, hd, hm⟩
              · exact .inl ⟨b, s1, s2, a, hb, hsame, hd, hm⟩
              · exact .inr ⟨b, s1, d, hb, hsame, hq, hd, by simp [hm]⟩
          · intro x hx
            rcases List.mem_cons.1 hx with rfl | hx
            · exact ⟨body, _, by simp [section_], .refl _, hp, hd⟩
            · obtain ⟨b, s1, hb, hsame, hq, hd⟩ := i2 x hx
              exact ⟨b, s1, by simp [hb], hsame, hq, hd⟩
        · simp at h
    · simp at h

theorem actionParameters_written {ps : List Tree} {params : List (Str × Term)}
    (hw : ∀ w, .atom (.name w) ∈ ps → nameRegex w = true) (h : actionParameters ps = .ok params) :
    ∃ l vs, ParamsWritten ps (params.map Prod.snd) l vs := by
  obtain ⟨vs, hvs, hpar⟩ := bind_ok_iff.1 h
  simp only [pure_ok, Except.ok.injEq] at hpar
  obtain ⟨l, hl, hok, hcomp, rfl⟩ := parseTypedVars_ok hw hvs
  have hkeys := dictOf_keys ((builtVars l).map (fun v => (v.name, Term.var v)))
  rw [hpar] at hkeys
  have hfst : ((builtVars l).map (fun v => (v.name, Term.var v))).map Prod.fst = l.vars.map Prod.fst := by
    simp [builtVars, List.map_map, Function.comp_def]
  rw [hfst] at hkeys
  have hitem : ∀ p ∈ params, ∃ q ∈ l.vars, p = (q.1, .var ⟨q.1, dd q.2⟩) := by
    intro p hp
    rw [← hpar] at hp
    have := dictOf_mem hp
    simp only [builtVars, List.map_map, List.mem_map, Function.comp_apply] at this
    obtain ⟨q, hq, rfl⟩ := this
    exact ⟨q, hq, rfl⟩
  obtain ⟨us, hus⟩ : ∃ us : List Var, params = us.map (fun v => (v.name, Term.var v)) := by
    have : ∀ ps : List (Str × Term), (∀ p ∈ ps, ∃ q ∈ l.vars, p = (q.1, .var ⟨q.1, dd q.2⟩)) →
        ∃ us : List Var, ps = us.map (fun v => (v.name, Term.var v)) := by
      intro ps
      induction ps with
      | nil => intro _; exact ⟨[], rfl⟩
      | cons p ps ih =>
        intro h
        obtain ⟨us, rfl⟩ := ih (fun p hp => h p (List.mem_cons_of_mem _ hp))
        obtain ⟨q, _, hq⟩ := h p (by simp)
        exact ⟨⟨q.1, dd q.2⟩ :: us, by rw [hq]; rfl⟩
    exact this params hitem
  have hnames : params.map Prod.fst = us.map Var.name := by rw [hus]; simp [List.map_map, Function.comp_def]
  rw [hnames] at hkeys
  refine ⟨l, us, hl, ?_, hkeys.1, hkeys.2.1, ?_, ?_⟩
  · rw [hus]; simp [List.map_map, Function.comp_def]
  · intro p hp; exact hkeys.2.2 p.1 (List.mem_map.2 ⟨p, hp, rfl⟩)
  · intro v hv p hp hpn
    obtain ⟨q, hq, he⟩ := hitem (v.name, .var v) (by rw [hus]; exact List.mem_map.2 ⟨v, hv, rfl⟩)
    injection he with h1 h2
    injection h2 with h2
    have := compatible_vars hcomp hq hp (by rw [hpn, ← h1])
    intro x
    rw [h2]
    simp only [dd_mem]
    exact this x

theorem actionDef_written {F : FloatOf} {σ σ' : PState} {body : List Tree} {a : Action} (hc : ConstsOk σ)
    (hw : ∀ w, Inside (.atom (.name w)) (section_ s%"action" body) → nameRegex w = true)
    (h : actionDef F σ body = .ok (a, σ')) : ActionWritten F (section_ s%"action" body) a := by
  obtain ⟨n, ps, t, t', params, p, e, rfl, hpar, rfl, hpre, heff, hact⟩ := actionDef_ok h
  obtain ⟨l, vs, hl⟩ := actionParameters_written (fun w h => hw w (.node (t := .node ps) (by simp) (.node h .refl))) hpar
  unfold mkAction at hact
  obtain ⟨n', hn, hact'⟩ := bind_ok_iff.1 hact
  clear hact
  obtain ⟨rfl, _⟩ := parseName_ok.1 hn
  simp only [pure_ok, Except.ok.injEq] at hact'
  subst hact'
  have hE : ParserEnv (({ σ with params := params } : PState).env F) :=
    params_env (σ := { σ with params := params }) hc (actionParameters_vars hpar) F
  have hP := env_plain (σ := { σ with params := params }) hc (actionParameters_vars hpar) F
  refine ⟨ps, t, t', l, vs, p, e, rfl, hl, rfl, rfl, ?_, ?_⟩
  · intro hne hk D I lit ρ hlit
    have hgd : (({ σ with params := params } : PState).env F).gd t = .ok p := by
      unfold GEnv.preGd at hpre
      split at hpre
      · exact absurd rfl hne
      · exact hpre
    exact GRel.sem I lit hE hlit (gd_iff.1 hgd) (fun w hi => hw w (hi.trans (.node (by simp) .refl))) (hk.inEnv hP) ρ
  · intro ho hk D I lit c ρ hlit
    unfold GEnv.effOpt at heff
    split at heff
    · simp only [pure_ok, Except.ok.injEq] at heff
      subst heff
      have : mkOr [] = .bin .or [] := by decide +kernel
      rw [this]
      simp [makes, treeMakes]
    · exact ERel.sem I lit c hE hlit (effect_iff.1 heff)
        (fun w hi => hw w (hi.trans (.node (by simp) .refl))) (hk.inEnv hP) ho (fun _ toks r hr => hr) ρ

theorem Spec.ActionWritten.congr {F : FloatOf} {t : Tree} {a b : Action} (h : ActionWritten F t a) (e : b.pyEq a = true) :
    ActionWritten F t b := by
  rw [Action.pyEq_iff] at e
  simp only [Action.norm, Prod.mk.injEq] at e
  obtain ⟨e1, e2, e3, e4⟩ := e
  obtain ⟨ps, pre, eff, l, vs, p, f, rfl, hl, hp, hf, h1, h2⟩ := h
  rw [hp] at e3
  rw [hf] at e4
  simp only [Option.map_some, Option.map_eq_some_iff] at e3 e4
  obtain ⟨p', hp', e3⟩ := e3
  obtain ⟨f', hf', e4⟩ := e4
  obtain ⟨us, hu⟩ : ∃ us : List Var, b.params = us.map Term.var ∧ us.map Var.norm = vs.map Var.norm := by
    rw [hl.terms] at e2
    clear * - e2
    generalize b.params = ts at e2
    induction vs generalizing ts with
    | nil => simp at e2; subst e2; exact ⟨[], rfl, rfl⟩
    | cons v vs ih =>
      cases ts with
      | nil => simp at e2
      | cons t ts =>
        simp only [List.map_cons, List.cons.injEq] at e2
        obtain ⟨us, h1, h2⟩ := ih _ e2.2
        cases t with
        | const n x => simp [Term.norm] at e2
        | var u =>
          have := e2.1
          simp only [Term.norm, NTerm.var.injEq] at this
          exact ⟨u :: us, by simp [h1], by simp [h2, this]⟩
  have hn : us.map Var.name = vs.map Var.name := by
    have := congrArg (List.map Prod.fst) hu.2
    simpa [List.map_map, Function.comp_def, Var.norm] using this
  have hm : ∀ u ∈ us, ∃ v ∈ vs, u.name = v.name ∧ SameTypes u.tags v.tags := by
    intro u hu'
    have : u.norm ∈ vs.map Var.norm := by rw [← hu.2]; exact List.mem_map.2 ⟨u, hu', rfl⟩
    obtain ⟨v, hv, e⟩ := List.mem_map.1 this
    simp only [Var.norm, Prod.mk.injEq] at e
    refine ⟨v, hv, e.1.symm, fun x => ?_⟩
    rw [← List.mem_toFinset, ← e.2, List.mem_toFinset]
  refine ⟨ps, pre, eff, l, us, p', f', by rw [e1], ⟨hl.text, hu.1, ?_, ?_, ?_, ?_⟩, hp', hf', ?_, ?_⟩
  · rw [hn]; exact hl.nodup
  · rw [hn]; exact hl.order
  · rw [hn]; exact hl.all
  · intro u hu' q hq hqu x
    obtain ⟨v, hv, h1, h2⟩ := hm u hu'
    rw [h2 x, hl.types v hv q hq (hqu.trans h1) x]
  · intro hne hk D I lit ρ hlit
    rw [← h1 hne hk D I lit ρ hlit]
    exact holds_congr_norm I e3 ρ
  · intro ho hk D I lit c ρ hlit
    rw [← h2 ho hk D I lit c ρ hlit]
    exact makes_congr I c e4 ρ

theorem retag_names {env : VarTypes} {ts us : List Term} (h : ts.mapM (Term.retag env) = .ok us) :
    us.map Term.name = ts.map Term.name := by
  replace h := mapM_ok_iff.1 h
  induction h with
  | nil => rfl
  | @cons t u _ _ h _ ih =>
    simp only [List.map_cons, ih, List.cons.injEq, and_true]
    cases t with
    | const n x => simp only [Term.retag, pure_ok, Except.ok.injEq] at h; subst h; rfl
    | var v =>
      simp only [Term.retag] at h
      split at h
      · obtain ⟨v', hv, h⟩ := bind_ok_iff.1 h
        simp only [pure_ok, Except.ok.injEq] at h
        subst h
        obtain ⟨_, _, rfl⟩ := mkVar_set_ok.1 hv
        rfl
      · simp only [pure_ok, Except.ok.injEq] at h; subst h; rfl

theorem derivedDef_written {F : FloatOf} {σ : PState} {body : List Tree} {d : Derived} (hc : ConstsOk σ) (hp : ParamsOk σ)
    (hw : ∀ w, Inside (.atom (.name w)) (section_ s%"derived" body) → nameRegex w = true)
    (h : derivedDef F σ body = .ok d) : DerivedWritten F (section_ s%"derived" body) d := by
  obtain ⟨t, c, head, cond, rfl, h1, h2, h3⟩ := derivedDef_ok h
  unfold derivedPredicate at h3
  split at h3
  · cases h3
  · split at h3
    · cases h3
    · obtain ⟨env, henv, h4⟩ := bind_ok_iff.1 h3
      obtain ⟨ts, hts, h5⟩ := bind_ok_iff.1 h4
      obtain ⟨head', hh, h6⟩ := bind_ok_iff.1 h5
      obtain ⟨c', hc', h7⟩ := bind_ok_iff.1 h6
      simp only [pure_ok, Except.ok.injEq] at h7
      subst h7
      obtain ⟨_, _, rfl⟩ := mkPred_ok.1 hh
      unfold formulaSkeleton at h1
      split at h1
      · rename_i n b
        obtain ⟨vs, hv, h1⟩ := bind_ok_iff.1 h1
        obtain ⟨_, _, rfl⟩ := mkPred_ok.1 h1
        obtain ⟨l, hl, _, _, rfl⟩ := parseTypedVars_ok (fun w h => hw w (.node (t := .node (word n :: b)) (List.mem_cons_of_mem _ List.mem_cons_self) (.node (.tail _ h) .refl))) hv
        refine ⟨b, c, l, rfl, hl, ?_, ?_⟩
        · rw [retag_names hts]
          simp [builtVars, List.map_map, Function.comp_def, Term.name]
        · intro hk D I lit ρ hlit
          rw [updateTags_holds I ((gd_iff.1 h2).steady (env_plain hc hp F)) ρ hc']
          exact GRel.sem I lit (params_env hc hp F) hlit (gd_iff.1 h2)
            (fun w hi => hw w (hi.trans (.node (by simp) .refl))) (hk.inEnv (env_plain hc hp F)) ρ
      · cases h1

theorem Term.name_norm {ts us : List Term} (h : ts.map Term.norm = us.map Term.norm) : ts.map Term.name = us.map Term.name := by
  induction ts generalizing us with
  | nil => simp at h; subst h; rfl
  | cons t ts ih =>
    cases us with
    | nil => simp at h
    | cons u us =>
      simp only [List.map_cons, List.cons.injEq] at h ⊢
      refine ⟨?_, ih h.2⟩
      have := h.1
      cases t <;> cases u <;> simp [Term.norm, Var.norm, Term.name] at this ⊢
      · exact this.1
      · exact this

theorem Spec.DerivedWritten.congr {F : FloatOf} {t : Tree} {a b : Derived} (h : DerivedWritten F t a) (e : b.pyEq a = true) :
    DerivedWritten F t b := by
  rw [Derived.pyEq_iff] at e
  simp only [Derived.norm, Pred.norm, Prod.mk.injEq] at e
  obtain ⟨⟨e1, e2⟩, e3⟩ := e
  obtain ⟨b', c, l, rfl, hl, hn, h1⟩ := h
  refine ⟨b', c, l, by rw [e1], hl, by rw [Term.name_norm e2]; exact hn, ?_⟩
  intro hk D I lit ρ hlit
  rw [← h1 hk D I lit ρ hlit]
  exact holds_congr_norm I e3 ρ

/-! ### The state -/

theorem DomainParse.params4 {F σ ts d σ'} (P : DomainParse F σ ts d σ') : P.σ4.params = σ.params := by
  have h1 : P.σ1.params = σ.params := by
    rcases P.hreqs with ⟨_, _, h⟩ | ⟨b, _, _, h⟩ <;> rw [h]
  have h2 : P.σ2.params = P.σ1.params := by
    rcases P.htypes with ⟨_, _, h⟩ | ⟨b, _, h⟩
    · rw [h]
    · unfold sectionTypes at h
      obtain ⟨_, _, h⟩ := bind_ok_iff.1 h
      obtain ⟨_, _, h⟩ := bind_ok_iff.1 h
      obtain ⟨_, _, h⟩ := bind_ok_iff.1 h
      simp only [pure_ok, Except.ok.injEq, Prod.mk.injEq] at h
      rw [← h.2]
  have h3 : P.σ3.params = P.σ2.params := by
    rcases P.hconsts with ⟨_, _, h⟩ | ⟨b, _, h⟩
    · rw [h]
    · unfold sectionConstants at h
      obtain ⟨_, _, h⟩ := bind_ok_iff.1 h
      obtain ⟨_, _, h⟩ := bind_ok_iff.1 h
      simp only [pure_ok, Except.ok.injEq, Prod.mk.injEq] at h
      rw [← h.2]
  have h4 : P.σ4.params = P.σ3.params := by
    rcases P.hpreds with ⟨_, _, h⟩ | ⟨b, _, h⟩
    · rw [h]
    · unfold sectionPredicates at h
      obtain ⟨_, _, h⟩ := bind_ok_iff.1 h
      obtain ⟨_, _, h⟩ := bind_ok_iff.1 h
      simp only [pure_ok, Except.ok.injEq, Prod.mk.injEq] at h
      rw [← h.2]
  rw [h4, h3, h2, h1]

theorem ParserState.paramsOk {F : FloatOf} {σ : PState} (h : ParserState F σ) : ParamsOk σ := by
  induction h with
  | fresh => intro p hp; simp [PState.fresh] at hp
  | parsed _ h ih =>
    obtain ⟨ts, _, h⟩ := parseDomain_ok h
    obtain ⟨P⟩ := domainDef_ok h
    rw [P.hσ']
    exact (structures_all P.hstruct (by unfold ParamsOk; rw [P.params4]; exact ih)).1

/-! ### The domain -/

theorem DomainParse.written {F σ ts d σ'} (P : DomainParse F σ ts d σ') (hσ : ParserState F σ)
    (hw : ∀ w, Inside (.atom (.name w)) (.node ts) → nameRegex w = true) :
    DomainWritten F FunctionRead P.sections d := by
  have hts : Tree.node ts = .node (word s%"define" :: _ :: _) := P.sections_of.choose_spec.2
  have hin : ∀ k b, section_ k b ∈ ts → ∀ t ∈ b, Inside t (.node ts) := fun k b h t ht =>
    .node h (.node (.tail _ ht) .refl)
  simp only [Tree.node.injEq] at hts
  have hmem : ∀ t, t ∈ optText s%"requirements" P.r1 ++ optText s%"types" P.r2 ++
      optText s%"constants" P.r3 ++ optText s%"predicates" P.r4 ++ optText s%"functions" P.r5 ++ P.ts5 → t ∈ ts := by
    intro t ht
    rw [hts]
    exact .tail _ (.tail _ ht)
  have htypes : TypesWritten (P.r2.getD []) (cleanDict P.types) ∧ IsDict P.types := by
    rcases P.htypes with ⟨h, h', _⟩ | ⟨b, h, h'⟩
    · rw [h, h']; exact ⟨⟨⟨[], []⟩, rfl, rfl⟩, List.Pairwise.nil⟩
    · rw [h]
      refine sectionTypes_written (fun w hi => hw w (hin s%"types" b (hmem _ ?_) _ hi)) h'
      simp [h, optText]
  have hd := ((mkDomain_ok (by exact htypes.2)).1 P.hdomain).2.2.2.2.2.2.2.2
  have h4 := constsOk_domain P hσ.constsOk
  have hp4 : ParamsOk P.σ4 := by unfold ParamsOk; rw [P.params4]; exact hσ.paramsOk
  have hcs : ∀ σ1 : PState, σ1.Same P.σ4 → ConstsOk σ1 := by
    intro σ1 hs
    unfold ConstsOk at *
    rw [hs.2.1]
    exact h4
  have hw5 : ∀ t ∈ P.ts5, ∀ w, Inside (.atom (.name w)) t → nameRegex w = true := fun t ht w hi =>
    hw w (hi.trans (.node (hmem t (by simp [ht])) .refl))
  obtain ⟨-, hall, hder⟩ := structures_all P.hstruct hp4
  have hpreds : (∀ p ∈ dedupBy Pred.pyEq P.preds, ∃ t ∈ P.r4.getD [], PredicateWritten t p) ∧
      ∀ t ∈ P.r4.getD [], ∃ p ∈ dedupBy Pred.pyEq P.preds, PredicateWritten t p := by
    rcases P.hpreds with ⟨h, h', _⟩ | ⟨b, h, h'⟩
    · rw [h, h']; exact ⟨by simp [dedupBy, dedupAux], by simp⟩
    · rw [h]
      refine sectionPredicates_written (fun t ht w hi => hw w (hi.trans (hin s%"predicates" b (hmem _ ?_) t ht))) h'
      simp [h, optText]
  suffices key : DomainWritten F FunctionRead P.sections (domainOf ⟨P.n, P.rs, P.types, P.consts, P.preds, P.funs, P.ds, P.as⟩) by
    exact (congrArg (DomainWritten F FunctionRead P.sections) hd).mpr key
  refine ⟨rfl, ?_, htypes.1, ?_, hpreds.1, hpreds.2, ?_, ?_, ?_, ?_⟩
  · intro r
    show r ∈ reqSet P.rs ↔ _ ∈ P.r1.getD []
    rw [mem_reqSet]
    rcases P.hreqs with ⟨h, h', _⟩ | ⟨b, h, h', _⟩
    · rw [h, h']; simp
    · rw [h]; exact parseRequirements_written h' r
  · show ConstantsWritten (P.r3.getD []) (dedupBy Term.pyEq P.consts)
    rcases P.hconsts with ⟨h, h', _⟩ | ⟨b, h, h'⟩
    · rw [h, h']; exact ⟨⟨[], []⟩, rfl, rfl⟩
    · rw [h]
      refine sectionConstants_written (fun w hi => hw w (hin s%"constants" b (hmem _ ?_) _ hi)) h'
      simp [h, optText]
  · show FunctionsWritten FunctionRead (P.r5.getD []) P.funs
    rcases P.hfuns with ⟨h, h'⟩ | ⟨b, h, h'⟩
    · rw [h, h']; exact ⟨[], .rest [], .nil⟩
    · rw [h]
      refine sectionFunctions_written (fun t ht w hi => hw w (hi.trans (hin s%"functions" b (hmem _ ?_) t ht))) h'
      simp [h, optText]
  · intro a ha
    obtain ⟨body, σ1, σ2, hb, hs, hd⟩ := (structures_from P.hstruct).2.1 a (dedupBy_subset ha)
    exact ⟨_, hb, actionDef_written (hcs σ1 hs) (hw5 _ hb) hd⟩
  · intro x hx
    obtain ⟨body, σ1, hb, hs, hp, hd⟩ := hder x (dedupBy_subset hx)
    exact ⟨_, hb, derivedDef_written (hcs σ1 hs) hp (hw5 _ hb) hd⟩
  · intro t ht
    rcases hall t ht with ⟨body, σ1, σ2, a, rfl, hs, hd, ha⟩ | ⟨body, σ1, x, rfl, hs, hp, hd, hx⟩
    · obtain ⟨b, hb, e⟩ := memBy_iff.1 (dedupBy_cover (fun a => Action.pyEq_iff.2 rfl) ha)
      exact .inl ⟨b, hb, (actionDef_written (hcs σ1 hs) (hw5 _ ht) hd).congr (eqv_action.symm e)⟩
    · obtain ⟨y, hy, e⟩ := memBy_iff.1 (dedupBy_cover (fun a => Derived.pyEq_iff.2 rfl) hx)
      exact .inr ⟨y, hy, (derivedDef_written (hcs σ1 hs) hp (hw5 _ ht) hd).congr (eqv_derived.symm e)⟩

end Pddl
