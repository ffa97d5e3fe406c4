/-
A domain, a problem and a plan are not larger than the text they are read from.
-/
import Verif.Proofs.SizeText
import Verif.Proofs.Provenance
import Verif.Proofs.GrammarSound
import Verif.Proofs.WrittenProblem

namespace Pddl
open Spec

theorem tokens_pos (t : Tree) : 1 ≤ tokens t := by cases t <;> simp [tokens]; omega

theorem node_tokens (ts : List Tree) : tokens (.node ts) = 2 + tokensAll ts := by simp only [tokens]
theorem cons_tokens (t : Tree) (ts : List Tree) : tokensAll (t :: ts) = tokens t + tokensAll ts := by simp only [tokensAll]
theorem nil_tokens : tokensAll [] = 0 := by simp only [tokensAll]
theorem atom_tokens (t : Tok) : tokens (.atom t) = 1 := by simp only [tokens]

theorem forall₂_sum {α β} {f : α → Nat} {g : β → Nat} {R : α → β → Prop} {l : List α} {r : List β} (h : List.Forall₂ R l r)
    (h' : ∀ a b, R a b → g b ≤ f a) : (r.map g).sum ≤ (l.map f).sum := by
  induction h with
  | nil => simp
  | cons h1 _ ih =>
    have := h' _ _ h1
    simp only [List.map_cons, List.sum_cons]
    omega

theorem mapM_sum {α β ε} {f : α → Except ε β} {l : List α} {r : List β} (h : l.mapM f = .ok r) {w : α → Nat} {w' : β → Nat}
    (h' : ∀ a b, f a = .ok b → w' b ≤ w a) : (r.map w').sum ≤ (l.map w).sum :=
  forall₂_sum (mapM_ok_iff.1 h) h'

theorem dictOf_length {β} (l : List (Str × β)) : (dictOf l).length ≤ l.length := by
  have := (dictOf_keys l).2.1.length_le
  simpa using this

theorem option_mapM_length {α β} {f : α → Option β} {l : List α} {r : List β} (h : l.mapM f = some r) : r.length = l.length := by
  induction l generalizing r with
  | nil => simp at h; subst h; rfl
  | cons a l ih =>
    simp only [List.mapM_cons, Option.bind_eq_bind, Option.bind_eq_some_iff] at h
    obtain ⟨b, _, r', h1, h2⟩ := h
    simp at h2
    subst h2
    simp [ih h1]

theorem parseRequirements_length {body : List Tree} {rs : List Req} (h : parseRequirements body = .ok rs) :
    rs.length ≤ tokensAll body := by
  unfold parseRequirements at h
  split at h
  · cases h
  · split at h
    · rename_i rs' h1
      simp only [pure_ok, Except.ok.injEq] at h
      subst h
      have h2 := (dedupBy_sublist (eq := fun a b => decide (a = b)) rs').length_le
      have h3 := option_mapM_length h1
      have := length_le_tokens body
      unfold reqSet
      omega
    · cases h

theorem parseTypedNames_length {body : List Tree} {l : List (Str × Option Str)} (h : parseTypedNames body = .ok l) :
    l.length ≤ tokensAll body := by
  unfold parseTypedNames at h
  split at h
  · rename_i toks h1
    exact (typedListName_length h).trans (typedNameToks_weight h1)
  · cases h

theorem parseTypedVars_length {body : List Tree} {vs : List Var} (h : parseTypedVars body = .ok vs) :
    vs.length ≤ tokensAll body := by
  unfold parseTypedVars at h
  split at h
  · rename_i toks h1
    obtain ⟨l, h2, h3⟩ := bind_ok_iff.1 h
    rw [mkVars_length h3]
    exact (typedListVariable_length h2).trans (typedVarToks_weight h1)
  · cases h

theorem sectionTypes_length {σ σ' : PState} {body : List Tree} {d : TypeDict} (h : sectionTypes σ body = .ok (d, σ')) :
    d.length ≤ tokensAll body := by
  unfold sectionTypes at h
  simp only [bind_ok_iff, pure_ok, Except.ok.injEq, Prod.mk.injEq] at h
  obtain ⟨l, h1, _, _, _, _, rfl, _⟩ := h
  simpa using parseTypedNames_length h1

theorem sectionConstants_length {σ σ' : PState} {body : List Tree} {cs : List Term} (h : sectionConstants σ body = .ok (cs, σ')) :
    cs.length ≤ tokensAll body := by
  unfold sectionConstants at h
  simp only [bind_ok_iff, pure_ok, Except.ok.injEq, Prod.mk.injEq] at h
  obtain ⟨l, h1, c, h2, rfl, _⟩ := h
  have h3 := parseTypedNames_length h1
  have h4 := dictOf_length c
  rw [mkConsts_ok h2] at h4 ⊢
  simp only [List.length_map] at h4 ⊢
  omega

theorem formulaSkeleton_size {t : Tree} {p : Pred} (h : formulaSkeleton t = .ok p) : 1 + p.terms.length + 2 ≤ tokens t := by
  unfold formulaSkeleton at h
  split at h
  · obtain ⟨vs, h1, h2⟩ := bind_ok_iff.1 h
    obtain ⟨_, _, rfl⟩ := mkPred_ok.1 h2
    have := parseTypedVars_length h1
    simp only [tokens, tokensAll, List.length_map]
    omega
  · cases h

theorem sectionPredicates_size {σ σ' : PState} {body : List Tree} {ps : List Pred} (h : sectionPredicates σ body = .ok (ps, σ')) :
    (ps.map (fun p => 1 + p.terms.length)).sum ≤ tokensAll body := by
  unfold sectionPredicates at h
  simp only [bind_ok_iff, pure_ok, Except.ok.injEq, Prod.mk.injEq] at h
  obtain ⟨l, h1, _, _, rfl, _⟩ := h
  rw [tokensAll_sum]
  exact mapM_sum h1 (fun t p hp => by have := formulaSkeleton_size hp; omega)

theorem functionSkeleton_size {t : Tree} {f : NFun} (h : functionSkeleton t = .ok f) : 1 + f.terms.length ≤ tokens t := by
  unfold functionSkeleton at h
  split at h
  · split at h
    · cases h
    · rename_i toks h1
      obtain ⟨l, h2, h⟩ := bind_ok_iff.1 h
      split at h
      · obtain ⟨_, rfl⟩ := mkNFun_ok.1 h
        simp only [tokens, tokensAll, List.length_nil]
        omega
      · obtain ⟨vs, h3, h4⟩ := bind_ok_iff.1 h
        obtain ⟨_, rfl⟩ := mkNFun_ok.1 h4
        have k1 := mkVars_length h3
        have k2 := typedListVariable_length h2
        have k3 := typedVarToks_weight h1
        simp only [tokens, tokensAll, List.length_map]
        omega
  · cases h

theorem functionToks_weight {b : Bool} {ts : List Tree} : ∀ {toks}, functionToks b ts = .ok toks → tokWeights toks ≤ tokensAll ts := by
  fun_induction functionToks b ts with
  | case1 => intro toks h; simp at h; subst h; simp [tokWeights]
  | case2 t ts ih =>
    intro toks h
    simp only [bind_ok_iff, pure_ok, Except.ok.injEq] at h
    obtain ⟨_, _, r, h1, rfl⟩ := h
    have := ih h1
    simp only [tokWeights, List.map_cons, List.sum_cons, TTok.weight, tokensAll, tokens] at *
    omega
  | case3 b l ts ih =>
    intro toks h
    simp only [bind_ok_iff, pure_ok, Except.ok.injEq] at h
    obtain ⟨f, hf, r, h1, rfl⟩ := h
    have := ih h1
    have := functionSkeleton_size hf
    simp only [tokWeights, List.map_cons, List.sum_cons, TTok.weight, tokensAll] at *
    omega
  | case4 => intro toks h; simp at h

theorem sectionFunctions_size {body : List Tree} {fs : FunDict} (h : sectionFunctions body = .ok fs) :
    (fs.map (fun f => 1 + f.1.terms.length)).sum ≤ tokensAll body := by
  unfold sectionFunctions at h
  obtain ⟨toks, h1, h⟩ := bind_ok_iff.1 h
  obtain ⟨_, _, h⟩ := bind_ok_iff.1 h
  have h := typedListError_ok.1 h
  simp only [bind_ok_iff, pure_ok, Except.ok.injEq] at h
  obtain ⟨x, h2, r, h3, rfl⟩ := h
  have h4 := namesOf_items h3
  have h5 := (parseTypedList_weight h2).1
  have h6 := functionToks_weight h1
  have h7 : weights x.itemToTypes = (r.map (fun p => p.1.weight)).sum := by
    have e1 : weights x.itemToTypes = ((x.itemToTypes.map Prod.fst).map Item.weight).sum := by
      rw [List.map_map]; rfl
    have e2 : (r.map (fun p => p.1.weight)).sum = ((r.map Prod.fst).map Item.weight).sum := by
      rw [List.map_map]; rfl
    rw [e1, e2, h4]
  refine Nat.le_trans ?_ (h7 ▸ h5.trans h6)
  clear * -
  induction r with
  | nil => simp
  | cons p r ih =>
    obtain ⟨i, o⟩ := p
    cases i with
    | name n => simp only [List.filterMap_cons, List.map_cons, List.sum_cons] at *; omega
    | fn f => simp only [List.filterMap_cons, List.map_cons, List.sum_cons, Item.weight] at *; omega

theorem derivedDef_size {F : FloatOf} {σ : PState} {body : List Tree} {d : Derived} (h : derivedDef F σ body = .ok d) :
    derivedNodes d ≤ tokensAll body ∧ nesting d.cond ≤ bracketsAll body := by
  obtain ⟨t, c, head, cond, rfl, h1, h2, h3⟩ := derivedDef_ok h
  unfold derivedPredicate at h3
  split at h3
  · cases h3
  · split at h3
    · cases h3
    · simp only [bind_ok_iff, pure_ok, Except.ok.injEq] at h3
      obtain ⟨env, _, ts, h4, hd, h5, c', h6, rfl⟩ := h3
      obtain ⟨_, _, rfl⟩ := mkPred_ok.1 h5
      obtain ⟨k1, k2⟩ := updateTags_smaller h6
      obtain ⟨k3, k4⟩ := (gd_iff.1 h2).within (σ.frugal F)
      have k5 := formulaSkeleton_size h1
      have k6 := (mapM_ok_iff.1 h4).length_eq
      simp only [derivedNodes, tokensAll, bracketsAll]
      omega

theorem actionDef_size {F : FloatOf} {σ σ' : PState} {body : List Tree} {a : Action} (h : actionDef F σ body = .ok (a, σ')) :
    actionNodes a ≤ tokensAll body ∧ nestingOpt a.pre ≤ bracketsAll body ∧ nestingOpt a.eff ≤ bracketsAll body := by
  obtain ⟨n, ps, t, t', params, p, e, rfl, h1, rfl, h2, h3, h4⟩ := actionDef_ok h
  unfold mkAction at h4
  simp only [bind_ok_iff, pure_ok, Except.ok.injEq] at h4
  obtain ⟨_, _, rfl⟩ := h4
  unfold actionParameters at h1
  simp only [bind_ok_iff, pure_ok, Except.ok.injEq] at h1
  obtain ⟨vs, h5, rfl⟩ := h1
  have k1 := parseTypedVars_length h5
  have k2 := dictOf_length (vs.map (fun v => (v.name, Term.var v)))
  obtain ⟨k3, k4⟩ := preGd_within (PState.frugal _ F) h2
  obtain ⟨k5, k6⟩ := effOpt_within (PState.frugal _ F) h3
  simp only [actionNodes, nodesOpt, nestingOpt, tokensAll, tokens, bracketsAll, brackets, List.length_map] at *
  omega

theorem structures_size {F : FloatOf} {σ σ' : PState} {ts : List Tree} {as : List Action} {ds : List Derived}
    (h : structures F σ ts = .ok (as, ds, σ')) :
    (ds.map derivedNodes).sum + (as.map actionNodes).sum ≤ tokensAll ts ∧
    (∀ a ∈ as, 1 + nestingOpt a.pre ≤ bracketsAll ts ∧ 1 + nestingOpt a.eff ≤ bracketsAll ts) ∧
    ∀ d ∈ ds, 1 + nesting d.cond ≤ bracketsAll ts := by
  induction ts generalizing σ as ds with
  | nil =>
    simp [structures] at h
    obtain ⟨rfl, rfl, _⟩ := h
    simp
  | cons t ts ih =>
    unfold structures at h
    split at h
    · simp at *
    · rename_i heq
      injection heq with h1 h2
      subst h2
      subst h1
      split at h
      · obtain ⟨⟨a, σ1⟩, ha, h⟩ := bind_ok_iff.1 h
        obtain ⟨⟨as', ds', σ2⟩, hs, h⟩ := bind_ok_iff.1 h
        simp only [pure_ok, Except.ok.injEq, Prod.mk.injEq] at h
        obtain ⟨rfl, rfl, rfl⟩ := h
        obtain ⟨k1, k2, k3⟩ := ih hs
        obtain ⟨k4, k5, k6⟩ := actionDef_size ha
        refine ⟨?_, ?_, ?_⟩
        · simp only [List.map_cons, List.sum_cons, tokensAll, tokens]; omega
        · intro x hx
          simp only [bracketsAll, brackets]
          rcases List.mem_cons.1 hx with rfl | hx
          · omega
          · have := k2 x hx; omega
        · intro x hx
          simp only [bracketsAll, brackets]
          have := k3 x hx; omega
      · split at h
        · obtain ⟨dd, hd, h⟩ := bind_ok_iff.1 h
          obtain ⟨⟨as', ds', σ2⟩, hs, h⟩ := bind_ok_iff.1 h
          simp only [pure_ok, Except.ok.injEq, Prod.mk.injEq] at h
          obtain ⟨rfl, rfl, rfl⟩ := h
          obtain ⟨k1, k2, k3⟩ := ih hs
          obtain ⟨k4, k5⟩ := derivedDef_size hd
          refine ⟨?_, ?_, ?_⟩
          · simp only [List.map_cons, List.sum_cons, tokensAll, tokens]; omega
          · intro x hx
            simp only [bracketsAll, brackets]
            have := k2 x hx; omega
          · intro x hx
            simp only [bracketsAll, brackets]
            rcases List.mem_cons.1 hx with rfl | hx
            · omega
            · have := k3 x hx; omega
        · simp at h
    · simp at h

/-- The tokens of an optional section. -/
def sectionTokens : Option (List Tree) → Nat
  | none => 0
  | some b => 3 + tokensAll b

/-- The tokens of a section and of what follows it. -/
theorem takeSection_tokens {k : Str} {ts rest : List Tree} {r : Option (List Tree)} (h : takeSection k ts = (r, rest)) :
    sectionTokens r + tokensAll rest = tokensAll ts ∧ bracketsAll rest ≤ bracketsAll ts := by
  cases r with
  | none => rw [takeSection_none h]; simp [sectionTokens]
  | some b => rw [takeSection_some h]; simp only [sectionTokens, tokensAll, tokens, bracketsAll]; omega

theorem header_tokens {k : Str} {ts rest : List Tree} {n : Str} (h : header k ts = .ok (n, rest)) :
    1 + tokensAll rest ≤ tokensAll ts ∧ bracketsAll rest ≤ bracketsAll ts := by
  obtain ⟨w, x, rfl, _⟩ := header_ok h
  simp only [tokensAll, tokens, bracketsAll]
  omega

theorem mkDomain_size {a : DomainArgs} {d : Domain} (h : mkDomain a = .ok d) :
    d.reqs.length ≤ a.reqs.length ∧ d.types.length ≤ a.types.length ∧ d.constants.length ≤ a.constants.length ∧
    d.predicates.Sublist a.predicates ∧ d.functions = a.functions ∧ d.derived.Sublist a.derived ∧ d.actions.Sublist a.actions := by
  unfold mkDomain at h
  simp only [bind_ok_iff, pure_ok, Except.ok.injEq] at h
  obtain ⟨n, _, ts, h1, _, _, _, _, rfl⟩ := h
  refine ⟨(dedupBy_sublist _).length_le, ?_, (dedupBy_sublist _).length_le, dedupBy_sublist _, rfl, dedupBy_sublist _,
    dedupBy_sublist _⟩
  unfold mkTypes at h1
  simp only [bind_ok_iff, pure_ok, Except.ok.injEq] at h1
  obtain ⟨d', h2, _, _, rfl⟩ := h1
  unfold toTypes at h2
  simp only [bind_ok_iff, pure_ok, Except.ok.injEq] at h2
  obtain ⟨items, h3, rfl⟩ := h2
  have h4 := (mapM_ok_iff.1 h3).length_eq
  have := dictOf_length items
  simp only
  omega

theorem domainDef_size {F : FloatOf} {σ σ' : PState} {ts : List Tree} {d : Domain} (h : domainDef F σ ts = .ok (d, σ')) :
    domainNodes d ≤ tokensAll ts ∧
    (∀ a ∈ d.actions, 1 + nestingOpt a.pre ≤ bracketsAll ts ∧ 1 + nestingOpt a.eff ≤ bracketsAll ts) ∧
    ∀ x ∈ d.derived, 1 + nesting x.cond ≤ bracketsAll ts := by
  obtain ⟨P⟩ := domainDef_ok h
  obtain ⟨a0, b0⟩ := header_tokens P.hheader
  obtain ⟨a1, b1⟩ := takeSection_tokens P.h1
  obtain ⟨a2, b2⟩ := takeSection_tokens P.h2
  obtain ⟨a3, b3⟩ := takeSection_tokens P.h3
  obtain ⟨a4, b4⟩ := takeSection_tokens P.h4
  obtain ⟨a5, b5⟩ := takeSection_tokens P.h5
  obtain ⟨a6, b6, b7⟩ := structures_size P.hstruct
  obtain ⟨c1, c2, c3, c4, c5, c6, c7⟩ := mkDomain_size P.hdomain
  have e1 : P.rs.length ≤ sectionTokens P.r1 := by
    rcases P.hreqs with ⟨h, h', _⟩ | ⟨b, h, h', _⟩
    · rw [h, h']; simp
    · rw [h]; have := parseRequirements_length h'; simp only [sectionTokens]; omega
  have e2 : P.types.length ≤ sectionTokens P.r2 := by
    rcases P.htypes with ⟨h, h', _⟩ | ⟨b, h, h'⟩
    · rw [h, h']; simp
    · rw [h]; have := sectionTypes_length h'; simp only [sectionTokens]; omega
  have e3 : P.consts.length ≤ sectionTokens P.r3 := by
    rcases P.hconsts with ⟨h, h', _⟩ | ⟨b, h, h'⟩
    · rw [h, h']; simp
    · rw [h]; have := sectionConstants_length h'; simp only [sectionTokens]; omega
  have e4 : (P.preds.map (fun p => 1 + p.terms.length)).sum ≤ sectionTokens P.r4 := by
    rcases P.hpreds with ⟨h, h', _⟩ | ⟨b, h, h'⟩
    · rw [h, h']; simp
    · rw [h]; have := sectionPredicates_size h'; simp only [sectionTokens]; omega
  have e5 : (P.funs.map (fun f => 1 + f.1.terms.length)).sum ≤ sectionTokens P.r5 := by
    rcases P.hfuns with ⟨h, h'⟩ | ⟨b, h, h'⟩
    · rw [h, h']; simp
    · rw [h]; have := sectionFunctions_size h'; simp only [sectionTokens]; omega
  have s4 := sum_sublist (c4.map (fun p : Pred => 1 + p.terms.length))
  have s6 := sum_sublist (c6.map derivedNodes)
  have s7 := sum_sublist (c7.map actionNodes)
  simp only at c1 c2 c3 s4 c5 s6 s7
  refine ⟨?_, fun a ha => ?_, fun x hx => ?_⟩
  · unfold domainNodes
    rw [c5]
    omega
  · have := b6 a (c7.subset ha)
    omega
  · have := b7 x (c6.subset hx)
    omega

/-! ### Problems -/

theorem namesOnly_length {ts : List Tree} : ∀ {ns}, namesOnly ts = some ns → ns.length ≤ tokensAll ts := by
  fun_induction namesOnly ts with
  | case1 => intro ns h; simp at h; subst h; simp
  | case2 n ts ih =>
    intro ns h
    obtain ⟨r, h1, rfl⟩ := Option.map_eq_some_iff.1 h
    have := ih h1
    simp only [List.length_cons, tokensAll, tokens]; omega
  | case3 => intro ns h; simp at h

theorem atomicName_within {objs : List (Str × Term)} {l : List Tree} {e : Expr} (h : atomicName objs l = .ok e) :
    NoLarger e (.node l) := by
  unfold atomicName at h
  split at h
  · split at h
    · cases h
    · rename_i ns h1
      simp only [bind_ok_iff, pure_ok, Except.ok.injEq] at h
      obtain ⟨ts, h2, q, h3, rfl⟩ := h
      obtain ⟨_, _, rfl⟩ := mkPred_ok.1 h3
      have k1 := namesOnly_length h1
      have k2 := (mapM_ok_iff.1 h2).length_eq
      simp only [NoLarger, nodes, tokens, nesting, tokensAll]; omega
  · cases h

theorem basicFunction_within {t : Tree} {f : NFun} (h : basicFunction t = .ok f) : NoLarger (.nfun f) t := by
  unfold basicFunction at h
  split at h
  · obtain ⟨_, rfl⟩ := mkNFun_ok.1 h; simp [NoLarger, nodes, tokens, nesting]
  · split at h
    · cases h
    · rename_i ns h1
      simp only [bind_ok_iff] at h
      obtain ⟨ts, h2, h3⟩ := h
      obtain ⟨_, rfl⟩ := mkNFun_ok.1 h3
      have k1 := namesOnly_length h1
      have k2 := (mapM_ok_iff.1 h2).length_eq
      simp only [NoLarger, nodes, tokens, nesting, tokensAll]; omega
  · cases h

theorem initEl_within {F : FloatOf} {objs : List (Str × Term)} {t : Tree} {e : Expr} (h : initEl F objs t = .ok e) : NoLarger e t := by
  unfold initEl at h
  split at h
  · split at h
    · simp only [bind_ok_iff, pure_ok, Except.ok.injEq] at h
      obtain ⟨f, h1, n, _, rfl⟩ := h
      exact within_construct _ _ rfl (by simpa using ⟨basicFunction_within h1, by simp [NoLarger, nodes, tokens, nesting]⟩)
    · cases h
  · split at h
    · split at h
      · simp only [bind_ok_iff, pure_ok, Except.ok.injEq] at h
        obtain ⟨e, h1, rfl⟩ := h
        obtain ⟨k1, k2⟩ := atomicName_within h1
        simp only [NoLarger, nodes, tokens, nesting, brackets, tokensAll, bracketsAll] at *; omega
      · cases h
    · exact atomicName_within h
  · cases h

theorem metricExp_within {t : Tree} : ∀ {e}, metricExp t = .ok e → NoLarger e t := by
  induction t using Tree.ind with
  | hatom t =>
    intro e h
    unfold metricExp at h
    split at h
    all_goals first
      | (rename_i heq; cases heq; done)
      | (simp only [pure_ok, Except.ok.injEq] at h; subst h; simp [NoLarger, nodes, tokens, nesting]; done)
      | (rename_i heq; cases heq
         obtain ⟨f, h1, h⟩ := bind_ok_iff.1 h
         simp only [pure_ok, Except.ok.injEq] at h
         subst h
         exact basicFunction_within h1)
      | cases h
  | hnode l ih =>
    intro e h
    have hall : ∀ {args es}, (∀ t ∈ args, t ∈ l) → metricExps args = .ok es → args.length = es.length ∧
        ∀ p ∈ args.zip es, NoLarger p.2 p.1 := by
      intro args es hs h
      obtain ⟨h1, h2⟩ := metricExps_zip h
      exact ⟨h1, fun p hp => ih p.1 (hs p.1 (List.of_mem_zip hp).1) (h2 p hp)⟩
    unfold metricExp at h
    split at h
    all_goals first
      | (rename_i heq; cases heq; done)
      | (rename_i args heq
         cases heq
         obtain ⟨es, h1, h⟩ := bind_ok_iff.1 h
         obtain ⟨_, h2, h⟩ := bind_ok_iff.1 h
         simp only [pure_ok, Except.ok.injEq] at h
         subst h
         obtain ⟨a, b⟩ := hall (by simp +contextual) h1
         exact within_construct _ _ a b)
      | (rename_i heq; cases heq
         obtain ⟨f, h1, h⟩ := bind_ok_iff.1 h
         simp only [pure_ok, Except.ok.injEq] at h
         subst h
         exact basicFunction_within h1)
      | cases h

theorem dropKeyword_tokens {k : Str} {ts us : List Tree} (h : dropKeyword k ts = some us) :
    tokensAll us ≤ tokensAll ts ∧ bracketsAll us ≤ bracketsAll ts := by
  obtain ⟨w, rest, rfl, _, ⟨rfl, _⟩ | ⟨c, cs, rfl, _⟩⟩ := dropKeyword_some h
  · simp only [tokensAll, tokens, bracketsAll]; omega
  · simp only [tokensAll, tokens, bracketsAll, brackets]; omega

theorem metricSpec_size {body : List Tree} {m : Metric} (h : metricSpec body = .ok m) :
    nodes m.expr ≤ tokensAll body ∧ nesting m.expr ≤ bracketsAll body := by
  unfold metricSpec at h
  split at h
  · rename_i t hk
    simp only [bind_ok_iff, pure_ok, Except.ok.injEq] at h
    obtain ⟨e, h1, rfl⟩ := h
    obtain ⟨k1, k2⟩ := metricExp_within h1
    obtain ⟨k3, k4⟩ := dropKeyword_tokens hk
    simp only [tokensAll, bracketsAll] at *; omega
  · cases h
  · split at h
    · rename_i t hk
      simp only [bind_ok_iff, pure_ok, Except.ok.injEq] at h
      obtain ⟨e, h1, rfl⟩ := h
      obtain ⟨k1, k2⟩ := metricExp_within h1
      obtain ⟨k3, k4⟩ := dropKeyword_tokens hk
      simp only [tokensAll, bracketsAll] at *; omega
    · cases h

theorem problemMetric_size {ts : List Tree} {m : Option Metric} (h : problemMetric ts = .ok m) :
    metricNodes m ≤ tokensAll ts ∧
    (∀ x, m = some x → 1 + nesting x.expr ≤ bracketsAll ts) := by
  unfold problemMetric at h
  split at h
  · simp only [pure_ok, Except.ok.injEq] at h
    subst h
    simp [metricNodes]
  · generalize hq : takeSection s%"metric" ts = q at h
    split at h
    · rename_i body
      simp only [bind_ok_iff, pure_ok, Except.ok.injEq] at h
      obtain ⟨x, h1, rfl⟩ := h
      obtain ⟨k1, k2⟩ := metricSpec_size h1
      have hs := takeSection_some hq
      refine ⟨?_, ?_⟩
      · rw [hs]; simp only [metricNodes, tokensAll, tokens]; omega
      · rintro y ⟨⟩
        rw [hs]; simp only [bracketsAll, brackets]; omega
    · cases h

theorem problemObjects_length {body : List Tree} {objs : List Term} {σ : List (Str × Term)}
    (h : problemObjects body = .ok (objs, σ)) : objs.length ≤ tokensAll body := by
  unfold problemObjects at h
  simp only [bind_ok_iff, pure_ok, Except.ok.injEq, Prod.mk.injEq] at h
  obtain ⟨l, h1, c, h2, rfl, _⟩ := h
  have h3 := parseTypedNames_length h1
  have h4 := dictOf_length c
  rw [mkConsts_ok h2] at h4 ⊢
  simp only [List.length_map] at h4 ⊢
  omega

theorem mapM_within {f : Tree → Except Exc Expr} (hf : ∀ t e, f t = .ok e → NoLarger e t) {ts : List Tree} {es : List Expr}
    (h : ts.mapM f = .ok es) : nodesAll es ≤ tokensAll ts ∧ nestingAll es ≤ bracketsAll ts := by
  have h := mapM_ok_iff.1 h
  exact within_all h.length_eq (fun p hp => hf _ _ ((List.forall₂_iff_zip.1 h).2 hp))

theorem parseReqs_length {rs : Option (List Req)} {rs' : Option (List Req)} (h : parseReqs none rs = .ok rs') :
    (rs'.getD []).length ≤ (rs.getD []).length := by
  unfold parseReqs at h
  cases rs with
  | none => simp at h; subst h; simp
  | some l =>
    simp at h
    subst h
    exact (dedupBy_sublist _).length_le

theorem problemDef_size {F : FloatOf} {σ σ' : List (Str × Term)} {ts : List Tree} {p : Problem}
    (P : ProblemParse F σ ts p σ') :
    problemNodes p ≤ tokensAll ts ∧ 1 + nestingAll p.init ≤ bracketsAll ts ∧ 1 + nesting p.goal ≤ bracketsAll ts ∧
    ∀ m, p.metric = some m → 1 + nesting m.expr ≤ bracketsAll ts := by
  obtain ⟨a0, b0⟩ := header_tokens P.hheader
  obtain ⟨a1, b1⟩ := takeSection_tokens P.htake1
  obtain ⟨a2, b2⟩ := takeSection_tokens P.htake2
  obtain ⟨a3, b3⟩ := mapM_within (fun t e => initEl_within) P.hinit
  obtain ⟨a4, b4⟩ := (gd_iff.1 P.hgoal).within (goalEnv_frugal F)
  obtain ⟨a5, b5⟩ := problemMetric_size P.hmetric
  have hts4 := P.hts4
  rw [hts4] at a2 b2
  simp only [tokensAll, tokens, bracketsAll, brackets] at a0 a2 b0 b2
  have e1 : (P.reqs.getD []).length ≤ sectionTokens P.r1 := by
    rcases P.hreqs with ⟨h, h'⟩ | ⟨b, rs, h, h', h''⟩
    · rw [h, h']; simp
    · rw [h, h'']; have := parseRequirements_length h'; simp only [sectionTokens, Option.getD_some]; omega
  have e2 : P.objs.length ≤ sectionTokens P.r2 := by
    rcases P.hobjs with ⟨h, h', _⟩ | ⟨b, h, h'⟩
    · rw [h, h']; simp
    · rw [h]; have := problemObjects_length h'; simp only [sectionTokens]; omega
  have hp := P.hproblem
  unfold mkProblem at hp
  simp only [bind_ok_iff, pure_ok, Except.ok.injEq] at hp
  obtain ⟨_, _, _, _, rs, h1, _, _, _, _, hp⟩ := hp
  rw [← hp]
  have h1 := parseReqs_length h1
  have h2 := (dedupBy_sublist (eq := Term.pyEq) P.objs).length_le
  have h3 := nodesAll_sublist (dedupBy_sublist (eq := Expr.pyEq) P.init)
  have h4 : nestingAll (dedupBy Expr.pyEq P.init) ≤ nestingAll P.init :=
    nestingAll_le.2 (fun e he => nestingAll_le.1 (Nat.le_refl _) e (dedupBy_subset he))
  refine ⟨?_, ?_, ?_, ?_⟩
  · simp only [problemNodes, Option.getD_some]; omega
  · simp only; omega
  · simp only [Option.getD_some]; omega
  · intro m hm
    have := b5 m hm
    omega

/-! ### Plans -/

theorem groundAction_size {t : Tree} {s : Str × List Term} (h : groundAction t = .ok s) : 1 + s.2.length ≤ tokens t := by
  unfold groundAction at h
  split at h
  · split at h
    · cases h
    · rename_i ns h1
      simp only [bind_ok_iff, pure_ok, Except.ok.injEq] at h
      obtain ⟨ts, h2, rfl⟩ := h
      have k1 := namesOnly_length h1
      have k2 := (mapM_ok_iff.1 h2).length_eq
      simp only [tokens, tokensAll]; omega
  · cases h

/-! ### Tokens and characters -/

open Grammar in
theorem brackets_tokens {toks : List Tok} {ts : List Tree} (h : Brackets toks ts) : tokensAll ts = toks.length := by
  induction h with
  | nil => rfl
  | token _ _ _ ih => simp only [tokensAll, tokens, List.length_cons]; omega
  | group _ _ ih1 ih2 => simp only [tokensAll, tokens, List.length_cons, List.length_append]; omega

theorem readText_tokens {t : Str} {ts : List Tree} (h : readText t = .ok ts) : tokensAll ts = (lex t).length :=
  brackets_tokens (readText_brackets.1 h)

/-- The characters a state of the lexer has read and not yet turned into tokens. -/
def LSt.pending : LSt → Nat
  | .start => 0
  | .comment => 0
  | .word _ => 1
  | .num _ => 1
  | .numDot _ => 2
  | .colon a => 1 + a.length
  | .gt => 1
  | .lt => 1

theorem LSt.flush_length (s : LSt) : s.flush.length ≤ s.pending := by
  cases s <;> simp only [LSt.flush, LSt.pending, List.length_cons, List.length_nil] <;> try omega
  rename_i a
  unfold colonToks
  split
  · simp
  · rename_i k _
    have := List.length_drop (i := k.length) (l := a)
    split
    · simp
    · rename_i c cs h
      rw [h] at this
      simp only [List.length_cons] at this
      split <;> simp only [List.length_cons, List.length_nil] <;> omega

theorem lexBegin_length (c : Char) : (lexBegin c).1.length + (lexBegin c).2.pending ≤ 1 := by
  have key : ∀ {b : Prop} [Decidable b] {x y : List Tok × LSt}, x.1.length + x.2.pending ≤ 1 → y.1.length + y.2.pending ≤ 1 →
      (if b then x else y).1.length + (if b then x else y).2.pending ≤ 1 := by
    intro b _ x y h1 h2
    by_cases hb : b
    · rw [if_pos hb]; exact h1
    · rw [if_neg hb]; exact h2
  unfold lexBegin
  iterate 15 refine key (by simp [LSt.pending]) ?_
  simp [LSt.pending]

theorem LSt.step_length (s : LSt) (c : Char) : (s.step c).1.length + (s.step c).2.pending ≤ s.pending + 1 := by
  unfold LSt.step
  split
  · rename_i r h
    unfold LSt.ext at h
    repeat' split at h
    all_goals first
      | (cases h; done)
      | (simp only [Option.some.injEq] at h; subst h; simp [LSt.pending]; done)
      | (simp only [Option.some.injEq] at h; subst h; simp [LSt.pending]; omega)
  · have h1 := s.flush_length
    have h2 := lexBegin_length c
    simp only [List.length_append]
    omega

theorem LSt.run_length (s : LSt) (t : Str) : (s.run t).length ≤ s.pending + t.length := by
  induction t generalizing s with
  | nil => simpa [LSt.run] using s.flush_length
  | cons c t ih =>
    have h1 := s.step_length c
    have h2 := ih (s.step c).2
    simp only [LSt.run, List.length_append, List.length_cons]
    omega

theorem lex_length (t : Str) : (lex t).length ≤ t.length := by
  have := LSt.run_length .start t
  simpa [lex, LSt.pending] using this

end Pddl
