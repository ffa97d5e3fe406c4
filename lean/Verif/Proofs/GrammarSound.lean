/-
What the parser accepts follows the grammar.
-/
import Verif.Proofs.TokenShape
import Verif.Spec.Grammar
import Verif.Proofs.ParseDom
import Verif.Proofs.ParseProb
import Verif.Proofs.TypedText
import Verif.Proofs.NamesText
import Verif.Proofs.Gate

namespace Pddl
open Spec Spec.Grammar

theorem terms_grammar {E : GEnv} {ts : List Tree} : ∀ {us}, E.terms ts = .ok us → Terms ts := by
  fun_induction GEnv.terms E ts with
  | case1 => intro _ _; exact .nil
  | case2 n ts ih =>
    intro us h
    obtain ⟨_, _, h⟩ := bind_ok_iff.1 h
    obtain ⟨_, h, _⟩ := bind_ok_iff.1 h
    exact .constant n (ih h)
  | case3 n ts ih =>
    intro us h
    obtain ⟨_, _, h⟩ := bind_ok_iff.1 h
    obtain ⟨_, h, _⟩ := bind_ok_iff.1 h
    exact .variable n (ih h)
  | case4 => intro us h; cases h

theorem terms_cons_ok {E : GEnv} {ts : List Tree} {u : Term} {us : List Term} (h : E.terms ts = .ok (u :: us)) :
    ∃ a b, Term1 a ∧ ts = a ++ b ∧ E.terms b = .ok us := by
  unfold GEnv.terms at h
  split at h
  · cases h
  · rename_i n ts
    obtain ⟨_, _, h⟩ := bind_ok_iff.1 h
    obtain ⟨_, h1, h⟩ := bind_ok_iff.1 h
    simp only [pure_ok, Except.ok.injEq, List.cons.injEq] at h
    exact ⟨[word n], ts, .constant n, rfl, by rw [h1, h.2]⟩
  · rename_i n ts
    obtain ⟨_, _, h⟩ := bind_ok_iff.1 h
    obtain ⟨_, h1, h⟩ := bind_ok_iff.1 h
    simp only [pure_ok, Except.ok.injEq, List.cons.injEq] at h
    exact ⟨[.atom .qmark, word n], ts, .variable n, rfl, by rw [h1, h.2]⟩
  · cases h

theorem terms_nil_ok {E : GEnv} {ts : List Tree} (h : E.terms ts = .ok []) : ts = [] := by
  unfold GEnv.terms at h
  split at h
  · rfl
  · obtain ⟨_, _, h⟩ := bind_ok_iff.1 h
    obtain ⟨_, h1, h⟩ := bind_ok_iff.1 h
    cases h
  · obtain ⟨_, _, h⟩ := bind_ok_iff.1 h
    obtain ⟨_, h1, h⟩ := bind_ok_iff.1 h
    cases h
  · cases h

theorem terms_two {E : GEnv} {ts : List Tree} {l r : Term} (h : E.terms ts = .ok [l, r]) :
    ∃ a b, Term1 a ∧ Term1 b ∧ ts = a ++ b := by
  obtain ⟨a, b, ha, hab, h1⟩ := terms_cons_ok h
  obtain ⟨b', c, hb, hbc, h2⟩ := terms_cons_ok h1
  rw [terms_nil_ok h2] at hbc
  exact ⟨a, b', ha, hb, by rw [hab, hbc]; simp⟩

theorem mem_of_zip {α β} {P : α → Prop} {as : List α} {bs : List β} (he : as.length = bs.length)
    (h : ∀ p ∈ as.zip bs, P p.1) {a : α} (ha : a ∈ as) : P a := by
  obtain ⟨y, hy⟩ := Pairs.mem_left (R := fun a _ => P a) ⟨he, h⟩ ha
  exact hy.2

theorem FRel.grammar {E : GEnv} {t : Tree} {e : Expr} (G : Prop) (h : FRel E t e) : FExp G t := by
  induction h with
  | num _ => exact .literal _
  | @plus args es hl he _ ih =>
    refine .plus hl (fun t ht => ?_)
    exact mem_of_zip he ih ht
  | @times args es hl he _ ih =>
    refine .times hl (fun t ht => ?_)
    exact mem_of_zip he ih ht
  | divide _ _ ih1 ih2 => exact .divide ih1 ih2
  | minus _ ih => exact .negate ih
  | fn0 _ => exact .head (.name _)
  | fn h _ => exact .head (.args _ (terms_grammar h))

theorem atomic_grammar {E : GEnv} {ts : List Tree} {e : Expr} {kws : List Str} (h : E.atomic ts = .ok e)
    (hk : ∀ w args, ts = .atom (.name w) :: args → w ∉ kws) : Atomic kws (.node ts) := by
  match ts, h with
  | .atom .eq :: args, h =>
    obtain ⟨l, r, ht, _⟩ := atomic_eq_ok.1 h
    obtain ⟨a, b, ha, hb, rfl⟩ := terms_two ht
    exact .equal ha hb
  | .atom (.name n) :: args, h =>
    obtain ⟨ts, p, ht, _⟩ := atomic_name_ok.1 h
    exact .predicate n (hk n args rfl) (terms_grammar ht)

theorem typedVars_grammar {ts : List Tree} {toks : List TTok} (h : typedVarToks false ts = some toks) : TypedVars ts := by
  obtain ⟨l, hl, _⟩ := typedVarToks_iff.1 h
  exact ⟨l, hl⟩

theorem GRel.grammar {E : GEnv} {t : Tree} {e : Expr} (G : Prop) (h : GRel E t e) : Gd G t := by
  induction h with
  | and he _ ih =>
    refine .and (fun t ht => ?_)
    exact mem_of_zip he ih ht
  | or he _ _ ih =>
    refine .or (fun t ht => ?_)
    exact mem_of_zip he ih ht
  | not _ ih => exact .not ih
  | imply _ _ _ ih1 ih2 => exact .imply ih1 ih2
  | @quant q _ _ _ _ _ _ hv _ _ _ _ ih =>
    cases q
    · exact .forall (typedVars_grammar hv) ih
    · exact .exists (typedVars_grammar hv) ih
  | atom hn ht _ =>
    refine .atomic (.predicate _ ?_ (terms_grammar ht))
    intro hm
    apply hn
    simp only [gdWords, List.mem_cons, List.not_mem_nil, or_false] at hm
    simp only [gdKeywords, List.mem_cons, List.not_mem_nil, or_false]
    tauto
  | eq _ ht _ _ =>
    obtain ⟨a, b, ha, hb, rfl⟩ := terms_two ht
    exact .atomic (.equal ha hb)
  | @comp t op a b e e' hc hs ha hb =>
    have fa := (fExp_rel ha).grammar G
    have fb := (fExp_rel hb).grammar G
    cases t <;> simp only [compOp, reduceCtorEq] at hc
    · refine .equal (.inr ?_) fa fb
      rintro n rfl
      have := hs rfl
      simp [startsWithTerm, word] at this
    all_goals exact .compare (by simp) fa fb

theorem fHead_grammar {E : GEnv} {t : Tree} {f : NFun} (h : E.fHead t = .ok f) : FHead t := by
  unfold GEnv.fHead at h
  split at h
  · exact .name _
  · obtain ⟨_, ht, _⟩ := bind_ok_iff.1 h
    exact .args _ (terms_grammar ht)
  · cases h

theorem assignOp_mem {w : Str} {op : FOp} (h : assignOp w = some op) : w ∈ assignWords := by
  unfold assignOp at h
  unfold assignWords
  split at h
  · simp_all
  split at h
  · simp_all
  split at h
  · simp_all
  split at h
  · simp_all
  split at h
  · simp_all
  cases h

theorem assignOp_not_mem {w : Str} (h : assignOp w = none) : w ∉ assignWords := by
  unfold assignOp at h
  split at h
  · cases h
  split at h
  · cases h
  split at h
  · cases h
  split at h
  · cases h
  split at h
  · cases h
  simp_all [assignWords]

theorem PRel.grammar {E : GEnv} {t : Tree} {e : Expr} (G : Prop) {kws : List Str} (h : PRel E t e)
    (hk : ∀ w args, t = .node (.atom (.name w) :: args) → w ∉ kws) : PEffect G kws t := by
  cases h with
  | not h => exact .not (atomic_grammar h (by simp))
  | assign hw hh hx => exact .num (assignOp_mem hw) (fHead_grammar hh) ((fExp_rel hx).grammar G)
  | @atom w args _ hn ha h =>
    refine .atomic (atomic_grammar h ?_)
    rintro w' args' heq
    simp only [List.cons.injEq, Tree.atom.injEq, Tok.name.injEq] at heq
    obtain ⟨rfl, rfl⟩ := heq
    simp only [List.cons_append, List.mem_cons, List.mem_append, not_or]
    exact ⟨hn, assignOp_not_mem ha, hk w args rfl⟩
  | eq h => exact .atomic (atomic_grammar h (by simp))

theorem CRel.grammar {E : GEnv} {t : Tree} {e : Expr} (G : Prop) (h : CRel E t e) : CondEffect G t := by
  cases h with
  | and h =>
    refine .and (fun t ht => ?_)
    obtain ⟨y, hy⟩ := Pairs.mem_left h ht
    exact hy.2.grammar G (by simp)
  | one hn h =>
    refine .one (h.grammar G ?_)
    rintro w args rfl
    simp only [List.mem_cons, List.not_mem_nil, or_false]
    rintro rfl
    exact hn args rfl

theorem ERel.grammar {E : GEnv} {top : Bool} {t : Tree} {e : Expr} (G : Prop) (h : ERel E top t e) : Effect G top t := by
  induction h with
  | and he _ ih =>
    refine .and (fun t ht => ?_)
    exact mem_of_zip he ih ht
  | fall hv _ _ _ ih => exact .forall (typedVars_grammar hv) ih
  | when hc ht => exact .when ((gd_rel hc).grammar G) ((condEffect_iff.1 ht).grammar G)
  | oneof hl he _ _ ih =>
    refine .oneof (by rintro rfl; simp at hl) (fun t ht => ?_)
    exact mem_of_zip he ih ht
  | @lit top t e hn h =>
    refine .one ((pEffect_iff.1 h).grammar G ?_)
    intro w args hw
    obtain ⟨h1, h2⟩ := hn w args hw
    simp only [List.mem_append, not_or]
    refine ⟨?_, ?_⟩
    · simp only [effKeywords, List.mem_cons, List.not_mem_nil, or_false] at h1
      simp only [effectWords, List.mem_cons, List.not_mem_nil, or_false]
      tauto
    · cases top
      · simp
      · simpa using h2 rfl

theorem dropKeyword_grammar {k : Str} {ts rest : List Tree} : dropKeyword k ts = some rest ↔ Keyword k ts rest := by
  constructor
  · intro h
    unfold dropKeyword at h
    split at h
    · rename_i w r
      split at h
      · rename_i hp
        obtain ⟨s, rfl⟩ := List.isPrefixOf_iff_prefix.1 hp
        simp only [List.drop_left] at h
        split at h
        · simp only [Option.some.injEq] at h
          subst h
          simpa [word] using Keyword.word (k := k) r
        · rename_i c cs
          split at h
          · rename_i hc
            simp only [Option.some.injEq] at h
            subst h
            exact .fused c cs r hc
          · cases h
      · cases h
    · cases h
  · intro h
    cases h with
    | word rest => simp [dropKeyword, word]
    | fused c cs rest hc => simp [dropKeyword, word, hc]

theorem header_grammar {k : Str} {ts rest : List Tree} {n : Str} (h : header k ts = .ok (n, rest)) :
    ∃ t, Header k t ∧ ts = word s%"define" :: t :: rest := by
  unfold header at h
  split at h
  · rename_i hd r hd1
    split at h
    · rename_i n' hd2
      simp only [pure_ok, Except.ok.injEq, Prod.mk.injEq] at h
      obtain ⟨rfl, rfl⟩ := h
      refine ⟨.node hd, ⟨hd, n', rfl, dropKeyword_grammar.1 hd2⟩, ?_⟩
      have := dropKeyword_grammar.1 hd1
      generalize hg : Tree.node hd :: r = x at this
      cases this with
      | word rest => rfl
      | fused c cs rest hc => simp [word] at hg
    · cases h
  · cases h

theorem requirements_grammar {b : List Tree} {rs} (h : parseRequirements b = .ok rs) : Requirements b := by
  unfold parseRequirements at h
  split at h
  · cases h
  · rename_i hne
    refine ⟨hne, fun t ht => ?_⟩
    split at h
    · rename_i l hl
      obtain ⟨r, hr⟩ : ∃ r, requireKey t = some r := by
        clear h hne
        induction b generalizing l with
        | nil => cases ht
        | cons a b ih =>
          simp only [List.mapM_cons, Option.bind_eq_bind, Option.pure_def, Option.bind_eq_some_iff] at hl
          obtain ⟨x, hx, y, hy, _⟩ := hl
          rcases List.mem_cons.1 ht with rfl | ht
          · exact ⟨x, hx⟩
          · exact ih ht y hy
      unfold requireKey at hr
      split at hr
      · rename_i k
        refine ⟨k, ?_, rfl⟩
        have h1 := List.mem_of_find?_eq_some hr
        have h2 := List.find?_some hr
        simp only [decide_eq_true_eq] at h2
        subst h2
        clear hr ht hl h
        cases r <;> first | decide | exact absurd h1 (by decide)
      · cases hr
    · cases h

theorem typedNames_grammar {b : List Tree} {l} (h : parseTypedNames b = .ok l) : TypedNames b := by
  unfold parseTypedNames at h
  split at h
  · rename_i toks ht
    obtain ⟨l, h1, h2, _⟩ := typedNameToks_iff.1 ht
    exact ⟨l, h2, h1⟩
  · cases h

theorem parseTypedVars_grammar {b : List Tree} {l} (h : parseTypedVars b = .ok l) : TypedVars b := by
  unfold parseTypedVars at h
  split at h
  · rename_i toks ht
    exact typedVars_grammar ht
  · cases h

theorem formulaSkeleton_grammar {t : Tree} {p : Pred} (h : formulaSkeleton t = .ok p) : Skeleton t := by
  unfold formulaSkeleton at h
  split at h
  · obtain ⟨_, hv, _⟩ := bind_ok_iff.1 h
    exact .mk _ (parseTypedVars_grammar hv)
  · cases h

theorem functionSkeleton_grammar {t : Tree} {p : NFun} (h : functionSkeleton t = .ok p) : Skeleton t := by
  unfold functionSkeleton at h
  split at h
  · split at h
    · cases h
    · rename_i ht
      exact .mk _ (typedVars_grammar ht)
  · cases h

/-- Functions after some skeletons of an open group. -/
def FunctionsAfter (b : Bool) (ts : List Tree) : Prop :=
  ∀ pre, (b = true → pre ≠ []) → (b = false → pre = []) → (∀ t ∈ pre, Skeleton t) → Functions (pre ++ ts)

theorem functionToks_grammar {b : Bool} {ts : List Tree} : ∀ {us}, functionToks b ts = .ok us → FunctionsAfter b ts := by
  fun_induction functionToks b ts with
  | case1 b => intro _ _ pre _ _ hp; simpa using Functions.rest hp
  | case2 t ts ih =>
    intro us h pre h1 _ hp
    obtain ⟨_, hc, h'⟩ := bind_ok_iff.1 h
    obtain ⟨_, h3, _⟩ := bind_ok_iff.1 h'
    have ht : t = s%"number" := by simpa [check_ok] using hc
    subst ht
    exact .group (h1 rfl) hp (by simpa using ih h3 [] (by simp) (by simp) (by simp))
  | case3 b bd ts ih =>
    intro us h pre h1 h2 hp
    obtain ⟨f, hf, h⟩ := bind_ok_iff.1 h
    obtain ⟨_, h, _⟩ := bind_ok_iff.1 h
    have := ih h (pre ++ [.node bd]) (by simp) (by simp) (by
      intro t ht
      rcases List.mem_append.1 ht with ht | ht
      · exact hp t ht
      · simp only [List.mem_cons, List.not_mem_nil, or_false] at ht
        subst ht
        exact functionSkeleton_grammar hf)
    simpa using this
  | case4 => intro us h; cases h

theorem sectionFunctions_grammar {b : List Tree} {fs : FunDict} (h : sectionFunctions b = .ok fs) : b ≠ [] ∧ Functions b := by
  unfold sectionFunctions at h
  obtain ⟨_, ht, h⟩ := bind_ok_iff.1 h
  obtain ⟨_, hc, h⟩ := bind_ok_iff.1 h
  refine ⟨?_, by simpa using functionToks_grammar ht [] (by simp) (by simp) (by simp)⟩
  rintro rfl
  simp [check_ok] at hc

theorem preGd_grammar {E : GEnv} {t : Tree} {e : Expr} (G : Prop) (h : E.preGd t = .ok e) : PreGd G t := by
  unfold GEnv.preGd at h
  split at h
  · exact .inl rfl
  · exact .inr ((gd_rel h).grammar G)

theorem effOpt_grammar {E : GEnv} {t : Tree} {e : Expr} (G : Prop) (h : E.effOpt t = .ok e) : EffectOrEmpty G t := by
  unfold GEnv.effOpt at h
  split at h
  · exact .inl rfl
  · exact .inr ((effect_rel h).grammar G)

theorem actionDef_grammar {F : FloatOf} {σ σ' : PState} {b : List Tree} {a : Action} (G : Prop)
    (h : actionDef F σ b = .ok (a, σ')) : Structure G (section_ s%"action" b) := by
  obtain ⟨n, ps, pre, eff, params, p, e, rfl, hps, -, hp, he, -⟩ := actionDef_ok h
  exact .action n (by
    unfold actionParameters at hps
    obtain ⟨_, hv, _⟩ := bind_ok_iff.1 hps
    exact parseTypedVars_grammar hv) (.both (preGd_grammar G hp) (effOpt_grammar G he))

theorem derivedDef_grammar {F : FloatOf} {σ : PState} {b : List Tree} {d : Derived} (G : Prop)
    (h : derivedDef F σ b = .ok d) : Structure G (section_ s%"derived" b) := by
  unfold derivedDef at h
  split at h
  · obtain ⟨_, h1, h⟩ := bind_ok_iff.1 h
    obtain ⟨_, h2, h⟩ := bind_ok_iff.1 h
    exact .derived (formulaSkeleton_grammar h1) ((gd_rel h2).grammar G)
  · cases h

theorem structures_grammar {F : FloatOf} {ts : List Tree} (G : Prop) : ∀ {σ : PState} {r}, structures F σ ts = .ok r →
    ∀ t ∈ ts, Structure G t := by
  induction ts with
  | nil => intro σ r _ t ht; cases ht
  | cons a ts ih =>
    intro σ r h
    unfold structures at h
    split at h
    · rename_i heq; cases heq
    · rename_i heq
      simp only [List.cons.injEq] at heq
      obtain ⟨rfl, rfl⟩ := heq
      split at h
      · rename_i hk
        subst hk
        obtain ⟨⟨a, σ1⟩, h1, h⟩ := bind_ok_iff.1 h
        obtain ⟨_, h2, _⟩ := bind_ok_iff.1 h
        intro t ht
        rcases List.mem_cons.1 ht with rfl | ht
        · exact actionDef_grammar G h1
        · exact ih h2 t ht
      · split at h
        · rename_i hk
          subst hk
          obtain ⟨d, h1, h⟩ := bind_ok_iff.1 h
          obtain ⟨_, h2, _⟩ := bind_ok_iff.1 h
          intro t ht
          rcases List.mem_cons.1 ht with rfl | ht
          · exact derivedDef_grammar G h1
          · exact ih h2 t ht
        · cases h
    · cases h

theorem opt_grammar {k : Str} {P : List Tree → Prop} {ts rest : List Tree} {o : Option (List Tree)}
    (h : takeSection k ts = (o, rest)) (hp : ∀ b, o = some b → P b) : ∃ l, Opt k P l ∧ ts = l ++ rest := by
  cases o with
  | none => exact ⟨[], .absent, by rw [takeSection_none h]; rfl⟩
  | some b => exact ⟨[section_ k b], .present (hp b rfl), by rw [takeSection_some h]; rfl⟩

theorem DomainParse.grammar {F σ ts d σ'} (P : DomainParse F σ ts d σ') (G : Prop) : Grammar.Domain G (.node ts) := by
  obtain ⟨t, ht, hts⟩ := header_grammar P.hheader
  obtain ⟨rq, h1, e1⟩ := opt_grammar (P := Requirements) P.h1 (by
    intro b hb
    rcases P.hreqs with ⟨h, _⟩ | ⟨b', h, h', _⟩
    · rw [hb] at h; cases h
    · rw [hb] at h; cases h; exact requirements_grammar h')
  obtain ⟨ty, h2, e2⟩ := opt_grammar (P := TypedNames) P.h2 (by
    intro b hb
    rcases P.htypes with ⟨h, _⟩ | ⟨b', h, h'⟩
    · rw [hb] at h; cases h
    · rw [hb] at h; cases h
      unfold sectionTypes at h'
      obtain ⟨_, h', _⟩ := bind_ok_iff.1 h'
      exact typedNames_grammar h')
  obtain ⟨cs, h3, e3⟩ := opt_grammar (P := TypedNames) P.h3 (by
    intro b hb
    rcases P.hconsts with ⟨h, _⟩ | ⟨b', h, h'⟩
    · rw [hb] at h; cases h
    · rw [hb] at h; cases h
      unfold sectionConstants at h'
      obtain ⟨_, h', _⟩ := bind_ok_iff.1 h'
      exact typedNames_grammar h')
  obtain ⟨ps, h4, e4⟩ := opt_grammar (P := fun b => b ≠ [] ∧ ∀ t ∈ b, Skeleton t) P.h4 (by
    intro b hb
    rcases P.hpreds with ⟨h, _⟩ | ⟨b', h, h'⟩
    · rw [hb] at h; cases h
    · rw [hb] at h; cases h
      unfold sectionPredicates at h'
      obtain ⟨_, hm, h'⟩ := bind_ok_iff.1 h'
      obtain ⟨_, hc, _⟩ := bind_ok_iff.1 h'
      refine ⟨by rintro rfl; simp [check_ok] at hc, fun t ht => ?_⟩
      obtain ⟨y, _, hy⟩ := mapM_ok_mem hm ht
      exact formulaSkeleton_grammar hy)
  obtain ⟨fs, h5, e5⟩ := opt_grammar (P := fun b => b ≠ [] ∧ Functions b) P.h5 (by
    intro b hb
    rcases P.hfuns with ⟨h, _⟩ | ⟨b', h, h'⟩
    · rw [hb] at h; cases h
    · rw [hb] at h; cases h; exact sectionFunctions_grammar h')
  refine ⟨t, rq, ty, cs, ps, fs, P.ts5, ?_, ht, h1, h2, h3, h4, h5, structures_grammar G P.hstruct⟩
  have : ts = word s%"define" :: t :: (rq ++ ty ++ cs ++ ps ++ fs ++ P.ts5) := by
    refine hts.trans ?_
    rw [e1, e2, e3, e4, e5]
    simp
  exact congrArg Tree.node this

theorem names_grammar {ts : List Tree} {ns : List Str} (h : namesOnly ts = some ns) : Names ts :=
  ⟨ns, namesOnly_some h⟩

theorem atomicName_grammar {objs : List (Str × Term)} {ts : List Tree} {e : Expr} {kws : List Str}
    (h : atomicName objs ts = .ok e) (hk : ∀ w args, ts = .atom (.name w) :: args → w ∉ kws) : Ground kws (.node ts) := by
  unfold atomicName at h
  split at h
  · split at h
    · cases h
    · rename_i ns hn
      exact .mk _ (hk _ _ rfl) (names_grammar hn)
  · cases h

theorem basicFunction_grammar {t : Tree} {f : NFun} (h : basicFunction t = .ok f) : BasicFunction t := by
  unfold basicFunction at h
  split at h
  · exact .name _
  · split at h
    · cases h
    · rename_i ns hn
      exact .args _ (names_grammar hn)
  · cases h

theorem initEl_grammar {F : FloatOf} {objs : List (Str × Term)} {t : Tree} {e : Expr} (h : initEl F objs t = .ok e) :
    InitEl t := by
  unfold initEl at h
  split at h
  · split at h
    · obtain ⟨_, hf, _⟩ := bind_ok_iff.1 h
      exact .value _ (basicFunction_grammar hf)
    · cases h
  · split at h
    · rename_i w args hw
      subst hw
      split at h
      · obtain ⟨_, ha, _⟩ := bind_ok_iff.1 h
        exact .not (atomicName_grammar ha (by simp))
      · cases h
    · rename_i w args hw
      refine .fact (atomicName_grammar h ?_)
      rintro w' args' heq
      simp only [List.cons.injEq, Tree.atom.injEq, Tok.name.injEq] at heq
      obtain ⟨rfl, rfl⟩ := heq
      simpa using hw
  · cases h

theorem metricExps_mem {ts : List Tree} : ∀ {es}, metricExps ts = .ok es → ∀ t ∈ ts, ∃ e, metricExp t = .ok e := by
  induction ts with
  | nil => intro _ _ t ht; cases ht
  | cons a ts ih =>
    intro es h t ht
    unfold metricExps at h
    obtain ⟨e, h1, h⟩ := bind_ok_iff.1 h
    obtain ⟨es', h2, _⟩ := bind_ok_iff.1 h
    rcases List.mem_cons.1 ht with rfl | ht
    · exact ⟨e, h1⟩
    · exact ih h2 t ht

theorem metricExp_grammar (G : Prop) {t : Tree} : ∀ {e}, metricExp t = .ok e → MetricExp G t := by
  induction t using Tree.ind with
  | hatom t =>
    intro e h
    unfold metricExp at h
    split at h
    all_goals first | (rename_i heq; cases heq <;> first | exact .literal _ | exact .function (.name _)) | cases h
  | hnode l ih =>
    intro e h
    have hall : ∀ {args es}, (∀ t ∈ args, t ∈ l) → metricExps args = .ok es → ∀ t ∈ args, MetricExp G t := by
      intro args es hs h t ht
      obtain ⟨e, he⟩ := metricExps_mem h t ht
      exact ih t (hs t ht) he
    unfold metricExp at h
    split at h
    · rename_i heq; cases heq
    · rename_i args heq
      cases heq
      obtain ⟨_, h1, h⟩ := bind_ok_iff.1 h
      obtain ⟨_, h2, _⟩ := bind_ok_iff.1 h
      simp only [check_ok, decide_eq_true_eq] at h2
      exact .plus h2 (hall (by simp +contextual) h1)
    · rename_i args heq
      cases heq
      obtain ⟨_, h1, h⟩ := bind_ok_iff.1 h
      obtain ⟨_, h2, _⟩ := bind_ok_iff.1 h
      simp only [check_ok, decide_eq_true_eq] at h2
      exact .times h2 (hall (by simp +contextual) h1)
    · rename_i args heq
      cases heq
      obtain ⟨_, h1, h⟩ := bind_ok_iff.1 h
      obtain ⟨_, h2, _⟩ := bind_ok_iff.1 h
      simp only [check_ok, decide_eq_true_eq] at h2
      obtain ⟨a, b, rfl⟩ := length_two h2
      have := hall (by simp +contextual) h1
      exact .divide (this a (by simp)) (this b (by simp))
    · rename_i args heq
      cases heq
      obtain ⟨_, h1, h⟩ := bind_ok_iff.1 h
      obtain ⟨_, h2, _⟩ := bind_ok_iff.1 h
      simp only [check_ok, decide_eq_true_eq] at h2
      obtain ⟨a, rfl⟩ := length_one h2
      exact .negate (hall (by simp +contextual) h1 a (by simp))
    · rename_i heq; cases heq
    · rename_i n args heq
      cases heq
      obtain ⟨_, h1, _⟩ := bind_ok_iff.1 h
      exact .function (basicFunction_grammar h1)
    · cases h

theorem metricSpec_grammar (G : Prop) {b : List Tree} {m : Pddl.Metric} (h : metricSpec b = .ok m) : Grammar.Metric G b := by
  unfold metricSpec at h
  split at h
  · rename_i t hd
    obtain ⟨_, h1, _⟩ := bind_ok_iff.1 h
    exact ⟨t, .inl (dropKeyword_grammar.1 hd), metricExp_grammar G h1⟩
  · cases h
  · split at h
    · rename_i t hd
      obtain ⟨_, h1, _⟩ := bind_ok_iff.1 h
      exact ⟨t, .inr (dropKeyword_grammar.1 hd), metricExp_grammar G h1⟩
    · cases h

theorem ProblemParse.grammar {F σ ts p σ'} (P : ProblemParse F σ ts p σ') (G : Prop) : Grammar.Problem G (.node ts) := by
  obtain ⟨t, ht, hts⟩ := header_grammar P.hheader
  obtain ⟨rq, h1, e1⟩ := opt_grammar (P := Requirements) P.htake1 (by
    intro b hb
    rcases P.hreqs with ⟨h, _⟩ | ⟨b', _, h, h', _⟩
    · rw [hb] at h; cases h
    · rw [hb] at h; cases h; exact requirements_grammar h')
  obtain ⟨os, h2, e2⟩ := opt_grammar (P := TypedNames) P.htake2 (by
    intro b hb
    rcases P.hobjs with ⟨h, _⟩ | ⟨b', h, h'⟩
    · rw [hb] at h; cases h
    · rw [hb] at h; cases h
      unfold problemObjects at h'
      obtain ⟨_, h', _⟩ := bind_ok_iff.1 h'
      exact typedNames_grammar h')
  have hm : Opt s%"metric" (Grammar.Metric G) P.ts5 := by
    have h := P.hmetric
    revert h
    generalize P.ts5 = x
    intro h
    unfold problemMetric at h
    split at h
    · exact .absent
    · split at h
      · rename_i b heq
        obtain ⟨m, h1, _⟩ := bind_ok_iff.1 h
        rw [takeSection_some heq]
        exact .present (metricSpec_grammar G h1)
      · cases h
  refine ⟨t, P.dn, rq, os, P.ib, P.g, P.ts5, ?_, ht, h1, h2, ?_, (gd_rel P.hgoal).grammar G, hm⟩
  · refine congrArg Tree.node (hts.trans ?_)
    rw [e1, e2, P.hts4]
    simp [section_, word]
  · intro i hi
    obtain ⟨y, _, hy⟩ := mapM_ok_mem P.hinit hi
    exact initEl_grammar hy

theorem groundAction_grammar {t : Tree} {x} (h : groundAction t = .ok x) : Ground [] t := by
  unfold groundAction at h
  split at h
  · split at h
    · cases h
    · rename_i ns hn
      exact .mk _ (by simp) (names_grammar hn)
  · cases h

theorem Spec.Grammar.Brackets.append {a b : List Tok} {ts us : List Tree} (ha : Brackets a ts) (hb : Brackets b us) :
    Brackets (a ++ b) (ts ++ us) := by
  induction ha with
  | nil => exact hb
  | token h1 h2 _ ih => exact .token h1 h2 ih
  | group h _ _ ih =>
    have := Brackets.group h ih
    simpa [List.append_assoc] using this

/-- The tokens of what has been read: the enclosing brackets, and the open one. -/
theorem readAux_brackets {ts : List Tok} : ∀ {cur st r}, readAux ts cur st = some r → ∀ c ss, Brackets c cur.reverse →
    List.Forall₂ (fun s (l : List Tree) => Brackets s l.reverse) ss st →
    Brackets ((ss.reverse.map (fun s => s ++ [Tok.lpar])).flatten ++ c ++ ts) r := by
  intro cur st r
  fun_induction readAux ts cur st with
  | case1 cur =>
    intro h c ss hc hs
    cases hs
    simp only [Option.some.injEq] at h
    subst h
    simpa using hc
  | case2 => intro h; cases h
  | case3 ts cur st ih =>
    intro h c ss hc hs
    have := ih h [] (c :: ss) .nil (.cons hc hs)
    simpa [List.append_assoc] using this
  | case4 => intro h; cases h
  | case5 ts cur s st ih =>
    intro h c ss hc hs
    cases hs with
    | cons hs1 hs2 =>
      rename_i s' ss'
      have := ih h (s' ++ (.lpar :: (c ++ [.rpar]))) ss' (by
        rw [List.reverse_cons]
        exact hs1.append (.group hc .nil)) hs2
      simpa [List.append_assoc] using this
  | case6 t ts cur st h1 h2 h3 ih =>
    intro h c ss hc hs
    have := ih h (c ++ [t]) ss (by
      rw [List.reverse_cons]
      exact hc.append (.token h1 (fun he => by cases st with | nil => exact h2 rfl he | cons s st => exact h3 s st rfl he) .nil)) hs
    simpa [List.append_assoc] using this

theorem Spec.Grammar.Brackets.reads {a : List Tok} {ts : List Tree} (h : Brackets a ts) : Reads a ts := by
  induction h with
  | nil => exact .nil
  | token h1 h2 _ ih => exact Reads.append (.atom h1 h2) ih
  | group _ _ ih1 ih2 =>
    have := Reads.append (.node ih1) ih2
    simpa [List.append_assoc] using this

theorem readText_brackets {t : Str} {ts : List Tree} : readText t = .ok ts ↔ Brackets (lex t) ts := by
  constructor
  · intro h
    unfold readText at h
    split at h
    · rename_i us hu
      simp only [pure_ok, Except.ok.injEq] at h
      subst h
      have := readAux_brackets hu [] [] .nil .nil
      simpa using this
    · cases h
  · intro h
    simp [readText, h.reads.readTrees]

end Pddl
