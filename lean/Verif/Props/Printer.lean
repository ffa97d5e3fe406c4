/- C39, C40: what is printed does not depend on the order of sets; the printed table of types. -/
import Verif.Proofs.TypeTable
import Verif.Proofs.Reorder
import Verif.Proofs.DecEq
import Verif.Model.ParseDomain

namespace Pddl.Props
open Pddl.Spec Pddl.Spec.Reorder

theorem joinStr_eq (sep : Str) (l : List Str) : joinStr sep l = (l.intersperse sep).flatten := by
  induction l with
  | nil => rfl
  | cons a l ih =>
    cases l with
    | nil => simp [joinStr]
    | cons b l => simp only [joinStr, List.intersperse_cons₂, List.flatten_cons, ih, List.append_assoc]

/-! ### C40 -/

/-- The statement in full: the table that is printed lists every declared type. -/
def C40_full : Prop :=
  ∀ (d d' : TypeDict) (rs : List Req), IsDict d → mkTypes d rs = .ok d' → d' ≠ [] →
    ∃ lines : List Line,
      typesSection d' = .ok (s%"(:types\n" ++ lines.flatMap Line.text ++ s%")\n") ∧
      TypeTable d lines ∧ (∀ t, Declared d t → ∃ l ∈ lines, t ∈ l.1)

/-- For every accepted hierarchy, printing succeeds, and the printed text is a complete table of
the types in which supertypes come first. (Partial: `object`, if declared, is not listed.) -/
theorem C40_partial (d d' : TypeDict) (rs : List Req) (hd : IsDict d) (h : mkTypes d rs = .ok d')
    (hne : d' ≠ []) :
    ∃ lines : List Line,
      typesSection d' = .ok (s%"(:types\n" ++ lines.flatMap Line.text ++ s%")\n") ∧
      TypeTable d lines ∧ (∀ t, Declared d t → t ≠ s%"object" → ∃ l ∈ lines, t ∈ l.1) := by
  obtain ⟨h1, h2, rfl⟩ := (mkTypes_ok hd).mp h
  have hpar : Parent (cleanDict d) = Parent d := by
    funext a b
    refine propext ?_
    rw [← parent_clean (d := d)]
    constructor
    · exact fun h => h.1
    · exact fun h => ⟨h, (parent_clean.1 h).2⟩
  have hdec : Declared (cleanDict d) = Declared d := by
    funext t
    refine propext ?_
    unfold Declared
    constructor
    · rintro ⟨p, hp, h⟩
      obtain ⟨q, hq, rfl⟩ := List.mem_map.1 hp
      refine ⟨q, hq, ?_⟩
      rcases h with h | ⟨h, hn⟩
      · exact Or.inl h
      · right
        refine ⟨?_, hn⟩
        revert h
        obtain ⟨a, b⟩ := q
        match b with
        | none => simp [cleanParent]
        | some [] => simp [cleanParent]
        | some (x :: b) => simp [cleanParent]
    · rintro ⟨q, hq, h⟩
      refine ⟨_, List.mem_map.2 ⟨q, hq, rfl⟩, ?_⟩
      rcases h with h | ⟨h, hn⟩
      · exact Or.inl h
      · right
        refine ⟨?_, hn⟩
        revert h
        obtain ⟨a, b⟩ := q
        match b with
        | none => simp
        | some [] => rintro h; simp at h; exact absurd h hn
        | some (x :: b) => simp [cleanParent]
  have hlu : ∀ t p, ListedUnder (cleanDict d) t p ↔ ListedUnder d t p := by
    intro t p
    constructor
    · intro h
      cases h with
      | given a b => exact .given (by rw [← hpar]; exact a) b
      | top a b c => exact .top (by rw [← hdec]; exact a) (by rw [← hpar]; exact b) c
    · intro h
      cases h with
      | given a b => exact .given (by rw [hpar]; exact a) b
      | top a b c => exact .top (by rw [hdec]; exact a) (by rw [hpar]; exact b) c
  obtain ⟨ls, hls, hT, _⟩ := typesLines_ok (d := cleanDict d) (isDict_clean hd)
    (fun t ht => (parent_clean.1 ht).2 rfl) (by rw [hpar]; exact h2.acyclic)
  refine ⟨_, ?_, ⟨fun t p => (hT.under t p).trans (hlu t p), hT.once, hT.groups, hT.before⟩, ?_⟩
  · unfold typesSection printTypes
    rw [if_neg hne, hls]
    simp only [bind, Except.bind, pure, Except.pure, List.flatMap_cons, Line.text, TypeLine.str,
      joinStr_eq, List.flatMap_def, List.append_assoc]
    have : ls.map TypeLine.str = ls.map Line.text := by
      apply List.map_congr_left
      intro l _
      simp only [TypeLine.str, Line.text, joinStr_eq]
    rw [this]
    simp [Line.text]
  · intro t ht hto
    have : ∃ p, ListedUnder d t p := by
      by_cases hq : ∃ q, Parent d t q ∧ q ≠ s%"object"
      · obtain ⟨q, hq, hqo⟩ := hq; exact ⟨q, .given hq hqo⟩
      · push Not at hq; exact ⟨_, .top ht hq hto⟩
    obtain ⟨p, hp⟩ := this
    obtain ⟨l, hl, _, hm⟩ := ((hT.under t p).trans (hlu t p)).2 hp
    exact ⟨l, hl, hm⟩

/-- A hierarchy in which two levels have to be put in order. -/
def sampleTypes : TypeDict :=
  [(s%"car", some s%"vehicle"), (s%"vehicle", some s%"zthing"), (s%"zthing", none),
   (s%"place", some s%"object"), (s%"van", some s%"vehicle")]

example : ∃ d', mkTypes sampleTypes [.typing] = .ok d' ∧ d' ≠ [] ∧ typesSection d' = .ok
    s%"(:types\n    place zthing - object\n    vehicle - zthing\n    car van - vehicle\n)\n" :=
  ⟨sampleTypes, by decide +kernel, by decide, by decide +kernel⟩

/-- A declared `object` is not listed. -/
theorem C40_object_fails : ¬ C40_full := by
  intro h
  obtain ⟨ls, _, hT, ho⟩ := h [(s%"object", none), (s%"a", none)] [(s%"object", none), (s%"a", none)] [.typing]
    (by simp [IsDict]) (by decide +kernel) (by decide)
  obtain ⟨l, hl, hm⟩ := ho s%"object" ⟨_, List.mem_cons_self, Or.inl rfl⟩
  obtain ⟨p, hp⟩ : ∃ p, ListedUnder _ s%"object" p := ⟨_, (hT.under s%"object" l.2).1 ⟨l, hl, rfl, hm⟩⟩
  cases hp with
  | given h _ => simp [Parent] at h
  | top _ _ h => exact h rfl

/-- With `object` as the only declared type the section has a line without subtypes. -/
theorem C40_object_only_fails : typesSection [(s%"object", none)] =
    .ok s%"(:types\n     - object\n)\n" := by decide +kernel

/-! ### C39 -/

/-- The statement in full, for domains. -/
def C39_full_domain : Prop :=
  ∀ d e : Domain, PredicateSet d.predicates → SameDomain d e → d.str = e.str

/-- The statement in full, for problems. -/
def C39_full_problem : Prop := ∀ p q : Problem, SameProblem p q → p.str = q.str

/-- The text of a domain does not depend on the order in which its sets and dictionaries are
iterated, if no quantifier binds two variables and no printed parameter has two types. -/
theorem C39_domain_partial (d e : Domain) (hp : PredicateSet d.predicates) (h : SameDomain d e)
    (ho : OrderFreeDomain d) : d.str = e.str := by
  unfold Domain.str Domain.bodyStr
  rw [h.name, typesSection_perm h.types, sortAndPrint_perm (h.reqs.map Req.str),
    constantsSection_perm h.constants, functionsSection_perm h.functions,
    printPredicates_perm hp h.predicates,
    sortAndPrint_perm (h.derived.map_perm (fun a ha b hab => derivedStr_congr hab (ho.derived a ha))),
    sortAndPrint_perm (h.actions.map_perm (f := fun a => a.str ++ s%"\n")
      (fun a ha b hab => by rw [action_str_congr hab (ho.actions a ha)]))]
  by_cases hn : d.predicates = []
  · rw [if_pos hn, if_pos (h.predicates.nil_iff.1 hn)]
  · rw [if_neg hn, if_neg (fun x => hn (h.predicates.nil_iff.2 x))]

/-- The same for problems. -/
theorem C39_problem_partial (p q : Problem) (h : SameProblem p q) (ho : OrderFreeProblem p) :
    p.str = q.str := by
  unfold Problem.str Problem.bodyStr
  rw [h.name, h.domainName, sortAndPrint_perm (h.reqs.map Req.str), constantsSection_perm h.objects,
    sortAndPrint_perm (h.init.map_perm (fun a ha b hab => hab.str (ho.init a ha))), h.goal.str ho.goal]
  have h1 := h.metric; have h2 := ho.metric
  generalize p.metric = m at h1 h2
  generalize q.metric = n at h1
  cases h1 with
  | absent => rfl
  | present h1 => simp only [Metric.str, Metric.optimization, h1.max, h1.expr.str (h2 _ rfl)]

/-- The constructor makes the predicates a set. -/
theorem C39_predicates (a : DomainArgs) (d : Domain) (h : mkDomain a = .ok d)
    (ht : ∀ p ∈ a.predicates, ∀ t ∈ p.terms, t.tags.Nodup) : PredicateSet d.predicates := by
  have hp : d.predicates = dedupBy Pred.pyEq a.predicates := by
    unfold mkDomain at h
    simp only [bind_ok_iff] at h
    obtain ⟨n, _, ts, _, _, _, _, _, h⟩ := h
    simp only [pure_ok, Except.ok.injEq] at h
    rw [← h]
  rw [hp]
  refine ⟨(dedupBy_pairwise (eq := Pred.pyEq) _).imp ?_, fun p hp => ht p (dedupBy_subset hp)⟩
  intro x y hxy
  rw [← hxy, Bool.eq_iff_iff, Pred.pyEq_iff, Pred.pyEq_iff, eq_comm]

/-- A domain, and the same with everything in another order. -/
def sampleDomain : Domain where
  name := s%"logistics"
  reqs := [.typing, .strips]
  types := [(s%"truck", some s%"vehicle"), (s%"vehicle", none), (s%"place", none)]
  constants := [.const s%"home" (some s%"place"), .const s%"depot" (some s%"place")]
  predicates := [⟨s%"ready", []⟩, ⟨s%"at", [.var ⟨s%"x", [s%"vehicle", s%"place"]⟩, .var ⟨s%"p", [s%"place"]⟩]⟩]
  functions := []
  derived := []
  actions := [⟨s%"stop", [.var ⟨s%"v", [s%"truck"]⟩], some (.pred ⟨s%"ready", []⟩),
    some (.fall [⟨s%"p", [s%"place"]⟩] (.not (.pred ⟨s%"at", [.var ⟨s%"v", [s%"truck"]⟩, .var ⟨s%"p", [s%"place"]⟩]⟩)))⟩]

def sampleDomain' : Domain where
  name := s%"logistics"
  reqs := [.strips, .typing]
  types := [(s%"place", none), (s%"truck", some s%"vehicle"), (s%"vehicle", none)]
  constants := [.const s%"depot" (some s%"place"), .const s%"home" (some s%"place")]
  predicates := [⟨s%"at", [.var ⟨s%"x", [s%"place", s%"vehicle"]⟩, .var ⟨s%"p", [s%"place"]⟩]⟩, ⟨s%"ready", []⟩]
  functions := []
  derived := []
  actions := sampleDomain.actions

theorem sameVar_refl (v : Var) : SameVar v v := ⟨rfl, List.Perm.refl _⟩

theorem sameTerm_refl (t : Term) : SameTerm t t := by
  cases t with
  | var v => exact .var (sameVar_refl v)
  | const n t => exact .const n t

theorem permBy_refl {α} {R : α → α → Prop} (h : ∀ a, R a a) (l : List α) : PermBy R l l :=
  ⟨l, List.Perm.refl _, List.forall₂_same.2 (fun a _ => h a)⟩

theorem sameExpr_refl (e : Expr) : SameExpr e e := by
  have hz : ∀ {as : List Expr}, (∀ a ∈ as, SameExpr a a) → ∀ p ∈ as.zip as, SameExpr p.1 p.2 := by
    intro as ih p hp
    have : p.1 = p.2 := by
      induction as with
      | nil => simp at hp
      | cons a as ihh =>
        simp only [List.zip_cons_cons, List.mem_cons] at hp
        rcases hp with rfl | hp
        · rfl
        · exact ihh (fun a ha => ih a (by simp [ha])) hp
    rw [← this]; exact ih _ (List.of_mem_zip hp).1
  induction e using Expr.ind with
  | hpred p => exact .pred (List.forall₂_same.2 fun t _ => sameTerm_refl t)
  | heq l r => exact .eq (sameTerm_refl l) (sameTerm_refl r)
  | hnfun f => exact .nfun (List.forall₂_same.2 fun t _ => sameTerm_refl t)
  | hnum n => exact .num n
  | hbfun o as ih => exact .bfun rfl (hz ih)
  | hbin o as ih => exact .bin rfl (hz ih)
  | hnot a ih => exact .not ih
  | hquant q vs c ih => exact .quant (permBy_refl sameVar_refl vs) ih
  | hwhen c e ih1 ih2 => exact .when ih1 ih2
  | hfall vs e ih => exact .fall (permBy_refl sameVar_refl vs) ih

theorem sameOpt_refl {α} {R : α → α → Prop} (h : ∀ a, R a a) (o : Option α) : SameOpt R o o := by
  cases o with
  | none => exact .absent
  | some a => exact .present (h a)

theorem sameAction_refl (a : Action) : SameAction a a :=
  ⟨rfl, List.forall₂_same.2 fun t _ => sameTerm_refl t, sameOpt_refl sameExpr_refl _,
    sameOpt_refl sameExpr_refl _⟩

example : SameDomain sampleDomain sampleDomain' ∧ PredicateSet sampleDomain.predicates ∧
    OrderFreeDomain sampleDomain ∧
    sampleDomain.predicates ≠ sampleDomain'.predicates ∧
    (mkDomain ⟨s%"logistics", [.typing, .strips], sampleDomain.types, sampleDomain.constants,
      sampleDomain.predicates, [], [], sampleDomain.actions⟩).toOption.map Domain.predicates =
      some sampleDomain.predicates := by
  refine ⟨⟨rfl, by decide, by decide, by decide, ?_, ⟨[], List.Perm.refl _, .nil⟩, ⟨[], List.Perm.refl _, .nil⟩,
    permBy_refl sameAction_refl _⟩, ⟨by decide +kernel, by decide +kernel⟩, ⟨?_, ?_⟩, by decide, ?_⟩
  · refine ⟨[⟨s%"at", [.var ⟨s%"x", [s%"vehicle", s%"place"]⟩, .var ⟨s%"p", [s%"place"]⟩]⟩, ⟨s%"ready", []⟩],
      by decide, .cons ⟨rfl, .cons (.var ⟨rfl, by decide⟩) (.cons (sameTerm_refl _) .nil)⟩
        (.cons ⟨rfl, .nil⟩ .nil)⟩
  · simp [sampleDomain]
  · intro a ha
    simp only [sampleDomain, List.mem_singleton] at ha
    subst ha
    refine ⟨by simp [Term.tags], ?_, ?_⟩
    all_goals
      intro e he
      simp only [Option.mem_def, Option.some.injEq] at he
      subst he
      simp [OrderFree, blocks]
  · decide +kernel

/-- The domain with one action that has one parameter of two types. -/
def twoTypes (tags : List Str) : Domain where
  name := s%"d"
  reqs := [.typing]
  types := [(s%"a", none), (s%"b", none)]
  constants := []
  predicates := []
  functions := []
  derived := []
  actions := [⟨s%"go", [.var ⟨s%"x", tags⟩], some (.bin .and []), some (.bin .and [])⟩]

example : (mkDomain ⟨s%"d", [.typing], (twoTypes []).types, [], [], [], [], (twoTypes [s%"a", s%"b"]).actions⟩).toOption.map
    (fun d => (d.name, d.actions.length)) = some (s%"d", 1) := by decide +kernel

/-- The types of an action parameter are printed in the order of the set. -/
theorem C39_tags_fails : ¬ C39_full_domain := by
  intro h
  have := h (twoTypes [s%"a", s%"b"]) (twoTypes [s%"b", s%"a"]) ⟨by decide, by decide⟩
    ⟨rfl, by decide, by decide, by decide, ⟨[], List.Perm.refl _, .nil⟩, ⟨[], List.Perm.refl _, .nil⟩, ⟨[], List.Perm.refl _, .nil⟩,
      ⟨_, List.Perm.refl _, .cons ⟨rfl, .cons (.var ⟨rfl, by decide⟩) .nil, .present (sameExpr_refl _),
        .present (sameExpr_refl _)⟩ .nil⟩⟩
  exact absurd this (by decide +kernel)

/-- The problem with a goal that quantifies over two variables. -/
def twoVariables (vs : List Var) : Problem where
  name := s%"p"
  domain := none
  domainName_ := s%"d"
  reqs_ := none
  objects := []
  init := []
  goal := .quant .ex vs (.pred ⟨s%"q", [.var ⟨s%"x", []⟩, .var ⟨s%"y", []⟩]⟩)
  metric := none

/-- The variables of a quantifier are printed in the order of the set. -/
theorem C39_variables_fails : ¬ C39_full_problem := by
  intro h
  have := h (twoVariables [⟨s%"x", []⟩, ⟨s%"y", []⟩]) (twoVariables [⟨s%"y", []⟩, ⟨s%"x", []⟩])
    ⟨rfl, rfl, by decide, by decide, ⟨[], by decide, .nil⟩,
      .quant ⟨_, List.Perm.swap _ _ _, .cons (sameVar_refl _) (.cons (sameVar_refl _) .nil)⟩ (sameExpr_refl _), .absent⟩
  exact absurd this (by decide +kernel)

end Pddl.Props
