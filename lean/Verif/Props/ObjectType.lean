/-
C49: the type `object`.
-/
import Verif.Proofs.NamesText
import Verif.Proofs.Keeps
import Verif.Proofs.ParseProb

namespace Pddl.Props
open Pddl Spec

/-- A domain with typing where a variable is of type `object`. -/
def objectText : Str := s%"(define (domain d) (:requirements :typing) (:types a) (:predicates (p ?x - object)))"

/-- It is rejected: C49 fails. -/
theorem C49_fails : (parseDomain (fun _ => none) .fresh objectText).toOption.isNone = true := by decide +kernel

/-- The same domain without the type is accepted. -/
example : (parseDomain (fun _ => none) .fresh
    s%"(define (domain d) (:requirements :typing) (:types a) (:predicates (p ?x)))").toOption.isSome = true := by
  decide +kernel

/-- The dictionary of a list of types, after `object` as a supertype has been removed. -/
theorem types_pairs (l : NameList) (h : l.rest ≠ []) (l' : NameList)
    (hg : l'.groups = l.groups ++ [(l.rest, s%"object")]) (hr : l'.rest = []) :
    l'.text = l.text ++ [.atom .minus, word s%"object"] ∧ (l'.Ok ↔ l.Ok) ∧
    l'.pairs.map (fun p => if p.2 = some s%"object" then (p.1, none) else p) =
      l.pairs.map (fun p => if p.2 = some s%"object" then (p.1, none) else p) ∧
    l'.pairs.map Prod.fst = l.pairs.map Prod.fst := by
  have hp : l'.pairs = l.groups.flatMap (fun g => g.1.map (fun n => (n, some g.2))) ++
      l.rest.map (fun n => (n, some s%"object")) := by
    simp [NameList.pairs, hg, hr]
  have hf : l'.pairs.map Prod.fst = l.pairs.map Prod.fst := by
    rw [hp]; simp [NameList.pairs, List.map_map, Function.comp_def]
  refine ⟨by simp [NameList.text, hg, hr], ⟨?_, ?_⟩, ?_, hf⟩
  · intro ok
    refine ⟨fun g hg' => ok.nonempty g (by rw [hg]; simp [hg']), ?_, fun g hg' => ok.types g (by rw [hg]; simp [hg']),
      by rw [← hf]; exact ok.nodup⟩
    intro p hp'
    have : p.1 ∈ l'.pairs.map Prod.fst := by rw [hf]; exact List.mem_map.2 ⟨p, hp', rfl⟩
    obtain ⟨q, hq, e⟩ := List.mem_map.1 this
    rw [← e]; exact ok.names q hq
  · intro ok
    refine ⟨?_, ?_, ?_, by rw [hf]; exact ok.nodup⟩
    · intro g hg'
      rw [hg] at hg'
      rcases List.mem_append.1 hg' with hg' | hg'
      · exact ok.nonempty g hg'
      · simp only [List.mem_singleton] at hg'; subst hg'; exact h
    · intro p hp'
      have : p.1 ∈ l.pairs.map Prod.fst := by rw [← hf]; exact List.mem_map.2 ⟨p, hp', rfl⟩
      obtain ⟨q, hq, e⟩ := List.mem_map.1 this
      rw [← e]; exact ok.names q hq
    · intro g hg'
      rw [hg] at hg'
      rcases List.mem_append.1 hg' with hg' | hg'
      · exact ok.types g hg'
      · simp only [List.mem_singleton] at hg'; subst hg'; exact .inr rfl
  · rw [hp]
    simp [NameList.pairs, List.map_map, Function.comp_def]

theorem words_split {ns ms : List Str} {x y : List Tree}
    (h : ns.map word ++ .atom .minus :: x = ms.map word ++ .atom .minus :: y) : ns = ms ∧ x = y := by
  induction ns generalizing ms with
  | nil => cases ms with
    | nil => simpa using h
    | cons m ms => simp [word] at h
  | cons n ns ih => cases ms with
    | nil => simp [word] at h
    | cons m ms =>
      simp only [List.map_cons, List.cons_append, List.cons.injEq, word, Tree.atom.injEq, Tok.name.injEq] at h
      obtain ⟨rfl, h⟩ := h
      obtain ⟨rfl, h'⟩ := ih h
      exact ⟨rfl, h'⟩

/-- The text of a list determines the list. -/
theorem text_inj {l m : NameList} (h : l.text = m.text) : l = m := by
  have nomin : ∀ (r : List Str), .atom .minus ∉ r.map word := by intro r h; simp [word] at h
  obtain ⟨gs, r⟩ := l
  obtain ⟨hs, t⟩ := m
  simp only [NameList.text] at h
  induction gs generalizing hs with
  | nil => cases hs with
    | nil =>
      simp only [List.flatMap_nil, List.nil_append] at h
      have : r = t := by
        refine List.map_injective_iff.2 ?_ h
        intro a b hab; simpa [word] using hab
      rw [this]
    | cons g hs =>
      exfalso
      refine nomin r ?_
      simp only [List.flatMap_nil, List.nil_append] at h
      rw [h]; simp
  | cons g gs ih => cases hs with
    | nil =>
      exfalso
      refine nomin t ?_
      simp only [List.flatMap_nil, List.nil_append] at h
      rw [← h]; simp
    | cons g' hs =>
      simp only [List.flatMap_cons, List.append_assoc, List.cons_append, List.nil_append] at h
      obtain ⟨h1, h2⟩ := words_split h
      simp only [List.cons.injEq, word, Tree.atom.injEq, Tok.name.injEq] at h2
      have := ih hs h2.2
      simp only [NameList.mk.injEq] at this
      rw [this.1, this.2, show g = g' from Prod.ext h1 h2.1]

/-- In the section `:types`, `… t - object` and `… t` at the end of the list give the same. -/
theorem types_object {σ : PState} (ht : Req.typing ∈ σ.ext) (l : NameList) (h : l.rest ≠ [])
    (hw : ∀ w, .atom (.name w) ∈ l.text → nameRegex w = true) (r : TypeDict × PState) :
    sectionTypes σ (l.text ++ [.atom .minus, word s%"object"]) = .ok r ↔ sectionTypes σ l.text = .ok r := by
  have hsec : ∀ b r, sectionTypes σ b = .ok r ↔ ∃ d, parseTypedNames b = .ok d ∧ σ.types.isNone = true ∧
      r = (d.map (fun p => if p.2 = some s%"object" then (p.1, none) else p),
        { σ with types := some (d.map (fun p => if p.2 = some s%"object" then (p.1, none) else p)) }) := by
    intro b r
    simp only [sectionTypes, bind_ok_iff, check_ok, ht, decide_true, Bool.not_true, Bool.and_false, Bool.not_false,
      pure_ok, Except.ok.injEq, true_and, exists_const]
    constructor
    · rintro ⟨d, h1, h2, h3⟩; exact ⟨d, h1, h2, h3.symm⟩
    · rintro ⟨d, h1, h2, h3⟩; exact ⟨d, h1, h2, h3.symm⟩
  let l' : NameList := ⟨l.groups ++ [(l.rest, s%"object")], []⟩
  have hw' : ∀ w, .atom (.name w) ∈ l.text ++ [.atom .minus, word s%"object"] → nameRegex w = true := by
    intro w hw'
    simp only [List.mem_append, List.mem_cons, List.not_mem_nil, or_false, word, Tree.atom.injEq, Tok.name.injEq, reduceCtorEq,
      false_or] at hw'
    rcases hw' with h | rfl
    · exact hw w h
    · decide
  obtain ⟨ht1, hok, hpairs, hfst⟩ := types_pairs l h l' rfl rfl
  rw [hsec, hsec]
  constructor
  · rintro ⟨d, h1, h2, rfl⟩
    obtain ⟨m, hm, hmt, rfl⟩ := (parseTypedNames_iff hw').1 h1
    obtain rfl : l' = m := text_inj (ht1.trans hmt)
    exact ⟨l.pairs, (parseTypedNames_iff hw).2 ⟨l, hok.1 hm, rfl, rfl⟩, h2, by rw [hpairs]⟩
  · rintro ⟨d, h1, h2, rfl⟩
    obtain ⟨m, hm, hmt, rfl⟩ := (parseTypedNames_iff hw).1 h1
    obtain rfl : l = m := text_inj hmt
    exact ⟨l'.pairs, (parseTypedNames_iff hw').2 ⟨l', hok.2 hm, ht1.symm, rfl⟩, h2, by rw [hpairs]⟩

theorem takeSection_kw (k k' : Str) (b ts : List Tree) : takeSection k (.node (.atom (.kw k') :: b) :: ts) =
    if k' = k then (some b, ts) else (none, .node (.atom (.kw k') :: b) :: ts) := rfl

theorem swap_types {F : FloatOf} {σ : PState} {h : List Tree} {rs b b' post : List Tree} {r : Domain × PState}
    (hb : ∀ q r, parseRequirements rs = .ok q →
      sectionTypes { σ with ext := extendReqs q } b = .ok r → sectionTypes { σ with ext := extendReqs q } b' = .ok r)
    (hr : domainDef F σ (word s%"define" :: .node h :: .node (.atom (.kw s%"requirements") :: rs) ::
      .node (.atom (.kw s%"types") :: b) :: post) = .ok r) :
    domainDef F σ (word s%"define" :: .node h :: .node (.atom (.kw s%"requirements") :: rs) ::
      .node (.atom (.kw s%"types") :: b') :: post) = .ok r := by
  obtain ⟨⟨n, ts0, hheader, r1, ts1, h1, rq, σ1, hreqs, r2, ts2, h2, types, σ2, htypes, r3, ts3, h3, consts, σ3, hconsts, r4,
    ts4, h4, preds, σ4, hpreds, r5, ts5, h5, funs, hfuns, as, ds, σ5, hstruct, hdomain, hσ'⟩⟩ := domainDef_ok hr
  obtain ⟨w, x, he, hk, hx⟩ := header_ok hheader
  simp only [List.cons.injEq, Tree.node.injEq] at he
  obtain ⟨_, rfl, rfl⟩ := he
  simp only [takeSection_kw, if_true, Prod.mk.injEq] at h1
  obtain ⟨rfl, rfl⟩ := h1
  simp only [takeSection_kw, if_true, Prod.mk.injEq] at h2
  obtain ⟨rfl, rfl⟩ := h2
  simp only [reduceCtorEq, false_and, Option.some.injEq, false_or, exists_eq_left'] at hreqs htypes
  obtain ⟨hq, rfl⟩ := hreqs
  have hheader' : header s%"domain" (word s%"define" :: .node h :: .node (.atom (.kw s%"requirements") :: rs) ::
      .node (.atom (.kw s%"types") :: b') :: post) = .ok (n, .node (.atom (.kw s%"requirements") :: rs) ::
      .node (.atom (.kw s%"types") :: b') :: post) := by
    have e : ∀ rest, dropKeyword s%"define" (word s%"define" :: rest) = some rest := by
      intro rest; rfl
    unfold header at hheader ⊢
    simp only [e] at hheader ⊢
    split at hheader
    · simp only [pure_ok, Except.ok.injEq, Prod.mk.injEq] at hheader
      rw [hheader.1]; rfl
    · simp at hheader
  exact (DomainParse.mk n _ hheader' (some rs) _ rfl rq _ (.inr ⟨rs, rfl, hq, rfl⟩) (some b') _ rfl types σ2
    (.inr ⟨b', rfl, hb _ _ hq htypes⟩) r3 ts3 h3 consts σ3 hconsts r4
    ts4 h4 preds σ4 hpreds r5 ts5 h5 funs hfuns as ds σ5 hstruct hdomain hσ').run

/-- `text` is a domain that declares typing, whose list of types is `types`. -/
structure TypesText (text : Str) (h reqs types rest : List Tree) : Prop where
  read : readText text = .ok [.node (word s%"define" :: .node h :: .node (.atom (.kw s%"requirements") :: reqs) ::
    .node (.atom (.kw s%"types") :: types) :: rest)]
  typing : .atom (.kw s%"typing") ∈ reqs ∨ .atom (.kw s%"adl") ∈ reqs

theorem typing_ext {rb : List Tree} {q : List Req} (hq : parseRequirements rb = .ok q)
    (h : .atom (.kw s%"typing") ∈ rb ∨ .atom (.kw s%"adl") ∈ rb) : Req.typing ∈ extendReqs q := by
  unfold parseRequirements at hq
  split at hq
  · simp at hq
  · split at hq
    · rename_i rs hrs
      simp only [pure_ok, Except.ok.injEq] at hq
      subst hq
      have key : ∀ (b : List Tree) (rs : List Req), b.mapM requireKey = some rs → ∀ t ∈ b, ∃ r ∈ rs, requireKey t = some r := by
        intro b
        induction b with
        | nil => simp
        | cons x b ih =>
          intro rs h t ht
          simp only [List.mapM_cons, Option.bind_eq_bind, Option.bind_eq_some_iff, Option.pure_def, Option.some.injEq] at h
          obtain ⟨y, hy, ys, hys, rfl⟩ := h
          rcases List.mem_cons.1 ht with rfl | ht
          · exact ⟨y, by simp, hy⟩
          · obtain ⟨r, hr, e⟩ := ih ys hys t ht; exact ⟨r, by simp [hr], e⟩
      rw [mem_extendReqs]
      rcases h with h | h
      · obtain ⟨r, hr, e⟩ := key _ _ hrs _ h
        have : requireKey (.atom (.kw s%"typing")) = some .typing := by decide +kernel
        rw [this] at e; cases e
        exact .inl (mem_reqSet.2 hr)
      · obtain ⟨r, hr, e⟩ := key _ _ hrs _ h
        have : requireKey (.atom (.kw s%"adl")) = some .adl := by decide +kernel
        rw [this] at e; cases e
        exact .inr (.inr (.inl ⟨mem_reqSet.2 hr, by simp⟩))
    · simp at hq

/-- C49: a list of types that ends with `t₁ … tₙ` and the one that ends with `t₁ … tₙ - object` give
the same domain. Missing: `object` as the type of a variable (see `C49_fails` and `C49_never`). -/
theorem C49_partial (F : FloatOf) (σ : PState) (l : NameList) (hr : l.rest ≠ []) {text text' : Str} {h reqs rest : List Tree}
    (ht : TypesText text h reqs l.text rest)
    (ht' : TypesText text' h reqs (l.text ++ [.atom .minus, word s%"object"]) rest) (r : Domain × PState) :
    parseDomain F σ text' = .ok r ↔ parseDomain F σ text = .ok r := by
  have hw : ∀ w, .atom (.name w) ∈ l.text → nameRegex w = true := by
    intro w hw
    refine readText_words ht.read (List.mem_singleton.2 rfl) ?_
    refine .node (t := .node (.atom (.kw s%"types") :: l.text)) (by simp) (.node (t := .atom (.name w)) (by simp [hw]) .refl)
  unfold parseDomain
  rw [ht.read, ht'.read]
  simp only [ok_bind]
  constructor
  · intro hd
    exact swap_types (fun q r hq h => (types_object (typing_ext hq ht.typing) l hr hw r).1 h) hd
  · intro hd
    exact swap_types (fun q r hq h => (types_object (typing_ext hq ht.typing) l hr hw r).2 h) hd

/-- Two such texts. -/
example : TypesText s%"(define (domain d) (:requirements :typing) (:types b - a a))"
      [word s%"domain", word s%"d"] [.atom (.kw s%"typing")] (⟨[([s%"b"], s%"a")], [s%"a"]⟩ : NameList).text [] ∧
    TypesText s%"(define (domain d) (:requirements :typing) (:types b - a a - object))"
      [word s%"domain", word s%"d"] [.atom (.kw s%"typing")]
      ((⟨[([s%"b"], s%"a")], [s%"a"]⟩ : NameList).text ++ [.atom .minus, word s%"object"]) [] ∧
    (parseDomain (fun _ => none) .fresh
      s%"(define (domain d) (:requirements :typing) (:types b - a a))").toOption.isSome = true :=
  ⟨⟨by decide +kernel, by simp⟩, ⟨by decide +kernel, by simp⟩, by decide +kernel⟩

/-- The types of an accepted domain: a dictionary that does not mention `object`. -/
theorem DomainParse.types_ok {F : FloatOf} {σ : PState} {ts : List Tree} {d : Domain} {σ' : PState}
    (P : DomainParse F σ ts d σ') (hw : ∀ w, Inside (.atom (.name w)) (.node ts) → nameRegex w = true) :
    IsDict P.types ∧ (∀ p ∈ P.types, ValidName p.1 ∧ p.2 ≠ some s%"object") := by
  rcases P.htypes with ⟨_, h, _⟩ | ⟨b, hb, h⟩
  · rw [h]; simp [IsDict]
  · have hmem : .node (.atom (.kw s%"types") :: b) ∈ ts := by
      obtain ⟨w, x, he, _⟩ := header_ok P.hheader
      rw [he]
      refine List.mem_cons_of_mem _ (List.mem_cons_of_mem _ (takeSection_sub P.h1 ?_))
      have := P.h2; rw [hb] at this
      rw [takeSection_some this]; simp
    have hw' : ∀ w, .atom (.name w) ∈ b → nameRegex w = true := fun w h =>
      hw w (.node hmem (.node (List.mem_cons_of_mem _ h) .refl))
    unfold sectionTypes at h
    obtain ⟨dd, h1, h⟩ := bind_ok_iff.1 h
    obtain ⟨l, hl, rfl, rfl⟩ := (parseTypedNames_iff hw').1 h1
    simp only [bind_ok_iff, pure_ok, Except.ok.injEq, Prod.mk.injEq] at h
    obtain ⟨_, _, _, _, h, _⟩ := h
    rw [← h]
    constructor
    · unfold IsDict
      rw [List.map_map, show l.pairs.map (Prod.fst ∘ fun p => if p.2 = some s%"object" then (p.1, none) else p) =
        l.pairs.map Prod.fst from List.map_congr_left (fun p _ => by simp only [Function.comp]; split <;> rfl)]
      exact hl.nodup
    · intro p hp
      obtain ⟨q, hq, rfl⟩ := List.mem_map.1 hp
      split
      · exact ⟨hl.names q hq, by simp⟩
      · rename_i hne; exact ⟨hl.names q hq, hne⟩

/-- C49 fails everywhere, not only in the witness: no accepted domain has a constant, a variable of a
predicate, a parameter of an action or any other term of an action with the type `object`. -/
theorem C49_never {F : FloatOf} {σ σ' : PState} {text : Str} {d : Domain} (h : parseDomain F σ text = .ok (d, σ')) (t : Term)
    (ht : t ∈ d.constants ∨ (∃ p ∈ d.predicates, t ∈ p.terms) ∨
      ∃ a ∈ d.actions, t ∈ a.params ++ termsOpt a.pre ++ termsOpt a.eff) : s%"object" ∉ t.tags := by
  obtain ⟨ts, hr, hd⟩ := parseDomain_ok h
  obtain ⟨P⟩ := domainDef_ok hd
  obtain ⟨h1, h2⟩ := DomainParse.types_ok P (fun w hw => readText_words hr (List.mem_singleton.2 rfl) hw)
  obtain ⟨_, _, _, _, hc, hp, ha, _, he⟩ := (mkDomain_ok h1).1 P.hdomain
  have hno : ¬ Declared P.types s%"object" := by
    rintro ⟨p, hp, e | e⟩
    · exact absurd (e ▸ (h2 p hp).1) (by decide +kernel)
    · exact (h2 p hp).2 e.1
  intro ho
  have e1 := congrArg Domain.constants he
  have e2 := congrArg Domain.predicates he
  have e3 := congrArg Domain.actions he
  simp only [domainOf, dedup_firstOcc eqv_term, dedup_firstOcc eqv_pred, dedup_firstOcc eqv_action] at e1 e2 e3
  rw [e1, e2, e3] at ht
  rcases ht with ht | ⟨p, hp', ht⟩ | ⟨a, ha', ht⟩
  · exact hno ((hc t ht).1 _ ho)
  · exact hno ((hp p hp' t ht).1 _ ho)
  · exact hno (((ha a ha').2.2 t ht).1 _ ho)

end Pddl.Props
