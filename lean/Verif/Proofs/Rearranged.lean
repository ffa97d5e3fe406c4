/-
Sections of a domain whose declarations are in another order.
-/
import Verif.Spec.Rearranged
import Verif.Props.ObjectType
import Verif.Props.Args
import Verif.Props.MoreRequirements
import Verif.Proofs.DomainReread

namespace Pddl
open Spec Spec.Grammar

/-! ### Dictionaries -/

theorem dictGet_perm {β} {d d' : List (Str × β)} (h : d.Perm d') (hd : (d.map Prod.fst).Nodup) (k : Str) :
    dictGet d k = dictGet d' k := by
  have hd' : (d'.map Prod.fst).Nodup := (h.map _).nodup_iff.1 hd
  cases h1 : dictGet d k with
  | some v => exact (dictGet_of_mem hd' (h.mem_iff.1 (dictGet_mem h1))).symm
  | none =>
    cases h2 : dictGet d' k with
    | none => rfl
    | some v => rw [dictGet_of_mem hd (h.mem_iff.2 (dictGet_mem h2))] at h1; cases h1

theorem dictSet_new {β} {d : List (Str × β)} {k : Str} {v : β} (h : k ∉ d.map Prod.fst) : dictSet d k v = d ++ [(k, v)] := by
  unfold dictSet
  rw [if_neg]
  simpa [dictHas] using h

theorem dictOf_self {β} {items : List (Str × β)} (h : (items.map Prod.fst).Nodup) : dictOf items = items := by
  induction items using List.reverseRecOn with
  | nil => rfl
  | append_singleton items p ih =>
    rw [List.map_append, List.nodup_append] at h
    rw [dictOf_concat, ih h.1, dictSet_new]
    intro hp
    exact h.2.2 _ hp p.1 (by simp) rfl

/-! ### Types and constants -/

theorem objectless_fst (l : List (Str × Option Str)) : (l.map objectless).map Prod.fst = l.map Prod.fst := by
  rw [List.map_map]; rfl

theorem nameList_ok {l l' : NameList} (h : l.Ok) (hp : (l.pairs.map objectless).Perm (l'.pairs.map objectless))
    (hn : NoEmptyGroup l') : l'.Ok := by
  have hfst : (l.pairs.map Prod.fst).Perm (l'.pairs.map Prod.fst) := by
    have := hp.map Prod.fst
    rwa [objectless_fst, objectless_fst] at this
  refine ⟨hn, ?_, ?_, hfst.nodup_iff.1 h.nodup⟩
  · intro p hp'
    have : p.1 ∈ l.pairs.map Prod.fst := hfst.mem_iff.2 (List.mem_map.2 ⟨p, hp', rfl⟩)
    obtain ⟨q, hq, e⟩ := List.mem_map.1 this
    rw [← e]; exact h.names q hq
  · intro g hg
    by_cases ho : g.2 = s%"object"
    · exact .inr ho
    obtain ⟨n, hn'⟩ := List.exists_mem_of_ne_nil _ (hn g hg)
    have hm : (n, some g.2) ∈ l'.pairs := by
      unfold NameList.pairs
      exact List.mem_append_left _ (List.mem_flatMap.2 ⟨g, hg, List.mem_map.2 ⟨n, hn', rfl⟩⟩)
    have hm' : (n, some g.2) ∈ l'.pairs.map objectless := List.mem_map.2 ⟨_, hm, by simp [objectless, ho]⟩
    obtain ⟨q, hq, e⟩ := List.mem_map.1 (hp.mem_iff.2 hm')
    simp only [objectless, Prod.mk.injEq] at e
    have e2 : q.2 = some g.2 := by
      have := e.2
      split at this
      · cases this
      · exact this
    unfold NameList.pairs at hq
    rcases List.mem_append.1 hq with hq | hq
    · obtain ⟨g', hg', hq⟩ := List.mem_flatMap.1 hq
      obtain ⟨_, _, rfl⟩ := List.mem_map.1 hq
      simp only [Option.some.injEq] at e2
      rw [← e2]; exact h.types g' hg'
    · obtain ⟨_, _, rfl⟩ := List.mem_map.1 hq
      cases e2

theorem sectionTypes_rearranged {σ σ2 : PState} {b b' : List Tree} {T : TypeDict}
    (hw : ∀ w, .atom (.name w) ∈ b → nameRegex w = true) (hw' : ∀ w, .atom (.name w) ∈ b' → nameRegex w = true)
    {typing : Prop} (hty : typing → Req.typing ∈ σ.ext) (hs : SameTypesText typing b b')
    (h : sectionTypes σ b = .ok (T, σ2)) :
    ∃ T', sectionTypes σ b' = .ok (T', { σ with types := some T' }) ∧ σ2 = { σ with types := some T } ∧ T.Perm T' ∧
      (T.map Prod.fst).Nodup := by
  obtain ⟨l, l', rfl, rfl, _, hn', hp⟩ := hs
  unfold sectionTypes at h
  obtain ⟨d, h1, h⟩ := bind_ok_iff.1 h
  obtain ⟨m, hm, hmt, rfl⟩ := (parseTypedNames_iff hw).1 h1
  obtain rfl : l = m := Props.text_inj hmt
  obtain ⟨_, h2, h⟩ := bind_ok_iff.1 h
  obtain ⟨_, h3, h⟩ := bind_ok_iff.1 h
  simp only [pure_ok, Except.ok.injEq, Prod.mk.injEq] at h
  obtain ⟨rfl, rfl⟩ := h
  have hf : (fun p : Str × Option Str => if p.2 = some s%"object" then (p.1, none) else p) = objectless := by
    funext p
    unfold objectless
    split <;> rfl
  rw [hf]
  have hpo : (l.pairs.map objectless).Perm (l'.pairs.map objectless) := by
    rcases hp with hp | ⟨_, hp⟩
    · exact hp.map _
    · exact hp
  refine ⟨l'.pairs.map objectless, ?_, rfl, hpo, by rw [objectless_fst]; exact hm.nodup⟩
  unfold sectionTypes
  rw [(parseTypedNames_iff hw').2 ⟨l', nameList_ok hm hpo hn', rfl, rfl⟩, ok_bind]
  have h2' : check (!(l'.pairs.any (fun p => p.2.isSome) && !decide (Req.typing ∈ σ.ext))) Exc.missingReq = .ok () := by
    rw [check_ok] at h2 ⊢
    rcases hp with hp | ⟨ht, _⟩
    · rw [← h2]
      congr 2
      rw [Bool.eq_iff_iff, List.any_eq_true, List.any_eq_true]
      constructor
      · rintro ⟨p, hp', h⟩; exact ⟨p, hp.mem_iff.2 hp', h⟩
      · rintro ⟨p, hp', h⟩; exact ⟨p, hp.mem_iff.1 hp', h⟩
    · simp [hty ht]
  rw [h2', ok_bind, h3, ok_bind, hf]
  rfl

theorem mkConsts_total {l : NameList} (h : l.Ok) : mkConsts l.pairs = .ok (l.pairs.map (fun p => (p.1, .const p.1 p.2))) := by
  have key : ∀ L : List (Str × Option Str), (∀ p ∈ L, ValidName p.1 ∧ ∀ t, p.2 = some t → ValidType t) →
      mkConsts L = .ok (L.map (fun p => (p.1, .const p.1 p.2))) := by
    intro L
    induction L with
    | nil => intro _; rfl
    | cons p L ih =>
      intro hL
      obtain ⟨n, tag⟩ := p
      obtain ⟨h1, h2⟩ := hL (n, tag) (by simp)
      have e : mkConst n tag = .ok (.const n tag) := by
        unfold mkConst
        rw [parseName_ok.2 ⟨rfl, h1⟩, ok_bind]
        cases tag with
        | none => rfl
        | some t =>
          simp only
          rw [parseType_ok.2 ⟨rfl, h2 t rfl⟩]
          rfl
      simp only [mkConsts, e, ok_bind, ih (fun p hp => hL p (by simp [hp])), pure_ok, List.map_cons]
  refine key _ ?_
  intro p hp
  refine ⟨h.names p hp, ?_⟩
  intro t ht
  unfold NameList.pairs at hp
  rcases List.mem_append.1 hp with hp | hp
  · obtain ⟨g, hg, hp⟩ := List.mem_flatMap.1 hp
    obtain ⟨_, _, rfl⟩ := List.mem_map.1 hp
    simp only [Option.some.injEq] at ht
    rw [← ht]; exact h.types g hg
  · obtain ⟨_, _, rfl⟩ := List.mem_map.1 hp
    cases ht

theorem sectionConstants_rearranged {σ τ σ3 : PState} {b b' : List Tree} {cs : List Term}
    (hw : ∀ w, .atom (.name w) ∈ b → nameRegex w = true) (hw' : ∀ w, .atom (.name w) ∈ b' → nameRegex w = true)
    (hs : SameConstantsText b b') (h : sectionConstants σ b = .ok (cs, σ3)) :
    ∃ D D' : List (Str × Term), σ3 = { σ with consts := D } ∧ cs = D.map Prod.snd ∧ D.Perm D' ∧ (D.map Prod.fst).Nodup ∧
      sectionConstants τ b' = .ok (D'.map Prod.snd, { τ with consts := D' }) := by
  obtain ⟨l, l', rfl, rfl, _, hn', hp⟩ := hs
  unfold sectionConstants at h
  obtain ⟨d, h1, h⟩ := bind_ok_iff.1 h
  obtain ⟨m, hm, hmt, rfl⟩ := (parseTypedNames_iff hw).1 h1
  obtain rfl : l = m := Props.text_inj hmt
  have hm' := nameList_ok hm (hp.map _) hn'
  rw [mkConsts_total hm, ok_bind] at h
  have hfst : ∀ L : List (Str × Option Str), (L.map (fun p => (p.1, Term.const p.1 p.2))).map Prod.fst = L.map Prod.fst := by
    intro L; rw [List.map_map]; rfl
  have hnd : ((l.pairs.map (fun p => (p.1, Term.const p.1 p.2))).map Prod.fst).Nodup := by rw [hfst]; exact hm.nodup
  have hnd' : ((l'.pairs.map (fun p => (p.1, Term.const p.1 p.2))).map Prod.fst).Nodup := by rw [hfst]; exact hm'.nodup
  simp only [dictOf_self hnd, pure_ok, Except.ok.injEq, Prod.mk.injEq] at h
  obtain ⟨rfl, rfl⟩ := h
  refine ⟨_, _, rfl, rfl, hp.map _, hnd, ?_⟩
  unfold sectionConstants
  rw [(parseTypedNames_iff hw').2 ⟨l', hm', rfl, rfl⟩, ok_bind, mkConsts_total hm', ok_bind]
  simp only [dictOf_self hnd', pure_ok]

/-! ### Predicates -/

theorem mapM_forall₂ {α β ε} {f : α → Except ε β} {l : List α} {r : List β} :
    l.mapM f = .ok r ↔ List.Forall₂ (fun a b => f a = .ok b) l r := by
  induction l generalizing r with
  | nil => 
    simp only [List.mapM_nil, List.forall₂_nil_left_iff, pure, Except.pure, Except.ok.injEq]
    exact eq_comm
  | cons a l ih =>
    simp only [List.mapM_cons, bind_ok_iff, pure_ok, Except.ok.injEq]
    constructor
    · rintro ⟨b, h1, r', h2, rfl⟩
      exact .cons h1 (ih.1 h2)
    · rintro (_ | ⟨h1, h2⟩)
      exact ⟨_, h1, _, ih.2 h2, rfl⟩

theorem forall₂_perm {α β} {R : α → β → Prop} {l l' : List α} {r : List β} (hp : l.Perm l') (h : List.Forall₂ R l r) :
    ∃ r', List.Forall₂ R l' r' ∧ r.Perm r' := by
  obtain ⟨r', h1, h2⟩ := List.perm_comp_forall₂ hp.symm h
  exact ⟨r', h1, h2.symm⟩

theorem formulaSkeleton_head {t : Tree} {p : Pred} (h : formulaSkeleton t = .ok p) : headOf t = some (word p.name) := by
  unfold formulaSkeleton at h
  split at h
  · obtain ⟨vs, _, h⟩ := bind_ok_iff.1 h
    obtain ⟨_, _, rfl⟩ := mkPred_ok.1 h
    rfl
  · cases h

theorem sectionPredicates_rearranged {σ τ σ4 : PState} {b b' : List Tree} {ps : List Pred} (hs : b.Perm b')
    (h : sectionPredicates σ b = .ok (ps, σ4)) :
    ∃ ps' D D', σ4 = { σ with preds := D } ∧ ps.Perm ps' ∧ sectionPredicates τ b' = .ok (ps', { τ with preds := D' }) ∧
      ((b.map headOf).Nodup → ∀ k, dictGet D k = dictGet D' k) ∧ ∀ p ∈ ps, ∃ t, formulaSkeleton t = .ok p := by
  unfold sectionPredicates at h
  obtain ⟨qs, h1, h⟩ := bind_ok_iff.1 h
  obtain ⟨_, h2, h⟩ := bind_ok_iff.1 h
  simp only [pure_ok, Except.ok.injEq, Prod.mk.injEq] at h
  obtain ⟨rfl, rfl⟩ := h
  rw [mapM_forall₂] at h1
  obtain ⟨ps', h3, h4⟩ := forall₂_perm hs h1
  refine ⟨ps', _, dictOf (ps'.map (fun p => (p.name, p))), rfl, h4, ?_, ?_, ?_⟩
  · unfold sectionPredicates
    rw [mapM_forall₂.2 h3, ok_bind]
    rw [check_ok, decide_eq_true_eq] at h2
    have h2' : check (decide (1 ≤ b'.length)) Exc.lark = .ok () := by
      rw [check_ok, decide_eq_true_eq, ← hs.length_eq]; exact h2
    rw [h2', ok_bind]
    rfl
  · intro hn k
    have e : b.map headOf = (qs.map Pred.name).map (fun n => some (word n)) := by
      clear * - h1
      induction h1 with
      | nil => rfl
      | cons h _ ih => simp only [List.map_cons, ih, formulaSkeleton_head h]
    rw [e] at hn
    have hn := List.Nodup.of_map _ hn
    have hn1 : ((qs.map (fun p => (p.name, p))).map Prod.fst).Nodup := by rw [List.map_map]; exact hn
    have hn2 : ((ps'.map (fun p => (p.name, p))).map Prod.fst).Nodup := by
      rw [List.map_map]; exact (h4.map _).nodup_iff.1 hn
    rw [dictOf_self hn1, dictOf_self hn2]
    exact dictGet_perm (h4.map _) hn1 k
  · intro p hp
    obtain ⟨t, _, h⟩ := forall₂_right h1 p hp
    exact ⟨t, h⟩

/-! ### Functions -/

theorem functionToks_node (flag : Bool) (c ts : List Tree) :
    functionToks flag (.node c :: ts) =
      (do let f ← functionSkeleton (.node c); let r ← functionToks true ts; pure (.fn f :: r)) := by
  cases flag <;> simp only [functionToks]

theorem functionToks_nodes_ok {ts us : List Tree} (hn : ∀ t ∈ ts, ∃ c, t = .node c) :
    ∀ {flag toks}, functionToks flag (ts ++ us) = .ok toks →
      (∀ t ∈ ts, ∃ f, functionSkeleton t = .ok f) ∧ ∃ toks', functionToks (flag || !ts.isEmpty) us = .ok toks' := by
  induction ts with
  | nil => intro flag toks h; exact ⟨by simp, toks, by simpa using h⟩
  | cons t ts ih =>
    intro flag toks h
    obtain ⟨c, rfl⟩ := hn t (by simp)
    rw [List.cons_append, functionToks_node] at h
    obtain ⟨f, hf, h⟩ := bind_ok_iff.1 h
    obtain ⟨r, hr, h⟩ := bind_ok_iff.1 h
    obtain ⟨h1, toks', h2⟩ := ih (fun t ht => hn t (by simp [ht])) hr
    refine ⟨?_, toks', by simpa using h2⟩
    intro t ht
    rcases List.mem_cons.1 ht with rfl | ht
    · exact ⟨f, hf⟩
    · exact h1 t ht

theorem functionToks_nodes {ts us : List Tree} {fs : List NFun} (h : List.Forall₂ (fun t f => functionSkeleton t = .ok f) ts fs)
    (hn : ∀ t ∈ ts, ∃ c, t = .node c) (flag : Bool) :
    functionToks flag (ts ++ us) = (do let r ← functionToks (flag || !ts.isEmpty) us; pure (fs.map TTok.fn ++ r)) := by
  induction h generalizing flag with
  | nil => simp; cases functionToks flag us <;> rfl
  | @cons t f ts fs h1 h2 ih =>
    obtain ⟨c, rfl⟩ := hn t (by simp)
    rw [List.cons_append, functionToks_node, h1, ok_bind, ih (fun t ht => hn t (by simp [ht]))]
    simp only [Bool.true_or, List.isEmpty_cons, Bool.not_false, Bool.or_true]
    cases functionToks true us <;> rfl

theorem functionToks_skeletons {b : List Tree} {l : List (Tree × Option Str)} (hl : FunctionsText b l)
    (hn : ∀ p ∈ l, ∃ c, p.1 = .node c) :
    ∀ {toks}, functionToks false b = .ok toks → ∀ p ∈ l, ∃ f, functionSkeleton p.1 = .ok f := by
  induction hl with
  | rest ts =>
    intro toks h p hp
    obtain ⟨t, ht, rfl⟩ := List.mem_map.1 hp
    have := functionToks_nodes_ok (us := []) (ts := ts) (fun t ht => hn (t, none) (List.mem_map.2 ⟨t, ht, rfl⟩))
      (by rw [List.append_nil]; exact h)
    exact this.1 t ht
  | @group ts us l hne _ ih =>
    intro toks h p hp
    obtain ⟨h1, toks', h2⟩ := functionToks_nodes_ok
      (fun t ht => hn (t, some s%"number") (List.mem_append_left _ (List.mem_map.2 ⟨t, ht, rfl⟩))) h
    rcases List.mem_append.1 hp with hp | hp
    · obtain ⟨t, ht, rfl⟩ := List.mem_map.1 hp
      exact h1 t ht
    · have he : (false || !ts.isEmpty) = true := by cases ts <;> simp_all
      rw [he] at h2
      simp only [functionToks, word] at h2
      obtain ⟨_, _, h2⟩ := bind_ok_iff.1 h2
      obtain ⟨r, hr, h2⟩ := bind_ok_iff.1 h2
      exact ih (fun p hp => hn p (List.mem_append_right _ hp)) hr p hp

theorem forall₂_split {α β} {R : α → β → Prop} {l m : List α} {r : List β} (h : List.Forall₂ R (l ++ m) r) :
    ∃ a b, List.Forall₂ R l a ∧ List.Forall₂ R m b ∧ r = a ++ b := by
  induction l generalizing r with
  | nil => exact ⟨[], r, .nil, h, rfl⟩
  | cons x l ih =>
    rcases h with _ | ⟨h1, h2⟩
    obtain ⟨a, b, h3, h4, rfl⟩ := ih h2
    exact ⟨_ :: a, b, .cons h1 h3, h4, rfl⟩

theorem forall₂_const {ts : List Tree} {x : Option Str} {qs : List (Option Str × NFun)}
    (h : List.Forall₂ (fun (p : Tree × Option Str) q => functionSkeleton p.1 = .ok q.2 ∧ q.1 = p.2) (ts.map (fun t => (t, x))) qs) :
    ∃ fs, qs = fs.map (fun f => (x, f)) ∧ List.Forall₂ (fun t f => functionSkeleton t = .ok f) ts fs := by
  induction ts generalizing qs with
  | nil => cases h; exact ⟨[], rfl, .nil⟩
  | cons t ts ih =>
    rw [List.map_cons] at h
    rcases h with _ | ⟨h1, h2⟩
    rename_i q qs
    obtain ⟨fs, rfl, hf⟩ := ih h2
    obtain ⟨a, f⟩ := q
    obtain ⟨h1, rfl⟩ := h1
    exact ⟨f :: fs, rfl, .cons h1 hf⟩

theorem functionToks_build {b : List Tree} {l : List (Tree × Option Str)} (hl : FunctionsText b l)
    (hn : ∀ p ∈ l, ∃ c, p.1 = .node c) :
    ∀ {qs : List (Option Str × NFun)}, List.Forall₂ (fun p q => functionSkeleton p.1 = .ok q.2 ∧ q.1 = p.2) l qs →
    ∃ g : Groups NFun, g.pairs = qs ∧ (∀ p ∈ g.groups, p.1 = s%"number") ∧
      functionToks false b = .ok (funList g).tokens := by
  induction hl with
  | rest ts =>
    intro qs h
    obtain ⟨fs, rfl, hf⟩ := forall₂_const h
    refine ⟨⟨[], fs⟩, by simp [Groups.pairs], by simp, ?_⟩
    have := functionToks_nodes (us := []) hf (fun t ht => hn (t, none) (List.mem_map.2 ⟨t, ht, rfl⟩)) false
    rw [List.append_nil] at this
    rw [this]
    simp [functionToks, funList, TypedList.tokens]
  | @group ts us l hne _ ih =>
    intro qs h
    obtain ⟨q1, q2, h1, h2, rfl⟩ : ∃ q1 q2, List.Forall₂ (fun (p : Tree × Option Str) (q : Option Str × NFun) =>
        functionSkeleton p.1 = .ok q.2 ∧ q.1 = p.2) (ts.map (fun t => (t, some s%"number"))) q1 ∧ List.Forall₂ (fun p q =>
        functionSkeleton p.1 = .ok q.2 ∧ q.1 = p.2) l q2 ∧ qs = q1 ++ q2 :=
      forall₂_split h
    obtain ⟨fs, rfl, hf⟩ := forall₂_const h1
    obtain ⟨g, rfl, hg, ht⟩ := ih (fun p hp => hn p (List.mem_append_right _ hp)) h2
    refine ⟨⟨(s%"number", fs) :: g.groups, g.rest⟩, by simp [Groups.pairs], ?_, ?_⟩
    · intro p hp
      rcases List.mem_cons.1 hp with rfl | hp
      · rfl
      · exact hg p hp
    · rw [functionToks_nodes hf (fun t ht => hn (t, some s%"number") (List.mem_append_left _ (List.mem_map.2 ⟨t, ht, rfl⟩)))]
      have he : (false || !ts.isEmpty) = true := by cases ts <;> simp_all
      rw [he]
      simp [functionToks, word, ht, funList, TypedList.tokens, check]

theorem sectionFunctions_iff {b : List Tree} {g : Groups NFun} (hg : ∀ p ∈ g.groups, p.1 = s%"number")
    (ht : functionToks false b = .ok (funList g).tokens) {d : FunDict} :
    sectionFunctions b = .ok d ↔ 1 ≤ b.length ∧ g.pairs.Pairwise (fun a b => b.2.pyEq a.2 = false) ∧ d = g.pairs.map Prod.swap := by
  unfold sectionFunctions
  rw [ht, ok_bind]
  by_cases hb : 1 ≤ b.length
  · have hc : check (decide (1 ≤ b.length)) Exc.lark = .ok () := check_ok.2 (decide_eq_true hb)
    rw [hc, ok_bind, typedListError_ok, parseTypedList_eq false _ (funList_ok hg), funList_items]
    have hpw : Unequal ([] ++ g.pairs.map (fun p => (Item.fn p.2, p.1.toList))) ↔
        g.pairs.Pairwise (fun a b => b.2.pyEq a.2 = false) := by
      rw [List.nil_append]
      unfold Unequal
      rw [List.pairwise_map]
      exact Iff.rfl
    by_cases hu : Unequal ([] ++ g.pairs.map (fun p => (Item.fn p.2, p.1.toList)))
    · rw [(addAll_false List.Pairwise.nil).1 hu]
      simp only [ok_bind, TIndex.names, namesOf_eq, List.nil_append]
      rw [if_pos]
      · simp only [ok_bind, pure_ok, List.map_map, Function.comp_def, Except.ok.injEq]
        have := fns_filterMap g.pairs
        constructor
        · intro h; exact ⟨hb, hpw.1 hu, h.symm.trans this⟩
        · intro h; rw [h.2.2]; exact this
      · intro p hp
        obtain ⟨q, _, rfl⟩ := List.mem_map.1 hp
        cases q.1 <;> simp
    · rw [(addAll_false List.Pairwise.nil).2 hu]
      simp only [error_bind, reduceCtorEq, false_iff]
      rintro ⟨_, h, _⟩
      exact hu (hpw.2 h)
  · simp [check, hb]

theorem functionsText_length {b : List Tree} {l : List (Tree × Option Str)} (h : FunctionsText b l) :
    1 ≤ b.length ↔ 1 ≤ l.length := by
  induction h with
  | rest ts => simp
  | @group ts us l hne _ ih =>
    have : 1 ≤ ts.length := List.length_pos_iff.2 hne
    simp; omega

theorem sectionFunctions_rearranged {b b' : List Tree} {d : FunDict} (hs : SameFunctionsText b b')
    (h : sectionFunctions b = .ok d) : ∃ d', sectionFunctions b' = .ok d' ∧ d.Perm d' ∧ IsFunDict d := by
  have hd := (functions_decl h).1
  obtain ⟨l, l', hl, hl', hn, hp⟩ := hs
  have hn' : ∀ p ∈ l', ∃ c, p.1 = .node c := fun p h => hn p (hp.mem_iff.2 h)
  have htoks : ∃ toks, functionToks false b = .ok toks := by
    unfold sectionFunctions at h
    obtain ⟨toks, h1, _⟩ := bind_ok_iff.1 h
    exact ⟨toks, h1⟩
  obtain ⟨toks, htoks⟩ := htoks
  have hsk := functionToks_skeletons hl hn htoks
  obtain ⟨qs, hq⟩ : ∃ qs : List (Option Str × NFun), List.Forall₂ (fun p q => functionSkeleton p.1 = .ok q.2 ∧ q.1 = p.2) l qs := by
    clear * - hsk
    induction l with
    | nil => exact ⟨[], .nil⟩
    | cons p l ih =>
      obtain ⟨f, hf⟩ := hsk p (by simp)
      obtain ⟨qs, hq⟩ := ih (fun p hp => hsk p (by simp [hp]))
      exact ⟨(p.2, f) :: qs, .cons ⟨hf, rfl⟩ hq⟩
  obtain ⟨g, rfl, hg, ht⟩ := functionToks_build hl hn hq
  obtain ⟨qs', hq', hpq⟩ := forall₂_perm hp hq
  obtain ⟨g', rfl, hg', ht'⟩ := functionToks_build hl' hn' hq'
  obtain ⟨h1, h2, rfl⟩ := (sectionFunctions_iff hg ht).1 h
  refine ⟨_, (sectionFunctions_iff hg' ht').2 ⟨?_, ?_, rfl⟩, hpq.map _, hd⟩
  · rw [functionsText_length hl', ← hp.length_eq, ← functionsText_length hl]; exact h1
  · refine hpq.pairwise h2 (fun {a b} hab => ?_)
    by_contra hc
    rw [Bool.not_eq_false] at hc
    have := eqv_nfun.symm hc
    rw [this] at hab
    cases hab

end Pddl
