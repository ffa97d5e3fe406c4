/-
C35: the outcome of a call of a parser object and the calls before it.
-/
import Verif.Model.History
import Verif.Proofs.ParseProb
import Verif.Proofs.Keeps
import Verif.Proofs.Provenance
import Verif.Proofs.HistoryState

namespace Pddl.Props
open Pddl Spec

/-- The full statement, for domain parsers. -/
def C35_full : Prop := ∀ (F : FloatOf) (history : List Str) (text : Str),
  (callDomain F (afterCalls F history) text).1.toOption = (callDomain F .fresh text).1.toOption

def adlText : Str := s%"(define (domain d) (:requirements :adl))"
def orText : Str :=
  s%"(define (domain d) (:predicates (p)) (:action a :parameters () :precondition (or (p) (p)) :effect (p)))"

/-- It is false: a domain without requirements is accepted with those of an earlier domain. -/
theorem C35_fails : ¬ C35_full := by
  intro h
  have h1 := h (fun _ => none) [adlText] orText
  have h2 : (callDomain (fun _ => none) (afterCalls (fun _ => none) [adlText]) orText).1.toOption.isSome = true := by
    decide +kernel
  have h3 : (callDomain (fun _ => none) .fresh orText).1.toOption.isSome = false := by decide +kernel
  rw [h1, h3] at h2
  cases h2

def typesText : Str := s%"(define (domain d) (:requirements :typing) (:types t) (:constants c - t) (:predicates (p)))"
def brokenText : Str :=
  s%"(define (domain d) (:types t) (:action a :parameters () :precondition (or) :effect ()))"

/-- After a call that fails behind its section `:types`, the parser rejects every text with such a
section: an example. -/
theorem C35_fails_after_failure :
    (callDomain (fun _ => none) .fresh typesText).1.toOption.isSome = true ∧
    (callDomain (fun _ => none) .fresh brokenText).1.toOption.isSome = false ∧
    (callDomain (fun _ => none) (afterCalls (fun _ => none) [brokenText]) typesText).1.toOption.isSome = false := by
  decide +kernel

/-- A section of a text. -/
def HasSection (k : Str) (ts : List Tree) : Prop := ∃ b, .node (.atom (.kw k) :: b) ∈ ts

/-- The text sets everything that a parser keeps from call to call: it has the sections that are
optional, and no derived predicate comes before the first action. -/
structure Sets (ts : List Tree) : Prop where
  requirements : HasSection s%"requirements" ts
  constants : HasSection s%"constants" ts
  predicates : HasSection s%"predicates" ts
  derived : ∀ pre b post, ts = pre ++ .node (.atom (.kw s%"derived") :: b) :: post → HasSection s%"action" pre

theorem actionDef_congr {F : FloatOf} {σ σ' τ : PState} {body : List Tree} {a : Action}
    (h1 : σ.ext = σ'.ext) (h2 : σ.consts = σ'.consts) (h : actionDef F σ body = .ok (a, τ)) :
    actionDef F σ' body = .ok (a, { σ' with params := τ.params }) := by
  have he : ∀ p, ({ σ with params := p } : PState).env F = ({ σ' with params := p } : PState).env F := by
    intro p
    simp only [PState.env, GEnv.mk.injEq, true_and, and_true]
    refine ⟨h1, ?_⟩
    funext n
    simp only [PState.constant, h2]
  unfold actionDef at h ⊢
  split at h
  · obtain ⟨_, hc, h⟩ := bind_ok_iff.1 h
    obtain ⟨ps, hp, h⟩ := bind_ok_iff.1 h
    simp only [he] at h
    obtain ⟨⟨pre, rest⟩, hpre, h⟩ := bind_ok_iff.1 h
    simp only at h
    obtain ⟨eff, heff, h⟩ := bind_ok_iff.1 h
    rw [hc, ok_bind, hp, ok_bind]
    simp only [hpre, ok_bind, heff]
    split at h
    · obtain ⟨a', ha, h⟩ := bind_ok_iff.1 h
      simp only [pure_ok, Except.ok.injEq, Prod.mk.injEq] at h
      obtain ⟨rfl, rfl⟩ := h
      simp only [ha, ok_bind, pure_ok]
    · simp at h
  · simp at h

theorem derivedDef_congr {F : FloatOf} {σ σ' : PState} {body : List Tree}
    (h : σ.Same σ') (hp : σ.params = σ'.params) : derivedDef F σ body = derivedDef F σ' body := by
  obtain ⟨h1, h2, h3, h4⟩ := h
  have : σ = σ' := by cases σ; cases σ'; simp_all
  rw [this]

/-- Actions and derived predicates from two states. -/
theorem structures_congr {F : FloatOf} {σ σ' τ : PState} {ts : List Tree} {as : List Action} {ds : List Derived}
    (h1 : σ.ext = σ'.ext) (h2 : σ.consts = σ'.consts) (h3 : σ.preds = σ'.preds)
    (ht : σ.types = σ'.types ∨ ¬ HasSection s%"derived" ts)
    (hp : σ.params = σ'.params ∨ ∀ b post, ts ≠ .node (.atom (.kw s%"derived") :: b) :: post)
    (h : structures F σ ts = .ok (as, ds, τ)) : ∃ τ', structures F σ' ts = .ok (as, ds, τ') := by
  induction ts generalizing σ σ' as ds with
  | nil =>
    simp only [structures, pure_ok, Except.ok.injEq, Prod.mk.injEq] at h
    obtain ⟨rfl, rfl, rfl⟩ := h
    exact ⟨σ', rfl⟩
  | cons t ts ih =>
    have hrest : ¬ HasSection s%"derived" (t :: ts) → ¬ HasSection s%"derived" ts :=
      fun hn ⟨b, hb⟩ => hn ⟨b, List.mem_cons_of_mem _ hb⟩
    unfold structures at h
    split at h
    · simp at *
    · rename_i k body ts' heq
      injection heq with e1 e2
      subst e2; subst e1
      unfold structures
      split at h
      · rename_i hk
        rw [if_pos hk]
        obtain ⟨⟨a, σ1⟩, ha, h⟩ := bind_ok_iff.1 h
        obtain ⟨⟨as', ds', σ2⟩, hs, h⟩ := bind_ok_iff.1 h
        simp only [pure_ok, Except.ok.injEq, Prod.mk.injEq] at h
        obtain ⟨rfl, rfl, rfl⟩ := h
        obtain ⟨g1, g2, g3, g4⟩ := actionDef_same ha
        have ha' := actionDef_congr h1 h2 ha
        obtain ⟨τ', hτ⟩ := ih (σ := σ1) (σ' := { σ' with params := σ1.params }) (g1.trans h1) (g2.trans h2) (g3.trans h3)
          (ht.imp (fun e => g4.trans e) hrest) (.inl rfl) hs
        exact ⟨τ', by rw [ha', ok_bind]; simp only; rw [hτ]; rfl⟩
      · rename_i hk
        rw [if_neg hk]
        split at h
        · rename_i hk'
          rw [if_pos hk']
          subst hk'
          have hp' := hp.resolve_right (fun hn => hn body ts rfl)
          have ht' := ht.resolve_right (fun hn => hn ⟨body, by simp⟩)
          obtain ⟨dd, hd, h⟩ := bind_ok_iff.1 h
          obtain ⟨⟨as', ds', σ2⟩, hs, h⟩ := bind_ok_iff.1 h
          simp only [pure_ok, Except.ok.injEq, Prod.mk.injEq] at h
          obtain ⟨rfl, rfl, rfl⟩ := h
          obtain ⟨τ', hτ⟩ := ih h1 h2 h3 (.inl ht') (.inl hp') hs
          rw [derivedDef_congr ⟨h1, h2, h3, ht'⟩ hp'] at hd
          exact ⟨τ', by rw [hd, ok_bind, hτ]; rfl⟩
        · simp at h
    · simp at h

theorem hasSection_take {k k' : Str} {ts rest : List Tree} {r : Option (List Tree)} (hk : k ≠ k')
    (h : takeSection k' ts = (r, rest)) (hs : HasSection k ts) : HasSection k rest := by
  obtain ⟨b, hb⟩ := hs
  rcases takeSection_mem h hb with ⟨body, _, e⟩ | hm
  · simp only [Tree.node.injEq, List.cons.injEq, Tree.atom.injEq, Tok.kw.injEq] at e
    exact absurd e.1 hk
  · exact ⟨b, hm⟩

theorem take_suffix {k : Str} {ts rest : List Tree} {r : Option (List Tree)}
    (h : takeSection k ts = (r, rest)) :
    ∃ pre, ts = pre ++ rest ∧ ∀ x ∈ pre, ∃ b, x = .node (.atom (.kw k) :: b) := by
  cases r with
  | none => exact ⟨[], takeSection_none h, by simp⟩
  | some b => exact ⟨[_], takeSection_some h, by simp⟩

/-- A successful parse from one state gives a parse from another, if the text sets what the states differ
in. -/
theorem reparse {F : FloatOf} {σ σ' τ : PState} {ts : List Tree} {d : Domain} (hs : Sets ts)
    (ht : (σ.types = none ∧ σ'.types = none) ∨ (¬ HasSection s%"types" ts ∧ ¬ HasSection s%"derived" ts))
    (h : domainDef F σ ts = .ok (d, τ)) : ∃ τ', domainDef F σ' ts = .ok (d, τ') := by
  obtain ⟨⟨n, ts0, hheader, r1, ts1, h1, rq, σ1, hreqs, r2, ts2, h2, types, σ2, htypes, r3, ts3, h3, consts, σ3, hconsts, r4,
    ts4, h4, preds, σ4, hpreds, r5, ts5, h5, funs, hfuns, as, ds, σ5, hstruct, hdomain, hσ'⟩⟩ := domainDef_ok h
  obtain ⟨w, x, he, hk, hx⟩ := header_ok hheader
  have hin : ∀ k b, .node (.atom (.kw k) :: b) ∈ ts → .node (.atom (.kw k) :: b) ∈ ts0 := by
    intro k b hb
    rw [he] at hb
    simp only [List.mem_cons, reduceCtorEq, Tree.node.injEq, false_or] at hb
    rcases hb with hb | hb
    · rcases hx with ⟨rfl, _⟩ | ⟨rfl, _⟩ <;> simp at hb
    · exact hb
  have hs0 : ∀ k, HasSection k ts → HasSection k ts0 := fun k ⟨b, hb⟩ => ⟨b, hin k b hb⟩
  have hno : ∀ k, HasSection k ts5 → k = s%"action" ∨ k = s%"derived" := by
    rintro k ⟨b, hb⟩
    rcases structures_mem hstruct hb with ⟨_, _, _, _, e, _⟩ | ⟨_, _, _, e, _⟩ <;>
      simp only [Tree.node.injEq, List.cons.injEq, Tree.atom.injEq, Tok.kw.injEq] at e
    · exact .inl e.1
    · exact .inr e.1
  -- the sections are there
  have hr1 : ∃ b, r1 = some b := by
    cases r1 with
    | some b => exact ⟨b, rfl⟩
    | none =>
      have := hs0 _ hs.requirements
      rw [takeSection_none h1] at this
      have := hasSection_take (by decide) h5 (hasSection_take (by decide) h4 (hasSection_take (by decide) h3
        (hasSection_take (by decide) h2 this)))
      rcases hno _ this with h | h <;> exact absurd h (by decide)
  have hr3 : ∃ b, r3 = some b := by
    cases r3 with
    | some b => exact ⟨b, rfl⟩
    | none =>
      have := hasSection_take (by decide) h2 (hasSection_take (by decide) h1 (hs0 _ hs.constants))
      rw [takeSection_none h3] at this
      have := hasSection_take (by decide) h5 (hasSection_take (by decide) h4 this)
      rcases hno _ this with h | h <;> exact absurd h (by decide)
  have hr4 : ∃ b, r4 = some b := by
    cases r4 with
    | some b => exact ⟨b, rfl⟩
    | none =>
      have := hasSection_take (by decide) h3 (hasSection_take (by decide) h2 (hasSection_take (by decide) h1 (hs0 _ hs.predicates)))
      rw [takeSection_none h4] at this
      have := hasSection_take (by decide) h5 this
      rcases hno _ this with h | h <;> exact absurd h (by decide)
  obtain ⟨b1, rfl⟩ := hr1
  obtain ⟨b3, rfl⟩ := hr3
  obtain ⟨b4, rfl⟩ := hr4
  simp only [reduceCtorEq, false_and, Option.some.injEq, false_or, exists_eq_left'] at hreqs hconsts hpreds
  obtain ⟨hq, rfl⟩ := hreqs
  -- the types
  obtain ⟨σ2', htypes', e2, ht2⟩ : ∃ σ2', ((r2 = none ∧ types = [] ∧ σ2' = { σ' with ext := extendReqs rq }) ∨
      ∃ b, r2 = some b ∧ sectionTypes { σ' with ext := extendReqs rq } b = .ok (types, σ2')) ∧ σ2'.ext = σ2.ext ∧
      (σ2.types = σ2'.types ∨ ¬ HasSection s%"derived" ts) := by
    rcases htypes with ⟨hr2, rfl, rfl⟩ | ⟨b2, rfl, htypes⟩
    · refine ⟨_, .inl ⟨hr2, rfl, rfl⟩, rfl, ?_⟩
      rcases ht with ⟨e, e'⟩ | ⟨_, e⟩
      · exact .inl (by simp only [e, e'])
      · exact .inr e
    · have hty : HasSection s%"types" ts := by
        refine ⟨b2, ?_⟩
        rw [he]
        refine List.mem_cons_of_mem _ (List.mem_cons_of_mem _ (takeSection_sub h1 ?_))
        rw [takeSection_some h2]; simp
      obtain ⟨e, e'⟩ := ht.resolve_right (fun hn => hn.1 hty)
      unfold sectionTypes at htypes ⊢
      obtain ⟨dd, hd1, htypes⟩ := bind_ok_iff.1 htypes
      obtain ⟨_, hd2, htypes⟩ := bind_ok_iff.1 htypes
      simp only [e, Option.isNone_none, check, if_true, ok_bind, pure_ok, Except.ok.injEq, Prod.mk.injEq] at htypes
      obtain ⟨rfl, rfl⟩ := htypes
      refine ⟨{ σ' with ext := extendReqs rq, types := some (dd.map (fun p => if p.2 = some s%"object" then (p.1, none) else p)) },
        .inr ⟨b2, rfl, ?_⟩, rfl, .inl ?_⟩
      · rw [hd1, ok_bind]
        simp only [hd2, ok_bind, e', Option.isNone_none, pure_ok]
        rfl
      · rfl
  -- constants and predicates
  unfold sectionConstants at hconsts
  obtain ⟨d3, hc1, hconsts⟩ := bind_ok_iff.1 hconsts
  obtain ⟨c3, hc2, hconsts⟩ := bind_ok_iff.1 hconsts
  simp only [pure_ok, Except.ok.injEq, Prod.mk.injEq] at hconsts
  obtain ⟨rfl, rfl⟩ := hconsts
  unfold sectionPredicates at hpreds
  obtain ⟨p4, hp1, hpreds⟩ := bind_ok_iff.1 hpreds
  obtain ⟨_, hp2, hpreds⟩ := bind_ok_iff.1 hpreds
  simp only [pure_ok, Except.ok.injEq, Prod.mk.injEq] at hpreds
  obtain ⟨rfl, rfl⟩ := hpreds
  have hsub : ∀ t ∈ ts5, t ∈ ts := fun t ht => by
    rw [he]
    exact List.mem_cons_of_mem _ (List.mem_cons_of_mem _ (takeSection_sub h1 (takeSection_sub h2 (takeSection_sub h3
      (takeSection_sub h4 (takeSection_sub h5 ht))))))
  obtain ⟨τ', hτ⟩ := structures_congr
    (σ := { σ2 with consts := dictOf c3, preds := dictOf (p4.map (fun p => (p.name, p))) })
    (σ' := { σ2' with consts := dictOf c3, preds := dictOf (p4.map (fun p => (p.name, p))) })
    (e2.symm) rfl rfl (ht2.imp id (fun hn ⟨b, hb⟩ => hn ⟨b, hsub _ hb⟩)) (.inr (by
      rintro b post rfl
      obtain ⟨p1, e1, q1⟩ := take_suffix h1
      obtain ⟨p2, e2, q2⟩ := take_suffix h2
      obtain ⟨p3, e3, q3⟩ := take_suffix h3
      obtain ⟨p4, e4, q4⟩ := take_suffix h4
      obtain ⟨p5, e5, q5⟩ := take_suffix h5
      rw [e1, e2, e3, e4, e5] at he
      obtain ⟨b', hb'⟩ := hs.derived (.atom (.name s%"define") :: .node x :: (p1 ++ (p2 ++ (p3 ++ (p4 ++ p5))))) b post
        (by rw [he]; simp)
      simp only [List.mem_cons, reduceCtorEq, Tree.node.injEq, false_or, List.mem_append] at hb'
      have contra : ∀ (k : Str) (p : List Tree), k ≠ s%"action" → (∀ x ∈ p, ∃ b, x = Tree.node (.atom (.kw k) :: b)) →
          Tree.node (.atom (.kw s%"action") :: b') ∉ p := by
        intro k p hk hp hm
        obtain ⟨b, e⟩ := hp _ hm
        simp only [Tree.node.injEq, List.cons.injEq, Tree.atom.injEq, Tok.kw.injEq] at e
        exact hk e.1.symm
      rcases hb' with hb' | hb' | hb' | hb' | hb' | hb'
      · rcases hx with ⟨rfl, _⟩ | ⟨rfl, _⟩ <;> simp at hb'
      · exact contra _ _ (by decide) q1 hb'
      · exact contra _ _ (by decide) q2 hb'
      · exact contra _ _ (by decide) q3 hb'
      · exact contra _ _ (by decide) q4 hb'
      · exact contra _ _ (by decide) q5 hb')) hstruct
  refine ⟨_, (DomainParse.mk n ts0 hheader (some b1) ts1 h1 rq _ (.inr ⟨b1, rfl, hq, rfl⟩) r2 ts2 h2 types σ2' htypes'
    (some b3) ts3 h3 _ { σ2' with consts := dictOf c3 } (.inr ⟨b3, rfl, ?_⟩) (some b4) ts4 h4 p4
    { σ2' with consts := dictOf c3, preds := dictOf (p4.map (fun p => (p.name, p))) } (.inr ⟨b4, rfl, ?_⟩) r5 ts5 h5 funs hfuns as ds τ' hτ hdomain rfl).run⟩
  · simp only [sectionConstants, hc1, ok_bind, hc2, pure_ok]
  · simp only [sectionPredicates, hp1, ok_bind, hp2, pure_ok]

theorem callDomain_ok {F : FloatOf} {σ : PState} {t : Str} {d : Domain} :
    (callDomain F σ t).1.toOption = some d ↔ ∃ τ, parseDomain F σ t = .ok (d, τ) := by
  unfold callDomain
  split
  · rename_i d' σ' h
    simp [h, Except.toOption]
  · rename_i e h
    simp [h, Except.toOption]

theorem reparse_text {F : FloatOf} {σ σ' : PState} {text : Str} {ts : List Tree} (hr : readText text = .ok [.node ts])
    (hs : Sets ts)
    (ht : (σ.types = none ∧ σ'.types = none) ∨ (¬ HasSection s%"types" ts ∧ ¬ HasSection s%"derived" ts)) :
    (callDomain F σ text).1.toOption = (callDomain F σ' text).1.toOption := by
  apply Option.ext
  intro d
  rw [callDomain_ok, callDomain_ok]
  have key : ∀ {σ σ' : PState}, ((σ.types = none ∧ σ'.types = none) ∨ (¬ HasSection s%"types" ts ∧ ¬ HasSection s%"derived" ts)) →
      (∃ τ, parseDomain F σ text = .ok (d, τ)) → ∃ τ, parseDomain F σ' text = .ok (d, τ) := by
    rintro σ σ' ht ⟨τ, h⟩
    obtain ⟨ts', hr', hd⟩ := parseDomain_ok h
    rw [hr] at hr'
    simp only [Except.ok.injEq, List.cons.injEq, Tree.node.injEq, and_true] at hr'
    subst hr'
    obtain ⟨τ', hd'⟩ := reparse (σ' := σ') hs ht hd
    refine ⟨τ', ?_⟩
    unfold parseDomain
    rw [hr, ok_bind]
    exact hd'
  exact ⟨key ht, key (ht.imp And.symm id)⟩

theorem afterCalls_snoc (F : FloatOf) (h : List Str) (t : Str) :
    afterCalls F (h ++ [t]) = (callDomain F (afterCalls F h) t).2 := by
  simp [afterCalls]

/-- All calls of the history succeed. -/
def AllSucceed (F : FloatOf) (history : List Str) : Prop :=
  ∀ pre t post, history = pre ++ t :: post → ∃ d, (callDomain F (afterCalls F pre) t).1 = .ok d

theorem types_none {F : FloatOf} {history : List Str} (h : AllSucceed F history) : (afterCalls F history).types = none := by
  induction history using List.reverseRecOn with
  | nil => rfl
  | append_singleton hist t ih =>
    obtain ⟨d, hd⟩ := h hist t [] rfl
    rw [afterCalls_snoc]
    obtain ⟨τ, hp⟩ := callDomain_ok.1 (by rw [hd]; rfl : (callDomain F (afterCalls F hist) t).1.toOption = some d)
    have : (callDomain F (afterCalls F hist) t).2 = τ := by unfold callDomain; rw [hp]
    rw [this]
    obtain ⟨ts, _, hdd⟩ := parseDomain_ok hp
    obtain ⟨P⟩ := domainDef_ok hdd
    rw [P.hσ']

/-- C35, for a domain parser all of whose earlier calls succeeded, and a text that sets what the parser
keeps. Missing: other texts (see `C35_fails`) and, when the text has types or derived predicates, calls
after a failure (see `C35_fails_after_failure`). -/
theorem C35_partial (F : FloatOf) (history : List Str) (text : Str) (ts : List Tree) (hr : readText text = .ok [.node ts])
    (hs : Sets ts) (hh : AllSucceed F history) :
    (callDomain F (afterCalls F history) text).1.toOption = (callDomain F .fresh text).1.toOption :=
  reparse_text hr hs (.inl ⟨types_none hh, rfl⟩)

/-- A call that does not leave types behind: it succeeds, or its text is not one parenthesised expression,
or the text has no types, or all of the text is read and only the construction of the domain fails. -/
def LeavesNoTypes (F : FloatOf) (σ : PState) (text : Str) : Prop :=
  (∃ d, (callDomain F σ text).1 = .ok d) ∨ (∀ ts, readText text ≠ .ok [.node ts]) ∨
  (∃ ts, readText text = .ok [.node ts] ∧ ¬ HasSection s%"types" ts) ∨
  (∃ ts a, readText text = .ok [.node ts] ∧ domainKwargs F σ ts = .ok a)

/-- All calls of the history are of this kind. -/
def NoTypesLeft (F : FloatOf) (history : List Str) : Prop :=
  ∀ pre t post, history = pre ++ t :: post → LeavesNoTypes F (afterCalls F pre) t

theorem types_none_left {F : FloatOf} {history : List Str} (h : NoTypesLeft F history) :
    (afterCalls F history).types = none := by
  induction history using List.reverseRecOn with
  | nil => rfl
  | append_singleton hist t ih =>
    have ih' : (afterCalls F hist).types = none :=
      ih (fun pre u post e => h pre u (post ++ [t]) (by rw [e]; simp))
    rw [afterCalls_snoc]
    unfold callDomain
    split
    · rename_i d τ hp
      obtain ⟨ts, _, hdd⟩ := parseDomain_ok hp
      obtain ⟨P⟩ := domainDef_ok hdd
      rw [P.hσ']
    · rename_i e hp
      have hl := h hist t [] rfl
      simp only
      split
      · rename_i ts hr
        rcases hl with ⟨d, hd⟩ | hn | ⟨ts', hr', hs⟩ | ⟨ts', a, hr', hk⟩
        · unfold callDomain at hd
          rw [hp] at hd
          cases hd
        · exact absurd hr (hn ts)
        · rw [hr] at hr'
          simp only [Except.ok.injEq, List.cons.injEq, Tree.node.injEq, and_true] at hr'
          subst hr'
          exact domainLeft_types ts (fun b hb => hs ⟨b, hb⟩) _ ih'
        · rw [hr] at hr'
          simp only [Except.ok.injEq, List.cons.injEq, Tree.node.injEq, and_true] at hr'
          subst hr'
          rw [domainLeft_kwargs hk]
      · exact ih'

/-- C35, also after calls that failed, if they left no types behind. Missing: as for `C35_partial`, and
calls after a text with types that failed while it was read (see `C35_fails_after_failure`). -/
theorem C35_failures_partial (F : FloatOf) (history : List Str) (text : Str) (ts : List Tree)
    (hr : readText text = .ok [.node ts]) (hs : Sets ts) (hh : NoTypesLeft F history) :
    (callDomain F (afterCalls F history) text).1.toOption = (callDomain F .fresh text).1.toOption :=
  reparse_text hr hs (.inl ⟨types_none_left hh, rfl⟩)

/-- Read to the end, but refused by `Domain(...)`: the type of the variable is not declared. -/
def undeclaredText : Str :=
  s%"(define (domain d) (:requirements :typing) (:types t) (:predicates (p ?x - u)))"
/-- Fails in an action, after its parameters: the constant is not declared. -/
def strayText : Str :=
  s%"(define (domain d) (:requirements :typing) (:types t) (:action a :parameters (?x - t) :precondition (p c) :effect (p ?x)))"

example : NoTypesLeft (fun _ => none) [undeclaredText] ∧
    (callDomain (fun _ => none) .fresh undeclaredText).1.toOption.isNone = true := by
  refine ⟨?_, by decide +kernel⟩
  intro pre t post h
  have hp : pre = [] ∧ t = undeclaredText := by
    cases pre with
    | nil => simp only [List.nil_append, List.cons.injEq] at h; exact ⟨rfl, h.1.symm⟩
    | cons a as => simp at h
  obtain ⟨rfl, rfl⟩ := hp
  refine .inr (.inr (.inr ?_))
  have h1 : (match readText undeclaredText with
    | .ok [.node ts] => (domainKwargs (fun _ => none) (afterCalls (fun _ => none) []) ts).toOption.isSome
    | _ => false) = true := by decide +kernel
  split at h1
  · rename_i ts hr
    cases hk : domainKwargs (fun _ => none) (afterCalls (fun _ => none) []) ts with
    | ok a => exact ⟨ts, a, hr, hk⟩
    | error e => rw [hk] at h1; simp [Except.toOption] at h1
  · cases h1

/-- What a failing call leaves: a domain refused by its constructor does not hinder the next one, one that
fails in an action does. -/
theorem C35_after_failure :
    (callDomain (fun _ => none) (afterCalls (fun _ => none) [undeclaredText]) typesText).1.toOption.isSome = true ∧
    (callDomain (fun _ => none) (afterCalls (fun _ => none) [strayText]) typesText).1.toOption.isSome = false ∧
    (callDomain (fun _ => none) .fresh typesText).1.toOption.isSome = true := by
  decide +kernel

/-- A derived predicate before any action: its condition is read with the parameters of the last action. -/
def leftoverText : Str :=
  s%"(define (domain d) (:requirements :typing) (:predicates (p ?x) (q)) (:derived (q) (p ?x)))"

/-- The conditions of the derived predicates. -/
def derivedConditions (r : Except Exc Domain × PState) : Option (List Expr) :=
  r.1.toOption.map (fun d => d.derived.map (·.cond))

/-- The parameters of an action that failed are left behind too: the same text gives another domain. -/
theorem C35_stale_parameters :
    (derivedConditions (callDomain (fun _ => none) (afterCalls (fun _ => none) [strayText]) leftoverText)).isSome = true ∧
    (derivedConditions (callDomain (fun _ => none) .fresh leftoverText)).isSome = true ∧
    derivedConditions (callDomain (fun _ => none) (afterCalls (fun _ => none) [strayText]) leftoverText) ≠
      derivedConditions (callDomain (fun _ => none) .fresh leftoverText) := by
  decide +kernel

/-- C35, for a text that also has no section `:types` and no derived predicate: any history, and in fact
any state of the parser. -/
theorem C35_any_partial (F : FloatOf) (σ : PState) (text : Str) (ts : List Tree) (hr : readText text = .ok [.node ts])
    (hs : Sets ts) (ht : ¬ HasSection s%"types" ts) (hd : ¬ HasSection s%"derived" ts) :
    (callDomain F σ text).1.toOption = (callDomain F .fresh text).1.toOption :=
  reparse_text hr hs (.inr ⟨ht, hd⟩)

def setsText : Str :=
  s%"(define (domain d) (:requirements :typing) (:types t) (:constants c - t) (:predicates (p ?x - t)) (:action a :parameters (?x - t) :precondition (p ?x) :effect (not (p ?x))) (:derived (p ?x) (p ?x)))"

def setsTrees : List Tree := match readText setsText with
  | .ok [.node ts] => ts
  | _ => []

/-- A test for the last condition of `Sets`. -/
def derivedAt : Bool → List Tree → Bool
  | _, [] => true
  | seen, .node (.atom (.kw k) :: _) :: ts =>
    (decide (k ≠ s%"derived") || seen) && derivedAt (seen || decide (k = s%"action")) ts
  | seen, _ :: ts => derivedAt seen ts

theorem derivedAt_ok {seen : Bool} {ts : List Tree} (h : derivedAt seen ts = true) {pre b post}
    (e : ts = pre ++ .node (.atom (.kw s%"derived") :: b) :: post) : seen = true ∨ HasSection s%"action" pre := by
  induction ts generalizing seen pre with
  | nil => simp at e
  | cons t ts ih =>
    cases pre with
    | nil =>
      simp only [List.nil_append, List.cons.injEq] at e
      obtain ⟨rfl, rfl⟩ := e
      unfold derivedAt at h
      simp only [ne_eq, not_true_eq_false, decide_false, Bool.false_or, Bool.and_eq_true] at h
      exact .inl h.1
    | cons q pre =>
      simp only [List.cons_append, List.cons.injEq] at e
      obtain ⟨rfl, rfl⟩ := e
      have up : HasSection s%"action" pre → HasSection s%"action" (t :: pre) :=
        fun ⟨b, hb⟩ => ⟨b, List.mem_cons_of_mem _ hb⟩
      unfold derivedAt at h
      split at h
      · simp at *
      · rename_i k body ts' heq
        injection heq with e1 e2
        subst e1 e2
        simp only [Bool.and_eq_true] at h
        rcases ih h.2 rfl with hs | hs
        · simp only [Bool.or_eq_true, decide_eq_true_eq] at hs
          rcases hs with hs | rfl
          · exact .inl hs
          · exact .inr ⟨body, by simp⟩
        · exact .inr (up hs)
      · rename_i heq
        injection heq with e1 e2
        subst e2
        exact (ih h rfl).imp id up

/-- Such a text, which is accepted. -/
example : readText setsText = .ok [.node setsTrees] ∧ Sets setsTrees ∧ AllSucceed (fun _ => none) [typesText] ∧
    (callDomain (fun _ => none) .fresh setsText).1.toOption.isSome = true := by
  refine ⟨by decide +kernel, ⟨?_, ?_, ?_, ?_⟩, ?_, by decide +kernel⟩
  · exact ⟨[.atom (.kw s%"typing")], by decide +kernel⟩
  · exact ⟨[.atom (.name s%"c"), .atom .minus, .atom (.name s%"t")], by decide +kernel⟩
  · exact ⟨[.node [.atom (.name s%"p"), .atom .qmark, .atom (.name s%"x"), .atom .minus, .atom (.name s%"t")]], by decide +kernel⟩
  · intro pre b post h
    exact (derivedAt_ok (seen := false) (by decide +kernel) h).resolve_left (by simp)
  · intro pre t post h
    cases pre with
    | nil =>
      simp only [List.nil_append, List.cons.injEq] at h
      obtain ⟨rfl, _⟩ := h
      have : (callDomain (fun _ => none) (afterCalls (fun _ => none) []) typesText).1.toOption.isSome = true := by
        decide +kernel
      cases hc : (callDomain (fun _ => none) (afterCalls (fun _ => none) []) typesText).1 with
      | ok d => exact ⟨d, rfl⟩
      | error e => rw [hc] at this; simp [Except.toOption] at this
    | cons q pre => simp at h

/-- A parser whose last call failed behind the section `:types` rejects every text with such a section. -/
theorem C35_stuck (F : FloatOf) (σ : PState) (hσ : σ.types ≠ none) (text : Str) (ts : List Tree)
    (hr : readText text = .ok [.node ts]) (ht : HasSection s%"types" ts) (d : Domain) :
    (callDomain F σ text).1.toOption ≠ some d := by
  intro h
  obtain ⟨τ, hp⟩ := callDomain_ok.1 h
  obtain ⟨ts', hr', hd⟩ := parseDomain_ok hp
  rw [hr] at hr'
  simp only [Except.ok.injEq, List.cons.injEq, Tree.node.injEq, and_true] at hr'
  subst hr'
  obtain ⟨P⟩ := domainDef_ok hd
  rcases P.htypes with ⟨h2, _⟩ | ⟨b, _, h2⟩
  · obtain ⟨w, x, he, _, hx⟩ := header_ok P.hheader
    obtain ⟨b, hb⟩ := ht
    rw [he] at hb
    simp only [List.mem_cons, reduceCtorEq, Tree.node.injEq, false_or] at hb
    rcases hb with hb | hb
    · rcases hx with ⟨rfl, _⟩ | ⟨rfl, _⟩ <;> simp at hb
    · have := hasSection_take (k := s%"types") (by decide) P.h1 ⟨b, hb⟩
      have h2' := P.h2
      rw [h2] at h2'
      rw [takeSection_none h2'] at this
      obtain ⟨b, hb⟩ := hasSection_take (by decide) P.h5 (hasSection_take (by decide) P.h4 (hasSection_take (by decide) P.h3 this))
      rcases structures_mem P.hstruct hb with ⟨_, _, _, _, e, _⟩ | ⟨_, _, _, e, _⟩ <;> simp at e
  · have hσ1 : P.σ1.types = σ.types := by
      rcases P.hreqs with ⟨_, _, e⟩ | ⟨_, _, _, e⟩ <;> rw [e]
    unfold sectionTypes at h2
    obtain ⟨_, _, h2⟩ := bind_ok_iff.1 h2
    obtain ⟨_, _, h2⟩ := bind_ok_iff.1 h2
    obtain ⟨_, h3, _⟩ := bind_ok_iff.1 h2
    rw [check_ok, hσ1, Option.isNone_iff_eq_none] at h3
    exact hσ h3

/-- `brokenText` leaves a parser in such a state. -/
example : (afterCalls (fun _ => none) [brokenText]).types ≠ none := by decide +kernel

/-! ### Problem parsers -/

def objectsText : Str := s%"(define (problem p) (:domain d) (:objects a - t) (:init) (:goal (p a)))"
def bareText : Str := s%"(define (problem p) (:domain d) (:init (p a)) (:goal (p a)))"

/-- For a problem parser: the initial facts of a problem without objects get the types of the objects of
an earlier problem. -/
theorem C35_problem_fails :
    ((parseProblem (fun _ => none) [] objectsText).toOption.bind (fun r =>
      (parseProblem (fun _ => none) r.2 bareText).toOption.map (fun q => q.1.init))) =
      some [.pred ⟨s%"p", [.const s%"a" (some s%"t")]⟩] ∧
    (parseProblem (fun _ => none) [] bareText).toOption.map (fun q => q.1.init) =
      some [.pred ⟨s%"p", [.const s%"a" none]⟩] := by decide +kernel

/-- C35 for a problem parser and a text with the section `:objects`: any states of the parser. -/
theorem C35_problem_partial (F : FloatOf) (σ σ' : List (Str × Term)) (text : Str) (ts : List Tree)
    (hr : readText text = .ok [.node ts]) (hs : HasSection s%"objects" ts) :
    (parseProblem F σ text).toOption = (parseProblem F σ' text).toOption := by
  have key : ∀ {σ σ' : List (Str × Term)} {r}, parseProblem F σ text = .ok r → parseProblem F σ' text = .ok r := by
    rintro σ σ' ⟨p, τ⟩ h
    obtain ⟨ts', hr', ⟨⟨n, dn, ts1, hheader, r1, ts2, htake1, reqs, hreqs, r2, ib, ts4, htake2, objs, hobjs, init, hinit, g, ts5,
      hts4, goal, hgoal, metric, hmetric, hproblem⟩⟩⟩ := parseProblem_ok h
    rw [hr] at hr'
    simp only [Except.ok.injEq, List.cons.injEq, Tree.node.injEq, and_true] at hr'
    subst hr'
    have hr2 : ∃ b, r2 = some b := by
      cases r2 with
      | some b => exact ⟨b, rfl⟩
      | none =>
        exfalso
        obtain ⟨b, hb⟩ := hs
        obtain ⟨w, x, he, _, hx⟩ := header_ok hheader
        rw [he] at hb
        simp only [List.mem_cons, reduceCtorEq, Tree.node.injEq, false_or, List.cons.injEq, Tree.atom.injEq, Tok.kw.injEq] at hb
        rcases hb with hb | hb | hb
        · rcases hx with ⟨rfl, _⟩ | ⟨rfl, _⟩ <;> simp at hb
        · exact absurd hb.1 (by decide)
        · obtain ⟨b, hb⟩ := hasSection_take (k := s%"objects") (by decide) htake1 ⟨b, hb⟩
          rw [takeSection_none htake2, hts4] at hb
          simp only [List.mem_cons, Tree.node.injEq, List.cons.injEq, Tree.atom.injEq, Tok.kw.injEq] at hb
          rcases hb with hb | hb | hb
          · exact absurd hb.1 (by decide)
          · exact absurd hb.1 (by decide)
          · unfold problemMetric at hmetric
            split at hmetric
            · simp at hb
            · split at hmetric
              · rename_i heq
                rw [takeSection_some heq] at hb
                simp only [List.mem_singleton, Tree.node.injEq, List.cons.injEq, Tree.atom.injEq, Tok.kw.injEq] at hb
                exact absurd hb.1 (by decide)
              · simp at hmetric
    obtain ⟨b, rfl⟩ := hr2
    simp only [reduceCtorEq, false_and, Option.some.injEq, false_or, exists_eq_left'] at hobjs
    unfold parseProblem
    rw [hr, ok_bind]
    exact (ProblemParse.mk n dn ts1 hheader r1 ts2 htake1 reqs hreqs (some b) ib ts4 htake2 objs (.inr ⟨b, rfl, hobjs⟩) init
      hinit g ts5 hts4 goal hgoal metric hmetric hproblem).run
  apply Option.ext
  intro r
  have conv : ∀ σ, (parseProblem F σ text).toOption = some r ↔ parseProblem F σ text = .ok r := by
    intro σ
    cases parseProblem F σ text <;> simp [Except.toOption]
  rw [conv, conv]
  exact ⟨key, key⟩

example : (∃ ts, readText objectsText = .ok [.node ts] ∧ HasSection s%"objects" ts) :=
  ⟨_, rfl, [.atom (.name s%"a"), .atom .minus, .atom (.name s%"t")], by decide +kernel⟩

end Pddl.Props
