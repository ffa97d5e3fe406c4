/-
Goals of problems.
-/
import Verif.Proofs.ParseProb
import Verif.Spec.Goal

namespace Pddl
open Spec

theorem consistent_consts (ts : List Term) (h : ∀ t ∈ ts, ∃ n, t = .const n none) :
    ∀ seen : List (Str × List Str), (∀ p ∈ seen, p.2 = []) → termsConsistent seen ts = true := by
  induction ts with
  | nil => intro seen _; rfl
  | cons t ts ih =>
    intro seen hs
    obtain ⟨n, rfl⟩ := h t (by simp)
    have ih := ih (fun t ht => h t (List.mem_cons_of_mem _ ht))
    unfold termsConsistent
    split
    · exact ih _ (by
        intro p hp
        rcases List.mem_append.1 hp with hp | hp
        · exact hs p hp
        · simp only [List.mem_singleton] at hp; subst hp; rfl)
    · rename_i tags hg
      have := hs _ (mem_of_dictGet hg)
      simp only at this
      subst this
      simp only [Bool.and_eq_true]
      exact ⟨rfl, ih _ hs⟩

theorem goal_terms {F : FloatOf} {ns : List Str} (h : ∀ n ∈ ns, ValidName n) :
    (goalEnv F).terms (ns.map (fun n => .atom (.name n))) = .ok (ns.map (fun n => .const n none)) := by
  induction ns with
  | nil => rfl
  | cons n ns ih =>
    have h1 : mkConst n none = .ok (.const n none) := by
      unfold mkConst
      rw [parseName_ok.2 ⟨rfl, h n (by simp)⟩]
      rfl
    simp only [List.map_cons, GEnv.terms]
    rw [ih (fun m hm => h m (List.mem_cons_of_mem _ hm))]
    change (mkConst n none >>= _) = _
    rw [h1]
    rfl

theorem valid_not_keyword {n : Str} (h : ValidName n) : n ∉ gdKeywords := by
  intro hn
  have : ∀ w ∈ gdKeywords, ¬ ValidName w := by decide
  exact this n hn h

theorem plainNumber_ok {F : FloatOf} {t : Tree} (h : PlainNumber t) :
    (∃ e, (goalEnv F).fExp t = .ok e) ∧ ∀ t', startsWithTerm [t, t'] = false := by
  cases h with
  | @int s h =>
    refine ⟨⟨.num (.int (digitsVal s)), ?_⟩, fun _ => rfl⟩
    simp [GEnv.fExp, numLiteral, h]
  | @fn f ns hf hn =>
    have := goal_terms (F := F) hn
    refine ⟨⟨.nfun ⟨f, ns.map (fun n => .const n none)⟩, ?_⟩, fun _ => rfl⟩
    exact fExp_of_rel (.fn this (mkNFun_ok.2 ⟨parseFunction_ok.2 ⟨rfl, hf⟩, rfl⟩))

theorem plainGoal_ok {F : FloatOf} {t : Tree} (h : PlainGoal t) : ∃ e, GRel (goalEnv F) t e := by
  induction h with
  | @atom p ns hp hn =>
    exact ⟨_, .atom (valid_not_keyword hp) (goal_terms hn) (mkPred_ok.2 ⟨parseName_ok.2 ⟨rfl, hp⟩,
      consistent_consts _ (by simp) [] (by simp), rfl⟩)⟩
  | @and l _ ih =>
    have : ∀ l : List Tree, (∀ t ∈ l, ∃ e, GRel (goalEnv F) t e) →
        ∃ es : List Expr, l.length = es.length ∧ ∀ p ∈ l.zip es, GRel (goalEnv F) p.1 p.2 := by
      intro l
      induction l with
      | nil => intro _; exact ⟨[], rfl, by simp⟩
      | cons t l ih =>
        intro h
        obtain ⟨e, he⟩ := h t (by simp)
        obtain ⟨es, h1, h2⟩ := ih (fun t ht => h t (List.mem_cons_of_mem _ ht))
        refine ⟨e :: es, by simp [h1], ?_⟩
        intro p hp
        simp only [List.zip_cons_cons, List.mem_cons] at hp
        rcases hp with rfl | hp
        · exact he
        · exact h2 p hp
    obtain ⟨es, h1, h2⟩ := this l ih
    exact ⟨_, .and h1 h2⟩
  | not _ ih => obtain ⟨e, he⟩ := ih; exact ⟨_, .not he⟩
  | @comp k a b hk ha hb =>
    obtain ⟨⟨e, he⟩, hs⟩ := plainNumber_ok (F := F) ha
    obtain ⟨⟨e', he'⟩, _⟩ := plainNumber_ok (F := F) hb
    have : ∃ op, compOp k = some op := by
      simp only [List.mem_cons, List.not_mem_nil, or_false] at hk
      rcases hk with rfl | rfl | rfl | rfl | rfl <;> exact ⟨_, rfl⟩
    obtain ⟨op, hop⟩ := this
    exact ⟨_, .comp hop (fun _ => hs b) he he'⟩

theorem mapM_requireKey {rs : List Req} (h : Req.objectFluents ∉ rs) :
    (rs.map (fun r => Tree.atom (.kw r.value))).mapM requireKey = some rs := by
  induction rs with
  | nil => rfl
  | cons r rs ih =>
    simp only [List.mem_cons, not_or] at h
    have h1 : requireKey (.atom (.kw r.value)) = some r := by
      have : ∀ r : Req, r ≠ .objectFluents → requireKey (.atom (.kw r.value)) = some r := by
        intro r hr
        cases r <;> first | exact absurd rfl hr | decide +kernel
      exact this r (fun e => h.1 e.symm)
    simp [h1, ih h.2]

/-- A problem with any requirements and a plain goal is accepted. -/
theorem goalProblem_ok {F : FloatOf} {σ : List (Str × Term)} {n dn : Str} (hn : ValidName n) (hdn : ValidName dn)
    {rs : List Req} (hrs : rs ≠ []) (hof : Req.objectFluents ∉ rs) {g : Tree} (hg : PlainGoal g) :
    ∃ p σ', problemDef F σ (goalProblem n dn rs g) = .ok (p, σ') := by
  obtain ⟨e, he⟩ := plainGoal_ok (F := F) hg
  have he := gd_of_rel he
  have hh : header s%"problem" (goalProblem n dn rs g) = .ok (n, (goalProblem n dn rs g).drop 2) := rfl
  have hreq : parseRequirements (rs.map (fun r => .atom (.kw r.value))) = .ok (reqSet rs) := by
    unfold parseRequirements
    split
    · rename_i h; simp at h; exact absurd h hrs
    · rw [mapM_requireKey hof]; rfl
  refine ⟨{ name := n, domain := none, domainName_ := dn, reqs_ := some (reqSet (reqSet rs)), objects := [], init := [],
            goal := e, metric := none }, σ, ?_⟩
  unfold problemDef
  rw [hh, ok_bind]
  simp only [goalProblem, List.drop_succ_cons, List.drop_zero]
  have h1 : problemDomain [.node [.atom (.kw s%"domain"), .atom (.name dn)],
     .node (.atom (.kw s%"requirements") :: rs.map (fun r => .atom (.kw r.value))),
     .node [.atom (.kw s%"init")], .node [.atom (.kw s%"goal"), g]] = .ok (dn, [
     .node (.atom (.kw s%"requirements") :: rs.map (fun r => .atom (.kw r.value))),
     .node [.atom (.kw s%"init")], .node [.atom (.kw s%"goal"), g]]) := rfl
  rw [h1, ok_bind]
  have h2 : takeSection s%"requirements" [.node (.atom (.kw s%"requirements") :: rs.map (fun r => .atom (.kw r.value))),
     .node [.atom (.kw s%"init")], .node [.atom (.kw s%"goal"), g]] = (some (rs.map (fun r => .atom (.kw r.value))),
     [.node [.atom (.kw s%"init")], .node [.atom (.kw s%"goal"), g]]) := rfl
  simp only [h2, optSection, problemRequirements, hreq, ok_bind, pure_ok]
  have h3 : takeSection s%"objects" [.node [.atom (.kw s%"init")], .node [.atom (.kw s%"goal"), g]] =
    (none, [.node [.atom (.kw s%"init")], .node [.atom (.kw s%"goal"), g]]) := rfl
  have h4 : ∀ σ, problemInit F σ [.node [.atom (.kw s%"init")], .node [.atom (.kw s%"goal"), g]] =
    .ok ([], [.node [.atom (.kw s%"goal"), g]]) := fun _ => rfl
  have h5 : problemGoal F [.node [.atom (.kw s%"goal"), g]] = .ok (e, []) := by
    unfold problemGoal
    have : takeSection s%"goal" [.node [.atom (.kw s%"goal"), g]] = (some [g], []) := rfl
    simp [this, he]
  simp only [h3, ok_bind, h4, h5]
  simp only [problemMetric, pure_ok, ok_bind, mkProblem, parseDomainName, parseName_ok.2 ⟨rfl, hn⟩,
    parseName_ok.2 ⟨rfl, hdn⟩, parseReqs, dedupBy, List.all_nil, Problem.checkConsistency, check]
  rfl

end Pddl
