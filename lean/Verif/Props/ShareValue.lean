/-
C85: new objects have the value of what was passed, and properties return it.
-/
import Verif.Proofs.ShareValue
import Verif.Props.Share

namespace Pddl.Props
open Spec Share

/-- A new domain has the value that the constructor gives to the contents of the collections that were passed. -/
theorem C85_domain_value {F : FloatOf} {w : World} {name : Str} {reqs types constants predicates functions derived actions : Option Nat}
    (hr : Reachable F w) (hok : (w.step F (.domain name reqs types constants predicates functions derived actions)).2 = .ok ()) :
    ∃ w' a d x, w' = (w.step F (.domain name reqs types constants predicates functions derived actions)).1 ∧ w'.vars = w.vars ++ [a] ∧
      w'.heap.domain a = some d ∧ mkDomain x = .ok d ∧ x.name = name ∧ Passed w .reqs reqs x.reqs ∧ Passed w .types types x.types ∧
      Passed w .terms constants x.constants ∧ Passed w .preds predicates x.predicates ∧ Passed w .funs functions x.functions ∧
      Passed w .derived derived x.derived ∧ Passed w .actions actions x.actions := by
  obtain ⟨hc, hd⟩ := reachable_closed hr
  simp only [World.step] at hok ⊢
  split at hok
  · cases hok
  · rename_i args ha
    split at hok
    · cases hok
    · rename_i d hm
      have hx := domainArgs_types hd ha
      have hfun : d.functions = args.functions := by
        rw [((mkDomain_ok hx).1 hm).2.2.2.2.2.2.2.2]
        rfl
      have ha' := ha
      simp only [World.domainArgs, Option.bind_eq_bind, Option.bind_eq_some_iff, Option.some.injEq] at ha'
      obtain ⟨rs, h1, ts, h2, cs, h3, ps, h4, fs, h5, ds, h6, as, h7, rfl⟩ := ha'
      have hp := And.intro (arg_passed get_reqs h1) (And.intro (arg_passed get_types h2) (And.intro (arg_passed get_terms h3)
        (And.intro (arg_passed get_preds h4) (And.intro (arg_passed get_funs h5) (And.intro (arg_passed get_derived h6)
        (arg_passed get_actions h7))))))
      have h0 : ∀ os : List Obj, (w.heap ++ os)[w.heap.length]? = os[0]? := fun os => getElem?_new (i := 0)
      cases functions with
      | none =>
        simp only [ha, hm, Option.bind_none]
        refine ⟨_, w.heap.length + 2, d, _, rfl, by rw [storeDomain_none], ?_, hm, rfl, hp⟩
        rw [storeDomain_none]
        exact domain_some.2 ⟨_, false, false, _, _, getElem?_new, h0 _, getElem?_new, rfl⟩
      | some x =>
        obtain ⟨fa, fr, hfa, hfs⟩ := arg_passed get_funs h5
        have hlt : fa < w.heap.length := hc.vars fa (List.mem_of_getElem? hfa)
        simp only [ha, hm, Option.bind_some, hfa]
        refine ⟨_, w.heap.length + 1, d, _, rfl, by rw [storeDomain_some], ?_, hm, rfl, hp⟩
        rw [storeDomain_some]
        refine domain_some.2 ⟨_, false, fr, _, fs, getElem?_new, h0 _, ?_, ?_⟩
        · simp only
          rw [List.getElem?_append_left hlt]
          exact hfs
        · have e : fs = d.functions := hfun.symm
          rw [e]

/-- A parsed domain has the value that was read. -/
theorem C85_parsed_domain_value {F : FloatOf} {w : World} {text : Str} (hr : Reachable F w)
    (hok : (w.step F (.parseDomain text)).2 = .ok ()) :
    ∃ w' a d σ, w' = (w.step F (.parseDomain text)).1 ∧ w'.vars = w.vars ++ [a] ∧ parseDomain F .fresh text = .ok (d, σ) ∧
      w'.heap.domain a = some d := by
  obtain ⟨hc, _⟩ := reachable_closed hr
  simp only [World.step] at hok ⊢
  split at hok
  · rename_i d σ hp
    simp only [hp]
    exact ⟨_, w.heap.length + 2, d, σ, rfl, by rw [storeDomain_none], rfl, (isolated_new hc).view⟩
  · cases hok

/-- A new problem has the value that the constructor gives to the contents of the collections that were passed. -/
theorem C85_problem_value {F : FloatOf} {w : World} {name : Str} {domain : Option Nat} {domainName : Option Str}
    {reqs objects init : Option Nat} {goal : Option Expr} {metric : Option Metric} (hr : Reachable F w)
    (hok : (w.step F (.problem name domain domainName reqs objects init goal metric)).2 = .ok ()) :
    ∃ w' a p os is rs d, w' = (w.step F (.problem name domain domainName reqs objects init goal metric)).1 ∧ w'.vars = w.vars ++ [a] ∧
      w'.heap.problem a = some p ∧ mkProblem ⟨name, d, domainName, rs, os, is, goal, metric⟩ = .ok p ∧
      Passed w .terms objects os ∧ Passed w .exprs init is ∧
      (match reqs with | none => rs = none | some x => ∃ l, rs = some l ∧ Passed w .reqs (some x) l) ∧
      (match domain with | none => d = none | some x => ∃ b d', w.vars[x]? = some b ∧ w.heap.domain b = some d' ∧ d = some d') := by
  obtain ⟨hc, _⟩ := reachable_closed hr
  have hmk := makes_problem (F := F) (w := w) (op := .problem name domain domainName reqs objects init goal metric) trivial hok
  simp only [World.step] at hok ⊢
  split at hok
  · cases hok
  · rename_i args ha
    split at hok
    · cases hok
    · rename_i p hm
      have ha' := ha
      simp only [Option.bind_eq_bind, Option.bind_eq_some_iff, Option.some.injEq] at ha'
      obtain ⟨da, h1, d, h2, rs, h3, os, h4, is, h5, rfl⟩ := ha'
      have hda : domain.bind (fun x => w.vars[x]?) = da := by
        cases domain with
        | none =>
          simp only [Option.some.injEq] at h1
          exact h1
        | some x =>
          simp only [Option.map_eq_some_iff] at h1
          obtain ⟨b, h1, rfl⟩ := h1
          simpa using h1
      have hdom : w.heap.domainAt da = some p.domain := by rw [h2, (mkProblem_domain hm).1]
      obtain ⟨a, k1, k2⟩ := kept_new hc hdom
      refine ⟨_, a, p, os, is, rs, d, rfl, ?_, ?_, hm, arg_passed get_terms h4, arg_passed get_exprs h5, ?_, ?_⟩
      · simp only [ha, hm, hda]; exact k1
      · simp only [ha, hm, hda]; exact k2.view
      · cases reqs with
        | none =>
          simp only [Option.some.injEq] at h3
          exact h3.symm
        | some x =>
          simp only [Option.map_eq_some_iff] at h3
          obtain ⟨l, h3, rfl⟩ := h3
          exact ⟨l, rfl, arg_passed get_reqs h3⟩
      · cases domain with
        | none =>
          simp only [Option.some.injEq] at h1
          subst h1
          simp only [Heap.domainAt, Option.some.injEq] at h2
          exact h2.symm
        | some x =>
          simp only [Option.map_eq_some_iff] at h1
          obtain ⟨b, h1, rfl⟩ := h1
          simp only [Heap.domainAt, Option.map_eq_some_iff] at h2
          obtain ⟨d', h2, rfl⟩ := h2
          exact ⟨b, d', h1, h2, rfl⟩

/-- A parsed problem has the value that was read. -/
theorem C85_parsed_problem_value {F : FloatOf} {w : World} {text : Str} (hr : Reachable F w)
    (hok : (w.step F (.parseProblem text)).2 = .ok ()) :
    ∃ w' a p τ, w' = (w.step F (.parseProblem text)).1 ∧ w'.vars = w.vars ++ [a] ∧ parseProblem F [] text = .ok (p, τ) ∧
      w'.heap.problem a = some p := by
  obtain ⟨hc, _⟩ := reachable_closed hr
  simp only [World.step] at hok ⊢
  split at hok
  · rename_i p τ hp
    obtain ⟨a, k1, k2⟩ := kept_new (p := p) (da := none) hc (by rw [parsed_no_domain hp]; rfl)
    simp only [hp]
    exact ⟨_, a, p, τ, rfl, k1, rfl, k2.view⟩
  · cases hok

/-- The properties of a domain return its value. -/
theorem C85_domain_read {F : FloatOf} {w : World} {x a : Nat} {d : Domain} {f : Field} {c : Cell} (hx : w.vars[x]? = some a)
    (hd : w.heap.domain a = some d) (hf : domainField d f = some c) :
    ∃ b fr, (w.step F (.read x f)).2 = .ok () ∧ (w.step F (.read x f)).1.vars = w.vars ++ [b] ∧
      (w.step F (.read x f)).1.heap[b]? = some (.cell fr c) := by
  obtain ⟨o, fr, fr', ts, fs, h1, h2, h3, rfl⟩ := domain_some.1 hd
  simp only [World.step, hx, World.readField, h1]
  cases f <;> simp only [domainField, Option.some.injEq, reduceCtorEq] at hf <;> subst hf
  all_goals first
    | exact ⟨_, _, rfl, rfl, h2⟩
    | exact ⟨_, _, rfl, rfl, h3⟩
    | exact ⟨_, true, rfl, rfl, by simp [World.push]⟩

/-- The properties of a problem return its value. -/
theorem C85_problem_read {F : FloatOf} {w : World} {x a : Nat} {p : Problem} {f : Field} {c : Cell} (hx : w.vars[x]? = some a)
    (hp : w.heap.problem a = some p) (hf : problemField p f = some c) :
    ∃ b fr, (w.step F (.read x f)).2 = .ok () ∧ (w.step F (.read x f)).1.vars = w.vars ++ [b] ∧
      (w.step F (.read x f)).1.heap[b]? = some (.cell fr c) := by
  obtain ⟨o, d, rs, h1, h2, h3, rfl⟩ := problem_some.1 hp
  simp only [World.step, hx, World.readField, h1]
  cases f <;> simp only [problemField, Option.some.injEq, reduceCtorEq] at hf <;> subst hf
  case requirements =>
    cases hb : o.domain with
    | some b =>
      rw [hb] at h2
      simp only [Heap.domainAt, Option.map_eq_some_iff] at h2
      obtain ⟨d', h2, rfl⟩ := h2
      obtain ⟨o', _, _, _, _, k1, _, _, rfl⟩ := domain_some.1 h2
      simp only [hb, k1]
      exact ⟨_, true, trivial, rfl, by simp [World.push]⟩
    | none =>
      rw [hb] at h2
      simp only [Heap.domainAt, Option.some.injEq] at h2
      subst h2
      cases hq : o.reqs_ with
      | none =>
        rw [hq] at h3
        simp only [Heap.reqsAt, Option.some.injEq] at h3
        subst h3
        simp only [hb, hq]
        exact ⟨_, false, trivial, rfl, by simp [World.push]⟩
      | frozen l =>
        rw [hq] at h3
        simp only [Heap.reqsAt, Option.some.injEq] at h3
        subst h3
        simp only [hb, hq]
        exact ⟨_, true, trivial, rfl, by simp [World.push]⟩
      | own b =>
        rw [hq] at h3
        simp only [Heap.reqsAt, Option.map_eq_some_iff] at h3
        obtain ⟨l, h3, rfl⟩ := h3
        obtain ⟨fr, h3⟩ := reqs_some.1 h3
        simp only [hb, hq]
        exact ⟨_, fr, trivial, rfl, h3⟩
  all_goals exact ⟨_, true, rfl, rfl, by simp [World.push]⟩

/-- An assignment of a domain changes the domain of the problem and nothing else of it, and raises what the check of the problem with
this domain raises. -/
theorem C85_assign {F : FloatOf} {w : World} {x y a b : Nat} {p : Problem} {d : Domain} (hx : w.vars[x]? = some a)
    (hy : w.vars[y]? = some b) (hp : w.heap.problem a = some p) (hd : w.heap.domain b = some d) :
    (w.step F (.setDomain x y)).1.heap.problem a = some { p with domain := some d, domainName_ := d.name } ∧
      (w.step F (.setDomain x y)).2 = ({ p with domain := some d, domainName_ := d.name } : Problem).checkConsistency ∧
      (w.step F (.setDomain x y)).1.vars = w.vars := by
  have hkeep : (w.step F (.setDomain x y)).1.heap.domain b = some d :=
    domain_step hd (fun o _ => ⟨(fun ⟨_, _, e, _⟩ => by cases e), (fun ⟨_, _, e, _⟩ => by cases e)⟩)
  obtain ⟨o, d0, rs, h1, h2, h3, rfl⟩ := problem_some.1 hp
  have hlt : a < w.heap.length := (List.getElem?_eq_some_iff.1 h1).1
  simp only [World.step, hx, hy, h1, hd, hp] at hkeep ⊢
  refine ⟨problem_some.2 ⟨_, some d, rs, by rw [List.getElem?_set_self hlt], ?_, ?_, rfl⟩, ?_, trivial⟩
  · simp only [Heap.domainAt, hkeep, Option.map_some]
  · cases hq : o.reqs_ with
    | none =>
      rw [hq] at h3
      exact h3
    | frozen l =>
      rw [hq] at h3
      exact h3
    | own z =>
      rw [hq] at h3
      simp only [Heap.reqsAt, Option.map_eq_some_iff] at h3 ⊢
      obtain ⟨l, h3, rfl⟩ := h3
      obtain ⟨fr, h3⟩ := reqs_some.1 h3
      refine ⟨l, reqs_some.2 ⟨fr, ?_⟩, rfl⟩
      rw [List.getElem?_set_ne, h3]
      rintro rfl
      rw [h1] at h3
      cases h3
  · rfl

/-- Whatever a client does, a domain stays a domain, and only its types and functions can change. -/
theorem C85_domain_stays {F : FloatOf} {w : World} {ops : List Op} {a : Nat} {d : Domain} (h : w.heap.domain a = some d) :
    ∃ ts fs, (w.run F ops).heap.domain a = some { d with types := ts, functions := fs } := by
  induction ops generalizing w d with
  | nil => exact ⟨d.types, d.functions, h⟩
  | cons op ops ih =>
    obtain ⟨d', h', ts, fs, rfl⟩ := domain_stays (F := F) (op := op) h
    obtain ⟨ts', fs', k⟩ := ih h'
    exact ⟨ts', fs', k⟩

/-- Whatever a client does, a problem stays a problem, and only its domain, the name of the domain and its requirements can change. -/
theorem C85_problem_stays {F : FloatOf} {w : World} {ops : List Op} {a : Nat} {p : Problem} (h : w.heap.problem a = some p) :
    ∃ d n rs, (w.run F ops).heap.problem a = some { p with domain := d, domainName_ := n, reqs_ := rs } := by
  induction ops generalizing w p with
  | nil => exact ⟨p.domain, p.domainName_, p.reqs_, h⟩
  | cons op ops ih =>
    obtain ⟨p', h', d, n, rs, rfl⟩ := problem_stays (F := F) (op := op) h
    obtain ⟨d', n', rs', k⟩ := ih h'
    exact ⟨d', n', rs', k⟩

/-- A domain with a constant, whose constants are then read: the new collection has it. -/
example : ∃ w : World, Reachable noFloat w ∧
    (w.step noFloat (.domain s%"d" none none (some 0) none none none none)).2 = .ok () ∧
    (((w.step noFloat (.domain s%"d" none none (some 0) none none none none)).1.run noFloat [.read 1 .constants]).heap.terms 4) =
      some [.const s%"a" none] :=
  ⟨World.start.run noFloat [.new false (.terms [.const s%"a" none])], ⟨_, rfl⟩, by decide +kernel, by decide +kernel⟩

/-- A problem to which a domain is assigned. -/
example : ∃ w : World, w.vars[1]? = some 3 ∧ w.vars[0]? = some 2 ∧ (w.heap.problem 3).isSome = true ∧ (w.heap.domain 2).isSome = true ∧
    (w.step noFloat (.setDomain 1 0)).2 = .ok () :=
  ⟨World.start.run noFloat (discreet.take 2), by decide +kernel⟩

end Pddl.Props
