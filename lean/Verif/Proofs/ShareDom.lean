/-
What client programs can do to domains, problems and plans (for C85).
-/
import Verif.Proofs.Share
import Verif.Proofs.RulesDom
import Verif.Proofs.Provenance

namespace Pddl
open Spec

/-- Domains made by the parser are domains that `Domain(...)` makes. -/
theorem parsed_exists {F : FloatOf} {σ σ' : PState} {text : Str} {d : Domain} (h : parseDomain F σ text = .ok (d, σ')) :
    ExistsDomain d := by
  obtain ⟨ts, hr, h⟩ := parseDomain_ok h
  obtain ⟨P⟩ := domainDef_ok h
  have hw : Rules.WordsOk (.node ts) := fun w hi => readText_words hr (by simp) hi
  have hd : IsDict P.types := by
    rcases P.htypes with ⟨_, e, _⟩ | ⟨b, hb, h'⟩
    · rw [e]; exact List.Pairwise.nil
    · exact (sectionTypes_written (fun w hi => (Rules.sections_words P.sections_of hw).1 b hb w (.node hi .refl)) h').2
  exact ⟨_, hd, P.hdomain⟩

namespace Share

/-! ### Domains -/

/-- The value of a domain changes only if one of its two dictionaries is written to. -/
theorem domain_step {F : FloatOf} {w : World} {op : Op} {a : Addr} {d : Domain} (h : w.heap.domain a = some d)
    (hw : ∀ o, w.heap[a]? = some (.domain o) → ¬ WritesTo o.types w op ∧ ¬ WritesTo o.functions w op) :
    (w.step F op).1.heap.domain a = some d := by
  have he := step_effect F w op
  obtain ⟨o, fr, fr', ts, fs, h1, h2, h3, rfl⟩ := domain_some.1 h
  obtain ⟨w1, w2⟩ := hw o h1
  exact domain_some.2 ⟨o, fr, fr', ts, fs, he.kept h1 (by simp) (by simp), he.cell_kept h2 w1, he.cell_kept h3 w2, rfl⟩

/-- A domain whose dictionaries nobody else has. -/
structure Isolated (w : World) (a : Addr) (d : Domain) : Prop where
  view : w.heap.domain a = some d
  types : ∀ o, w.heap[a]? = some (.domain o) → Private w a o.types
  functions : ∀ o, w.heap[a]? = some (.domain o) → Private w a o.functions

theorem Private.not_writes {w : World} {a x : Addr} {op : Op} (h : Private w a x) : ¬ WritesTo x w op :=
  fun ⟨_, _, _, hv⟩ => h.vars (List.mem_of_getElem? hv)

theorem given_domain {o : DomObj} {f : Field} {x : Addr} (h : x ∈ (Obj.domain o).given f) : f = .types ∨ f = .functions := by
  cases f <;> simp [Obj.given] at h ⊢

theorem Isolated.step {F : FloatOf} {w : World} {op : Op} {a : Addr} {d : Domain} (h : Isolated w a d)
    (ht : ¬ AsksFor a .types w op) (hf : ¬ AsksFor a .functions w op) : Isolated (w.step F op).1 a d := by
  have he := step_effect F w op
  obtain ⟨o, fr, fr', ts, fs, h1, h2, h3, rfl⟩ := domain_some.1 h.view
  have hk := he.kept h1 (by simp) (by simp)
  have hg : ∀ x, ∀ v f o, op = .read v f → w.vars[v]? = some a → w.heap[a]? = some o → x ∉ o.given f := by
    intro x v f o' e hv ho hx
    rw [h1, Option.some.injEq] at ho
    subst ho
    rcases given_domain hx with rfl | rfl
    · exact ht ⟨v, e, hv⟩
    · exact hf ⟨v, e, hv⟩
  obtain ⟨p1, e1⟩ := he.private_ (h.types o h1) (hg _) ⟨_, _, h2⟩
  obtain ⟨p2, e2⟩ := he.private_ (h.functions o h1) (hg _) ⟨_, _, h3⟩
  refine ⟨domain_some.2 ⟨o, fr, fr', ts, fs, hk, e1 ▸ h2, e2 ▸ h3, rfl⟩, ?_, ?_⟩
  · intro o' ho'
    rw [hk] at ho'
    cases ho'
    exact p1
  · intro o' ho'
    rw [hk] at ho'
    cases ho'
    exact p2

theorem Isolated.run {F : FloatOf} {ops : List Op} {w : World} {a : Addr} {d : Domain} (h : Isolated w a d)
    (hq : Along F (fun w op => ¬ AsksFor a .types w op ∧ ¬ AsksFor a .functions w op) w ops) : Isolated (w.run F ops) a d := by
  induction ops generalizing w with
  | nil => exact h
  | cons op ops ih => exact ih (h.step hq.1.1 hq.1.2) hq.2

/-- A new address is private to the new object that mentions it. -/
theorem private_new {w : World} {os : List Obj} {vs : List Addr} {a x : Addr} (hc : Closed w) (h1 : w.heap.length ≤ x)
    (h2 : x < w.heap.length + os.length) (h3 : x ∉ vs)
    (h4 : ∀ i o, os[i]? = some o → w.heap.length + i ≠ a → x ∉ o.refs) : Private ⟨w.heap ++ os, w.vars ++ vs⟩ a x := by
  refine ⟨?_, ?_, by simpa using h2⟩
  · simp only [List.mem_append, not_or]
    refine ⟨fun h => ?_, h3⟩
    have := hc.vars x h
    omega
  · intro b o hb hne hx
    rw [List.getElem?_append] at hb
    split at hb
    · have := hc.refs o (List.mem_of_getElem? hb) x hx
      omega
    · rename_i hlt
      exact h4 _ o hb (by omega) hx

theorem storeDomain_none (w : World) (d : Domain) : w.storeDomain d none = ⟨w.heap ++ [.cell false (.types d.types),
    .cell false (.funs d.functions), .domain ⟨d.name, d.reqs, w.heap.length, d.constants, d.predicates, w.heap.length + 1,
    d.derived, d.actions⟩], w.vars ++ [w.heap.length + 2]⟩ := by
  simp [World.storeDomain, World.alloc, World.push]

theorem storeDomain_some (w : World) (d : Domain) (fa : Addr) : w.storeDomain d (some fa) =
    ⟨w.heap ++ [.cell false (.types d.types), .domain ⟨d.name, d.reqs, w.heap.length, d.constants, d.predicates, fa,
    d.derived, d.actions⟩], w.vars ++ [w.heap.length + 1]⟩ := by
  simp [World.storeDomain, World.alloc, World.push]

theorem getElem?_new {α : Type} {l l' : List α} {i : Nat} : (l ++ l')[l.length + i]? = l'[i]? := by
  rw [List.getElem?_append_right (by omega)]
  congr 1
  omega

theorem three_cases {o x y z : Obj} {i : Nat} (h : [x, y, z][i]? = some o) : i = 0 ∧ o = x ∨ i = 1 ∧ o = y ∨ i = 2 ∧ o = z := by
  rcases i with _ | _ | _ | i <;> simp at h <;> simp [h]

theorem two_cases {o x y : Obj} {i : Nat} (h : [x, y][i]? = some o) : i = 0 ∧ o = x ∨ i = 1 ∧ o = y := by
  rcases i with _ | _ | i <;> simp at h <;> simp [h]

theorem isolated_new {w : World} {d : Domain} (hc : Closed w) : Isolated (w.storeDomain d none) (w.heap.length + 2) d := by
  rw [storeDomain_none]
  have h0 : ∀ os : List Obj, (w.heap ++ os)[w.heap.length]? = os[0]? := fun os => getElem?_new (i := 0)
  refine ⟨domain_some.2 ⟨_, false, false, _, _, getElem?_new, h0 _, getElem?_new, rfl⟩, ?_, ?_⟩
  · intro o ho
    rw [getElem?_new] at ho
    simp only [List.getElem?_cons_succ, List.getElem?_cons_zero, Option.some.injEq, Obj.domain.injEq] at ho
    subst ho
    refine private_new hc (Nat.le_refl _) (by simp) (by simp) ?_
    intro i o h hne
    rcases three_cases h with ⟨rfl, rfl⟩ | ⟨rfl, rfl⟩ | ⟨rfl, rfl⟩
    · simp [Obj.refs]
    · simp [Obj.refs]
    · omega
  · intro o ho
    rw [getElem?_new] at ho
    simp only [List.getElem?_cons_succ, List.getElem?_cons_zero, Option.some.injEq, Obj.domain.injEq] at ho
    subst ho
    refine private_new hc (by simp) (by simp) (by simp) ?_
    intro i o h hne
    rcases three_cases h with ⟨rfl, rfl⟩ | ⟨rfl, rfl⟩ | ⟨rfl, rfl⟩
    · simp [Obj.refs]
    · simp [Obj.refs]
    · omega

/-- All dictionaries of types are dictionaries. -/
def Dicts (w : World) : Prop := ∀ fr d, .cell fr (.types d) ∈ w.heap → IsDict d

theorem arg_types {w : World} (h : Dicts w) {x : Option Nat} {d : TypeDict} (hx : w.arg w.heap.types x = some d) : IsDict d := by
  cases x with
  | none => simp only [World.arg, Option.some.injEq] at hx; subst hx; exact List.Pairwise.nil
  | some x =>
    simp only [World.arg, Option.bind_eq_bind, Option.bind_eq_some_iff] at hx
    obtain ⟨a, _, hx⟩ := hx
    unfold Heap.types Heap.cell at hx
    split at hx
    · rename_i d' hd
      split at hd
      · rename_i fr c hc
        simp only [Option.some.injEq] at hd hx
        subst hd hx
        exact h fr _ (List.mem_of_getElem? hc)
      · cases hd
    · cases hx

theorem domainArgs_types {w : World} (h : Dicts w) {n : Str} {r t c p f d a : Option Nat} {args : DomainArgs}
    (hx : w.domainArgs n r t c p f d a = some args) : IsDict args.types := by
  simp only [World.domainArgs, Option.bind_eq_bind, Option.bind_eq_some_iff, Option.some.injEq] at hx
  obtain ⟨_, _, ts, ht, _, _, _, _, _, _, _, _, _, _, rfl⟩ := hx
  exact arg_types h ht

theorem eval_types {w : World} {l : Lit} {d : TypeDict} (h : w.eval l = some (.types d)) : IsDict d := by
  cases l <;> simp [World.eval] at h
  subst h
  exact (dictOf_keys _).1

theorem dicts_append {w : World} (h : Dicts w) {os : List Obj} {vs : List Addr}
    (ho : ∀ fr d, .cell fr (.types d) ∈ os → IsDict d) : Dicts ⟨w.heap ++ os, vs⟩ := by
  intro fr d hm
  rcases List.mem_append.1 hm with hm | hm
  · exact h fr d hm
  · exact ho fr d hm

theorem dicts_domain {w : World} (h : Dicts w) {d : Domain} (hd : ExistsDomain d) (fa : Option Addr) : Dicts (w.storeDomain d fa) := by
  have := (existsDomain_types hd).2.2
  cases fa with
  | none =>
    rw [storeDomain_none]
    refine dicts_append h ?_
    intro fr t ht
    simp only [List.mem_cons, Obj.cell.injEq, Cell.types.injEq, reduceCtorEq, and_false, List.not_mem_nil, or_false] at ht
    rw [ht.2]; exact this
  | some fa =>
    rw [storeDomain_some]
    refine dicts_append h ?_
    intro fr t ht
    simp only [List.mem_cons, Obj.cell.injEq, Cell.types.injEq, reduceCtorEq, and_false, List.not_mem_nil, or_false] at ht
    rw [ht.2]; exact this

theorem dicts_problem {w : World} (h : Dicts w) (p : Problem) (da : Option Addr) : Dicts (w.storeProblem p da) := by
  unfold World.storeProblem
  split <;> simp only [World.alloc, World.push, List.append_assoc] <;> refine dicts_append h ?_ <;> simp

theorem dicts_plan {w : World} (h : Dicts w) (p : Plan) : Dicts (w.storePlan p) := by
  rw [storePlan_eq]
  refine dicts_append h ?_
  simp

theorem dicts_read {w : World} (h : Dicts w) (a : Addr) (f : Field) : Dicts (w.readField a f).1 := by
  have hs : ∀ vs, Dicts ⟨w.heap, vs⟩ := fun _ => h
  unfold World.readField
  simp only
  split <;> (try split) <;> (try split) <;>
    first
    | exact h
    | exact hs _
    | (refine dicts_append h ?_; simp)

theorem dicts_step {F : FloatOf} {w : World} (h : Dicts w) (op : Op) : Dicts (w.step F op).1 := by
  cases op with
  | new fr l =>
    simp only [World.step]
    split
    · rename_i c hc
      refine dicts_append h ?_
      intro fr d hd
      simp only [List.mem_singleton, Obj.cell.injEq] at hd
      rw [← hd.2] at hc
      exact eval_types hc
    · exact h
  | write x l =>
    simp only [World.step]
    split
    · rename_i a c ha hc
      split
      · split
        · intro fr d hm
          rcases List.mem_or_eq_of_mem_set hm with hm | hm
          · exact h fr d hm
          · simp only [Obj.cell.injEq] at hm
            rw [← hm.2] at hc
            exact eval_types hc
        · exact h
      · exact h
    · exact h
  | domain name reqs types constants predicates functions derived actions =>
    simp only [World.step]
    split
    · exact h
    · rename_i args ha
      split
      · exact h
      · rename_i d hd
        exact dicts_domain h ⟨args, domainArgs_types h ha, hd⟩ _
  | problem name domain domainName reqs objects init goal metric =>
    simp only [World.step]
    split
    · exact h
    · split
      · exact h
      · exact dicts_problem h _ _
  | plan x =>
    simp only [World.step]
    split
    · split
      · refine dicts_append h ?_
        simp
      · exact h
    · exact h
  | parseDomain text =>
    simp only [World.step]
    split
    · rename_i d _ hd
      exact dicts_domain h (parsed_exists hd) none
    · exact h
  | parseProblem text =>
    simp only [World.step]
    split
    · exact dicts_problem h _ none
    · exact h
  | parsePlan text =>
    simp only [World.step]
    split
    · exact dicts_plan h _
    · exact h
  | setDomain x y =>
    simp only [World.step]
    split
    · split
      · intro fr d hm
        rcases List.mem_or_eq_of_mem_set hm with hm | hm
        · exact h fr d hm
        · cases hm
      · exact h
    · exact h
  | read x f =>
    simp only [World.step]
    split
    · exact dicts_read h _ _
    · exact h

theorem dicts_run {F : FloatOf} {ops : List Op} {w : World} (h : Dicts w) : Dicts (w.run F ops) := by
  induction ops generalizing w with
  | nil => exact h
  | cons op ops ih => exact ih (dicts_step h op)

theorem dicts_start : Dicts World.start := by simp [Dicts, World.start]

/-- What `Domain(...)` and the parser put into the heap. -/
theorem makes_domain {F : FloatOf} {w : World} {op : Op} (hd : Dicts w) (hop : Op.makesDomain op) (hok : (w.step F op).2 = .ok ()) :
    ∃ d, ExistsDomain d ∧ (w.step F op).1 = w.storeDomain d none := by
  cases op <;> simp only [Op.makesDomain] at hop
  case domain name reqs types constants predicates functions derived actions =>
    cases functions with
    | some x => exact hop.elim
    | none =>
      simp only [World.step] at hok ⊢
      split at hok
      · cases hok
      · rename_i args ha
        split at hok
        · cases hok
        · rename_i d hm
          exact ⟨d, ⟨args, domainArgs_types hd ha, hm⟩, rfl⟩
  case parseDomain text =>
    simp only [World.step] at hok ⊢
    split at hok
    · rename_i d _ hp
      exact ⟨d, parsed_exists hp, rfl⟩
    · cases hok

end Share
end Pddl
