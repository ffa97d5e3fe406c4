/- Number of iterations of `find_cycle`. -/
import Verif.Proofs.Cycle
import Verif.Proofs.Types

namespace Pddl
open Spec

variable {g : Graph}

/-! ### At most one successor -/

/-- Iterations left: for each node still to be tried a round and a chain, and what is left of the
current chain. -/
def chainMeasure (n : Nat) (s : CycleState) : Nat :=
  s.todo.length * (n + 2) + (s.stack.map (fun e => n + 1 - e.2.length)).sum

theorem chain_step (hd : ∀ v, (g.nbrs v).length ≤ 1) {s s' : CycleState} (h : StackOk g s)
    (hs : cycleStep g s = .inl s') : chainMeasure g.length s' < chainMeasure g.length s := by
  have h' := stackOk_step h hs
  unfold cycleStep at hs
  split at hs
  · next cur path rest hst =>
    split at hs
    · simp at hs
    · simp at hs; subst hs
      have hl := entry_len (h (cur, path) (by simp [hst]))
      simp only at hl
      cases hn : g.nbrs cur with
      | nil => simp [chainMeasure, hst]; omega
      | cons a l =>
        have := hd cur
        rw [hn] at this
        have hl0 : l = [] := by cases l <;> simp at this ⊢
        subst hl0
        have hl := entry_len (h' (a, path ++ [cur]) (by simp [hn]))
        simp at hl
        simp [chainMeasure, hst]
        omega
  · next hst =>
    split at hs
    · simp at hs
    · next v todo ht =>
      split at hs
      · simp at hs; subst hs
        simp only [chainMeasure, hst, ht, List.length_cons, Nat.add_mul, Nat.one_mul]
        omega
      · simp at hs; subst hs
        simp only [chainMeasure, hst, ht, List.length_cons, Nat.add_mul, Nat.one_mul, List.map_cons,
          List.map_nil, List.sum_cons, List.sum_nil, List.length_nil]
        omega

theorem chain_run (hd : ∀ v, (g.nbrs v).length ≤ 1) (n : Nat) (s : CycleState)
    (h : StackOk g s) (hn : chainMeasure g.length s < n) : ∃ r, cycleRun g n s = some r := by
  induction n generalizing s with
  | zero => omega
  | succ n ih =>
    rw [cycleRun]
    cases hs : cycleStep g s with
    | inr r => exact ⟨r, rfl⟩
    | inl s' =>
      have := chain_step hd h hs
      exact ih s' (stackOk_step h hs) (by omega)

theorem chain_bound (hd : ∀ v, (g.nbrs v).length ≤ 1) :
    ∃ r, cycleRun g (g.length * (g.length + 2) + 1) (cycleInit g) = some r :=
  chain_run hd _ _ stackOk_init (by simp [chainMeasure, cycleInit])

theorem typeGraph_nbrs (d : TypeDict) (v : Str) : ((typeGraph d).nbrs v).length ≤ 1 := by
  unfold Graph.nbrs
  split
  · next l h =>
    have := lookup_mem h
    simp only [typeGraph, List.mem_map] at this
    obtain ⟨⟨a, b⟩, _, h⟩ := this
    cases b <;> simp at h
    · simp [h.2]
    · simp [← h.2]
  · simp

theorem run_none_of_le {n k : Nat} {s : CycleState} (h : cycleRun g (n + k) s = none) :
    cycleRun g n s = none := by
  cases hr : cycleRun g n s with
  | none => rfl
  | some r => rw [run_mono hr] at h; simp at h

/-! ### A hierarchy that needs a quadratic number -/

/-- `a`, `aa`, `aaa`, … -/
def aName (i : Nat) : Str := List.replicate (i + 1) 'a'

theorem aName_inj {i j : Nat} : aName i = aName j ↔ i = j := by
  constructor
  · intro h
    have := congrArg List.length h
    simpa [aName] using this
  · rintro rfl; rfl

/-- Type `i + 1` is a subtype of type `i`; the types are listed from the top. -/
def chainTypes (n : Nat) : TypeDict :=
  (List.range n).map (fun i => (aName i, if i = 0 then none else some (aName (i - 1))))

theorem lookup_map_range {β} (f : Nat → β) {n i : Nat} (h : i < n) :
    dictGet ((List.range n).map (fun i => (aName i, f i))) (aName i) = some (f i) := by
  unfold dictGet
  have : ∀ l : List Nat, i ∈ l → (l.map (fun i => (aName i, f i))).lookup (aName i) = some (f i) := by
    intro l
    induction l with
    | nil => simp
    | cons a l ih =>
      intro hm
      rw [List.map_cons, List.lookup_cons]
      by_cases e : i = a
      · subst e; simp
      · rw [show (aName i == aName a) = false by simp [aName_inj, e]]
        exact ih (by simpa [e] using hm)
  exact this _ (List.mem_range.mpr h)

theorem chain_nbrs {n i : Nat} (h : i < n) :
    (typeGraph (chainTypes n)).nbrs (aName i) = if i = 0 then [] else [aName (i - 1)] := by
  have : typeGraph (chainTypes n) = (List.range n).map
      (fun i => (aName i, some (if i = 0 then [] else [aName (i - 1)]))) := by
    simp only [typeGraph, chainTypes, List.map_map]
    apply List.map_congr_left
    intro a _
    simp only [Function.comp]
    split <;> simp_all
  rw [Graph.nbrs, this, lookup_map_range _ h]

theorem chain_pops {n : Nat} (i : Nat) (h : i < n) (todo vis path : _)
    (hp : ∀ x ∈ path, ∃ j, i < j ∧ x = aName j) :
    ∃ vis', (∀ x ∈ vis', x ∈ vis ∨ ∃ j, j ≤ i ∧ x = aName j) ∧
      ∀ m, cycleRun (typeGraph (chainTypes n)) (i + 1 + m) ⟨todo, vis, [(aName i, path)]⟩ =
        cycleRun (typeGraph (chainTypes n)) m ⟨todo, vis', []⟩ := by
  induction i generalizing vis path with
  | zero =>
    refine ⟨aName 0 :: vis, by intro x hx; rcases List.mem_cons.mp hx with rfl | hx; exact .inr ⟨0, by omega, rfl⟩; exact .inl hx, ?_⟩
    intro m
    have hnot : aName 0 ∉ path := by
      intro hm
      obtain ⟨j, hj, e⟩ := hp _ hm
      rw [aName_inj] at e; omega
    rw [show 0 + 1 + m = m + 1 by omega, cycleRun]
    simp [cycleStep, hnot, chain_nbrs h]
  | succ i ih =>
    have hnot : aName (i + 1) ∉ path := by
      intro hm
      obtain ⟨j, hj, e⟩ := hp _ hm
      rw [aName_inj] at e; omega
    obtain ⟨vis', hv, hr⟩ := ih (by omega) (aName (i + 1) :: vis) (path ++ [aName (i + 1)]) (by
      intro x hx
      rcases List.mem_append.mp hx with hx | hx
      · obtain ⟨j, hj, e⟩ := hp _ hx; exact ⟨j, by omega, e⟩
      · simp at hx; exact ⟨i + 1, by omega, hx⟩)
    refine ⟨vis', ?_, ?_⟩
    · intro x hx
      rcases hv x hx with hx | ⟨j, hj, e⟩
      · rcases List.mem_cons.mp hx with rfl | hx
        · exact .inr ⟨i + 1, by omega, rfl⟩
        · exact .inl hx
      · exact .inr ⟨j, by omega, e⟩
    · intro m
      rw [show i + 1 + 1 + m = (i + 1 + m) + 1 by omega, cycleRun]
      simp only [cycleStep, hnot, if_false, chain_nbrs h]
      simpa using hr m

theorem chain_rounds {n : Nat} (k i : Nat) (h : i + k = n) (vis : List Str)
    (hv : ∀ x ∈ vis, ∃ j, j < i ∧ x = aName j) (N : Nat)
    (hN : 2 * N ≤ n * (n + 1) - i * (i + 1)) :
    cycleRun (typeGraph (chainTypes n)) N ⟨(List.range' i k).map aName, vis, []⟩ = none := by
  induction k generalizing i vis N with
  | zero =>
    simp at h; subst h
    have : N = 0 := by omega
    subst this; rfl
  | succ k ih =>
    cases N with
    | zero => rfl
    | succ N =>
      have hnot : aName i ∉ vis := by
        intro hm
        obtain ⟨j, hj, e⟩ := hv _ hm
        rw [aName_inj] at e; omega
      rw [cycleRun]
      simp only [List.range'_succ, List.map_cons, cycleStep, hnot, if_false]
      obtain ⟨vis', hv', hr⟩ := chain_pops (n := n) i (by omega) ((List.range' (i + 1) k).map aName) vis []
        (by simp)
      have hv2 : ∀ x ∈ vis', ∃ j, j < i + 1 ∧ x = aName j := by
        intro x hx
        rcases hv' x hx with hx | ⟨j, hj, e⟩
        · obtain ⟨j, hj, e⟩ := hv x hx; exact ⟨j, by omega, e⟩
        · exact ⟨j, by omega, e⟩
      by_cases hle : N ≤ i + 1
      · apply run_none_of_le (k := i + 1 - N)
        rw [show N + (i + 1 - N) = i + 1 + 0 by omega, hr]
        rfl
      · rw [show N = i + 1 + (N - (i + 1)) by omega, hr]
        apply ih (i + 1) (by omega) vis' hv2
        have : (i + 1) * (i + 1 + 1) = i * (i + 1) + 2 * (i + 1) := by ring
        omega

theorem chain_lower (n : Nat) :
    cycleRun (typeGraph (chainTypes n)) (n * (n + 1) / 2) (cycleInit (typeGraph (chainTypes n))) = none := by
  have : cycleInit (typeGraph (chainTypes n)) = ⟨(List.range' 0 n).map aName, [], []⟩ := by
    simp [cycleInit, typeGraph, chainTypes, List.range_eq_range']
  rw [this]
  exact chain_rounds n 0 (by omega) [] (by simp) _ (by omega)

/-! ### A graph that needs an exponential number -/

/-- Node `i` has an edge to every node below it; the nodes are listed from the top. -/
def allBelow : Nat → Graph
  | 0 => []
  | n + 1 => (aName n, some ((List.range n).map aName)) :: allBelow n

theorem allBelow_nbrs {n i : Nat} (h : i < n) :
    (allBelow n).nbrs (aName i) = (List.range i).map aName := by
  have : dictGet (allBelow n) (aName i) = some (some ((List.range i).map aName)) := by
    induction n with
    | zero => omega
    | succ n ih =>
      unfold dictGet at ih ⊢
      rw [allBelow, List.lookup_cons]
      by_cases e : i = n
      · subst e; simp
      · rw [show (aName i == aName n) = false by simp [aName_inj, e]]
        exact ih (by omega)
  rw [Graph.nbrs, this]

theorem sum_two_pow (i : Nat) : ((List.range i).map (2 ^ ·)).sum + 1 = 2 ^ i := by
  induction i with
  | zero => rfl
  | succ i ih =>
    rw [List.range_succ, List.map_append, List.sum_append]
    simp only [List.map_cons, List.map_nil, List.sum_cons, List.sum_nil]
    rw [pow_succ]; omega

theorem below_pops {n : Nat} (i : Nat) (h : i < n) (todo vis path rest : _)
    (hp : ∀ x ∈ path, ∃ j, i < j ∧ x = aName j) :
    ∃ vis', ∀ m, cycleRun (allBelow n) (2 ^ i + m) ⟨todo, vis, (aName i, path) :: rest⟩ =
        cycleRun (allBelow n) m ⟨todo, vis', rest⟩ := by
  induction i using Nat.strong_induction_on generalizing vis path rest with
  | _ i ih =>
    have hnot : aName i ∉ path := by
      intro hm
      obtain ⟨j, hj, e⟩ := hp _ hm
      rw [aName_inj] at e; omega
    have hl : ∀ (l : List Nat), (∀ j ∈ l, j < i) → ∀ vis, ∃ vis', ∀ m,
        cycleRun (allBelow n) ((l.map (2 ^ ·)).sum + m)
          ⟨todo, vis, l.map (fun j => (aName j, path ++ [aName i])) ++ rest⟩ =
        cycleRun (allBelow n) m ⟨todo, vis', rest⟩ := by
      intro l
      induction l with
      | nil => intro _ vis; exact ⟨vis, fun m => by simp⟩
      | cons j l ihl =>
        intro hj vis
        obtain ⟨v1, h1⟩ := ih j (hj j (by simp)) (by have := hj j (by simp); omega) vis
          (path ++ [aName i]) (l.map (fun j => (aName j, path ++ [aName i])) ++ rest) (by
            intro x hx
            have := hj j (by simp)
            rcases List.mem_append.mp hx with hx | hx
            · obtain ⟨k, hk, e⟩ := hp _ hx; exact ⟨k, by omega, e⟩
            · simp at hx; exact ⟨i, by omega, hx⟩)
        obtain ⟨v2, h2⟩ := ihl (fun k hk => hj k (by simp [hk])) v1
        refine ⟨v2, fun m => ?_⟩
        rw [List.map_cons, List.sum_cons, List.map_cons, List.cons_append, Nat.add_assoc, h1, h2]
    obtain ⟨v, hv⟩ := hl (List.range i).reverse (by simp) (aName i :: vis)
    refine ⟨v, fun m => ?_⟩
    have e : 2 ^ i + m = (((List.range i).reverse.map (2 ^ ·)).sum + m) + 1 := by
      rw [List.map_reverse, List.sum_reverse]
      have := sum_two_pow i
      omega
    rw [e, cycleRun]
    simp only [cycleStep, hnot, if_false, allBelow_nbrs h, List.map_map, ← List.map_reverse]
    exact hv m

theorem below_lower (n : Nat) :
    cycleRun (allBelow (n + 1)) (2 ^ n) (cycleInit (allBelow (n + 1))) = none := by
  apply run_none_of_le (k := 1)
  have : cycleInit (allBelow (n + 1)) = ⟨aName n :: (allBelow n).map Prod.fst, [], []⟩ := rfl
  rw [this, cycleRun]
  simp only [cycleStep, List.not_mem_nil, if_false]
  obtain ⟨v, hv⟩ := below_pops (n := n + 1) n (by omega) ((allBelow n).map Prod.fst) [] [] [] (by simp)
  have := hv 0
  simpa [cycleRun] using this

/-- Edges lead to lower numbers. -/
theorem below_acyclic (n : Nat) : ¬ Cyclic (allBelow n) := by
  have key : ∀ a b, Edge (allBelow n) a b → ∃ i j, j < i ∧ a = aName i ∧ b = aName j := by
    intro a b hab
    have ha := edge_key hab
    have : ∃ i, i < n ∧ a = aName i := by
      clear hab
      induction n with
      | zero => simp [allBelow] at ha
      | succ n ih =>
        rw [allBelow, List.map_cons, List.mem_cons] at ha
        rcases ha with rfl | ha
        · exact ⟨n, by omega, rfl⟩
        · obtain ⟨i, hi, e⟩ := ih ha; exact ⟨i, by omega, e⟩
    obtain ⟨i, hi, rfl⟩ := this
    rw [← mem_nbrs, allBelow_nbrs hi] at hab
    simp at hab
    obtain ⟨j, hj, rfl⟩ := hab
    exact ⟨i, j, hj, rfl, rfl⟩
  have trans : ∀ a b, Relation.TransGen (Edge (allBelow n)) a b → ∃ i j, j < i ∧ a = aName i ∧ b = aName j := by
    intro a b h
    induction h with
    | single h => exact key _ _ h
    | tail _ h ih =>
      obtain ⟨i, j, hij, rfl, rfl⟩ := ih
      obtain ⟨i', j', hij', e, rfl⟩ := key _ _ h
      rw [aName_inj] at e
      exact ⟨i, j', by omega, rfl, rfl⟩
  rintro ⟨v, hv⟩
  obtain ⟨i, j, hij, rfl, e⟩ := trans _ _ hv
  rw [aName_inj] at e
  omega

theorem allBelow_length (n : Nat) : (allBelow n).length = n := by
  induction n with
  | zero => rfl
  | succ n ih => simp [allBelow, ih]

theorem allBelow_edges (n : Nat) : ((allBelow n).map (fun p => (p.2.getD []).length)).sum ≤ n * n := by
  induction n with
  | zero => simp [allBelow]
  | succ n ih =>
    simp only [allBelow, List.map_cons, List.sum_cons, Option.getD_some, List.length_map, List.length_range]
    nlinarith

/-- Two to the power of something outgrows every polynomial in it. -/
theorem two_pow_outgrows (c k : Nat) : ∃ n, c * ((n + 1) + (n + 1) * (n + 1)) ^ k + c < 2 ^ n := by
  let t := 6 * k + c + 4
  have ht : t < 2 ^ t := Nat.lt_two_pow_self
  refine ⟨2 ^ (2 * t), ?_⟩
  set N := 2 ^ (2 * t) with hN
  have hN1 : 1 ≤ N := Nat.one_le_two_pow
  have h1 : (N + 1) + (N + 1) * (N + 1) ≤ 2 ^ (4 * t + 3) := by
    have : 2 ^ (4 * t + 3) = 8 * (N * N) := by
      rw [hN, ← pow_add, show 4 * t + 3 = (2 * t + 2 * t) + 3 by omega, pow_add]; ring
    rw [this]; nlinarith
  have h2 : ((N + 1) + (N + 1) * (N + 1)) ^ k ≤ 2 ^ ((4 * t + 3) * k) := by
    rw [pow_mul]; exact Nat.pow_le_pow_left h1 k
  have hc : c < 2 ^ c := Nat.lt_two_pow_self
  have hp : 1 ≤ 2 ^ ((4 * t + 3) * k) := Nat.one_le_two_pow
  have h3 : c * ((N + 1) + (N + 1) * (N + 1)) ^ k + c < 2 ^ (c + 1 + (4 * t + 3) * k) := by
    have : c * ((N + 1) + (N + 1) * (N + 1)) ^ k ≤ c * 2 ^ ((4 * t + 3) * k) := Nat.mul_le_mul_left _ h2
    rw [pow_add, pow_add, pow_one]
    nlinarith
  refine lt_of_lt_of_le h3 (Nat.pow_le_pow_right (by omega) ?_)
  have h4 : (t + 1) * (t + 1) ≤ N := by
    rw [hN, show 2 * t = t + t by omega, pow_add]
    exact Nat.mul_le_mul ht ht
  have h5 : 6 * k + c + 4 = t := rfl
  nlinarith

theorem aName_valid (i : Nat) : ValidType (aName i) := by
  refine .inl ⟨⟨'a', List.replicate i 'a', rfl, .inr (by decide), ?_⟩, ?_⟩
  · intro x hx
    rw [(List.mem_replicate.mp hx).2]
    exact .inl (.inr (by decide))
  · rintro ⟨w, hw, e⟩
    have : ∀ w ∈ reserved, ∃ c ∈ w.toList, c ≠ 'a' := by decide +kernel
    obtain ⟨c, hc, hne⟩ := this w hw
    rw [e] at hc
    exact hne (List.mem_replicate.mp hc).2

theorem chainTypes_dict (n : Nat) : IsDict (chainTypes n) := by
  simp only [IsDict, chainTypes, List.map_map]
  exact List.nodup_range.map (fun i j h => aName_inj.mp h)

theorem chainTypes_ok (n : Nat) : ∃ d', mkTypes (chainTypes n) [.typing] = .ok d' := by
  refine ⟨_, (mkTypes_ok (chainTypes_dict n)).mpr ⟨?_, ⟨fun _ => by simp, ?_, ?_⟩, rfl⟩⟩
  · intro p hp
    simp only [chainTypes, List.mem_map] at hp
    obtain ⟨i, _, rfl⟩ := hp
    refine ⟨aName_valid i, ?_⟩
    intro b hb _
    simp only at hb
    split at hb
    · cases hb
    · cases hb; exact aName_valid _
  · rintro b ⟨h, _⟩
    have := lookup_mem h
    simp only [chainTypes, List.mem_map, Prod.mk.injEq] at this
    obtain ⟨i, _, h, _⟩ := this
    have : 'o' ∈ aName i := by rw [h]; decide
    simp [aName] at this
  · have key : ∀ a b, Parent (chainTypes n) a b → ∃ i j, j < i ∧ a = aName i ∧ b = aName j := by
      rintro a b ⟨h, _⟩
      have := lookup_mem h
      simp only [chainTypes, List.mem_map, Prod.mk.injEq] at this
      obtain ⟨i, _, ha, hb⟩ := this
      split at hb
      · cases hb
      · cases hb; exact ⟨i, i - 1, by omega, ha.symm, rfl⟩
    have trans : ∀ a b, Relation.TransGen (Parent (chainTypes n)) a b →
        ∃ i j, j < i ∧ a = aName i ∧ b = aName j := by
      intro a b h
      induction h with
      | single h => exact key _ _ h
      | tail _ h ih =>
        obtain ⟨i, j, hij, rfl, rfl⟩ := ih
        obtain ⟨i', j', hij', e, rfl⟩ := key _ _ h
        rw [aName_inj] at e
        exact ⟨i, j', by omega, rfl, rfl⟩
    intro v hv
    obtain ⟨i, j, hij, rfl, e⟩ := trans _ _ hv
    rw [aName_inj] at e
    omega

theorem allBelow_keys (n : Nat) : ∀ x ∈ (allBelow n).map Prod.fst, ∃ i, i < n ∧ x = aName i := by
  induction n with
  | zero => simp [allBelow]
  | succ n ih =>
    intro x hx
    rw [allBelow, List.map_cons, List.mem_cons] at hx
    rcases hx with rfl | hx
    · exact ⟨n, by omega, rfl⟩
    · obtain ⟨i, hi, e⟩ := ih x hx; exact ⟨i, by omega, e⟩

theorem allBelow_dict (n : Nat) : IsDict (allBelow n) := by
  induction n with
  | zero => simp [IsDict, allBelow]
  | succ n ih =>
    simp only [IsDict, allBelow, List.map_cons, List.nodup_cons]
    refine ⟨?_, ih⟩
    intro h
    obtain ⟨i, hi, e⟩ := allBelow_keys n _ h
    rw [aName_inj] at e; omega

theorem allBelow_sets (n : Nat) : ∀ p ∈ allBelow n, (p.2.getD []).Nodup := by
  induction n with
  | zero => simp [allBelow]
  | succ n ih =>
    intro p hp
    rw [allBelow, List.mem_cons] at hp
    rcases hp with rfl | hp
    · exact List.nodup_range.map (fun i j h => aName_inj.mp h)
    · exact ih p hp

end Pddl
