/- Termination, soundness and completeness of `find_cycle`. -/
import Verif.Model.Cycle
import Verif.Spec.Graph
import Mathlib.Data.List.Chain
import Mathlib.Data.List.Nodup
import Mathlib.Data.List.Sublists
import Mathlib.Data.List.Perm.Subperm
import Mathlib.Tactic.Ring
import Mathlib.Tactic.Linarith

namespace Pddl
open Spec

variable {g : Graph}

theorem mem_nbrs {a b : Str} : b ∈ g.nbrs a ↔ Edge g a b := by
  unfold Graph.nbrs Edge dictGet
  split
  · next l h => simp [h]
  · next h =>
    simp only [List.not_mem_nil, false_iff]
    rintro ⟨l, hl, _⟩
    exact h l hl

theorem lookup_mem {β} {d : List (Str × β)} {k : Str} {v : β} (h : d.lookup k = some v) : (k, v) ∈ d := by
  induction d with
  | nil => simp at h
  | cons p d ih =>
    obtain ⟨a, b⟩ := p
    rw [List.lookup_cons] at h
    split at h
    · next e =>
      simp at h
      rw [beq_iff_eq] at e
      subst h; subst e; simp
    · exact List.mem_cons_of_mem _ (ih h)

theorem edge_key {a b : Str} (h : Edge g a b) : a ∈ g.map Prod.fst := by
  obtain ⟨l, h, _⟩ := h
  exact List.mem_map.mpr ⟨_, lookup_mem h, rfl⟩

theorem nbrs_length (v : Str) : (g.nbrs v).length ≤ (g.map (fun p => (p.2.getD []).length)).sum := by
  unfold Graph.nbrs
  split
  · next l h =>
    have hm := lookup_mem h
    have hgen : ∀ (L : List Nat) (x : Nat), x ∈ L → x ≤ L.sum := by
      intro L
      induction L with
      | nil => simp
      | cons y L ih =>
        intro x hx
        rw [List.sum_cons]
        rcases List.mem_cons.mp hx with rfl | hx
        · omega
        · have := ih x hx; omega
    exact hgen _ _ (List.mem_map.mpr ⟨_, hm, rfl⟩)
  · simp

/-! ### Invariant -/

structure EntryOk (g : Graph) (e : Str × List Str) : Prop where
  nodup : e.2.Nodup
  keys : ∀ x ∈ e.2, x ∈ g.map Prod.fst
  walk : Walk g (e.2 ++ [e.1])

def StackOk (g : Graph) (s : CycleState) : Prop := ∀ e ∈ s.stack, EntryOk g e

theorem walk_snoc {p : List Str} {a b : Str} (h : Walk g (p ++ [a])) (e : Edge g a b) :
    Walk g (p ++ [a] ++ [b]) := by
  unfold Walk at *
  rw [List.isChain_append]
  exact ⟨h, by simp, by simp [e]⟩

theorem stackOk_step {s s' : CycleState} (h : StackOk g s) (hs : cycleStep g s = .inl s') :
    StackOk g s' := by
  unfold cycleStep at hs
  split at hs
  · next cur path rest hst =>
    split at hs
    · simp at hs
    · next hc =>
      simp at hs; subst hs
      have h0 := h (cur, path) (by rw [hst]; simp)
      intro e he
      simp only [List.mem_append, List.mem_reverse, List.mem_map] at he
      rcases he with ⟨n, hn, rfl⟩ | he
      · rw [mem_nbrs] at hn
        refine ⟨?_, ?_, walk_snoc h0.walk hn⟩
        · rw [List.nodup_append]
          refine ⟨h0.nodup, by simp, ?_⟩
          intro a ha b hb
          simp at hb; subst hb
          exact fun e => hc (e ▸ ha)
        · intro x hx
          rcases List.mem_append.mp hx with hx | hx
          · exact h0.keys x hx
          · simp at hx; subst hx; exact edge_key hn
      · exact h e (by rw [hst]; exact List.mem_cons_of_mem _ he)
  · split at hs
    · simp at hs
    · next v todo =>
      split at hs
      · simp at hs; subst hs
        next hst _ _ _ => intro e he; exact h e he
      · simp at hs; subst hs
        intro e he
        simp at he; subst he
        exact ⟨by simp, by simp, by simp [Walk]⟩

/-! ### Termination -/

def entryWeight (d n : Nat) (e : Str × List Str) : Nat := (d + 1) ^ (n + 1 - e.2.length)

def cycleMeasure (d n : Nat) (s : CycleState) : Nat :=
  (s.stack.map (entryWeight d n)).sum + s.todo.length * ((d + 1) ^ (n + 1) + 1)

theorem entry_len {e : Str × List Str} (h : EntryOk g e) : e.2.length ≤ g.length := by
  have := (List.subperm_of_subset h.nodup h.keys).length_le
  simpa using this

theorem measure_step {d : Nat} (hd : ∀ v, (g.nbrs v).length ≤ d) {s s' : CycleState} (h : StackOk g s)
    (hs : cycleStep g s = .inl s') : cycleMeasure d g.length s' < cycleMeasure d g.length s := by
  have h' := stackOk_step h hs
  unfold cycleStep at hs
  split at hs
  · next cur path rest hst =>
    split at hs
    · simp at hs
    · simp at hs; subst hs
      simp only [cycleMeasure, hst, List.map_cons, List.sum_cons, List.map_append, List.sum_append]
      have key : (List.map (entryWeight d g.length)
          (List.map (fun n => (n, path ++ [cur])) (g.nbrs cur)).reverse).sum
          < entryWeight d g.length (cur, path) := by
        have e1 : List.map (entryWeight d g.length)
          (List.map (fun n => (n, path ++ [cur])) (g.nbrs cur)).reverse
          = List.replicate (g.nbrs cur).length ((d + 1) ^ (g.length + 1 - (path.length + 1))) := by
          rw [← List.map_reverse, List.map_map]
          rw [List.eq_replicate_iff]
          constructor
          · simp
          · intro b hb
            obtain ⟨a, _, rfl⟩ := List.mem_map.mp hb
            simp [entryWeight]
        rw [e1, List.sum_replicate_nat]
        simp only [entryWeight]
        cases hn : g.nbrs cur with
        | nil => simp
        | cons a l =>
          have hl : (path ++ [cur]).length ≤ g.length := by
            have := h' (a, path ++ [cur]) (by simp [hn])
            exact entry_len this
          simp at hl
          have e2 : g.length + 1 - path.length = (g.length + 1 - (path.length + 1)) + 1 := by omega
          rw [e2, pow_succ]
          have := hd cur
          rw [hn] at this
          have hp : 0 < (d + 1) ^ (g.length + 1 - (path.length + 1)) := Nat.pos_of_ne_zero (by positivity)
          nlinarith
      omega
  · next hst =>
    split at hs
    · simp at hs
    · next v todo ht =>
      split at hs
      · simp at hs; subst hs
        simp only [cycleMeasure, hst, ht, List.length_cons, Nat.add_mul, Nat.one_mul]
        omega
      · simp at hs; subst hs
        simp only [cycleMeasure, hst, ht, List.length_cons, Nat.add_mul, Nat.one_mul, List.map_cons,
          List.map_nil, List.sum_cons, List.sum_nil, entryWeight, List.length_nil]
        simp only [Nat.sub_zero]
        omega

theorem run_terminates {d : Nat} (hd : ∀ v, (g.nbrs v).length ≤ d) (n : Nat) (s : CycleState)
    (h : StackOk g s) (hn : cycleMeasure d g.length s < n) : ∃ r, cycleRun g n s = some r := by
  induction n generalizing s with
  | zero => omega
  | succ n ih =>
    rw [cycleRun]
    cases hs : cycleStep g s with
    | inr r => exact ⟨r, rfl⟩
    | inl s' =>
      have := measure_step hd h hs
      exact ih s' (stackOk_step h hs) (by omega)

theorem run_mono {n k : Nat} {s : CycleState} {r} (h : cycleRun g n s = some r) :
    cycleRun g (n + k) s = some r := by
  induction n generalizing s with
  | zero => simp [cycleRun] at h
  | succ n ih =>
    rw [Nat.add_right_comm, cycleRun]
    rw [cycleRun] at h
    cases hs : cycleStep g s with
    | inr r' => rw [hs] at h; exact h
    | inl s' => rw [hs] at h; exact ih h

theorem findCycle_det {r r'} (h : FindCycle g r) (h' : FindCycle g r') : r = r' := by
  obtain ⟨n, h⟩ := h
  obtain ⟨k, h'⟩ := h'
  have h1 := run_mono (k := k) h
  have h2 := run_mono (k := n) h'
  rw [Nat.add_comm k n] at h2
  rw [h1] at h2
  exact Option.some.inj h2

theorem stackOk_init : StackOk g (cycleInit g) := by intro e he; simp [cycleInit] at he

theorem findCycle_spec (g : Graph) : FindCycle g (findCycle g) := by
  have := run_terminates (g := g) (d := (g.map (fun p => (p.2.getD []).length)).sum) nbrs_length
    (cycleFuel g) (cycleInit g) stackOk_init (by
      unfold cycleFuel
      simp only [cycleMeasure, cycleInit, List.map_nil, List.sum_nil, List.length_map]
      generalize (g.map (fun p => (p.2.getD []).length)).sum = d
      generalize g.length = n
      have h1 : (d + 1) ^ (n + 1) ≤ (d + 1 + 1) ^ (n + 2) := by
        calc (d + 1) ^ (n + 1) ≤ (d + 1 + 1) ^ (n + 1) := Nat.pow_le_pow_left (by omega) _
          _ ≤ (d + 1 + 1) ^ (n + 2) := Nat.pow_le_pow_right (by omega) (by omega)
      have h2 : n * ((d + 1) ^ (n + 1) + 1) ≤ n * ((d + 1 + 1) ^ (n + 2) + 2) :=
        Nat.mul_le_mul_left _ (by omega)
      rw [Nat.add_mul]
      omega)
  obtain ⟨r, hr⟩ := this
  refine ⟨cycleFuel g, ?_⟩
  rw [findCycle, hr]; rfl

/-! ### Soundness -/

theorem run_sound {n : Nat} {s : CycleState} {p : List Str} (h : StackOk g s)
    (hr : cycleRun g n s = some (some p)) :
    Walk g p ∧ ∃ a ∈ p.getLast?, ∃ b ∈ p, Edge g a b := by
  induction n generalizing s with
  | zero => simp [cycleRun] at hr
  | succ n ih =>
    rw [cycleRun] at hr
    cases hs : cycleStep g s with
    | inl s' => rw [hs] at hr; exact ih (stackOk_step h hs) hr
    | inr r =>
      rw [hs] at hr
      simp at hr; subst hr
      unfold cycleStep at hs
      split at hs
      · next cur path rest hst =>
        split at hs
        · next hc =>
          simp at hs; subst hs
          have h0 := (h (cur, path) (by rw [hst]; simp)).walk
          unfold Walk at h0
          rw [List.isChain_append] at h0
          obtain ⟨h1, _, h3⟩ := h0
          refine ⟨h1, ?_⟩
          have hne : path ≠ [] := List.ne_nil_of_mem hc
          refine ⟨path.getLast hne, List.getLast?_eq_getLast_of_ne_nil hne, cur, hc, ?_⟩
          exact h3 _ (List.getLast?_eq_getLast_of_ne_nil hne) _ (by simp)
        · simp at hs
      · split at hs
        · simp at hs
        · split at hs <;> simp at hs

theorem walk_reach {p : List Str} (h : Walk g p) {a b : Str} (ha : a ∈ p) (hb : b ∈ p.getLast?) :
    Relation.ReflTransGen (Edge g) a b := by
  induction p generalizing a with
  | nil => simp at ha
  | cons x p ih =>
    unfold Walk at h
    cases p with
    | nil =>
      simp at ha hb; subst ha; subst hb; exact .refl
    | cons y p =>
      rw [List.isChain_cons_cons] at h
      have hb' : b ∈ (y :: p).getLast? := by simpa [List.getLast?_cons_cons] using hb
      rcases List.mem_cons.mp ha with rfl | ha
      · exact .head h.1 (ih h.2 (by simp) hb')
      · exact ih h.2 ha hb'

theorem cyclic_of_walk {p : List Str} (h : Walk g p) {a b : Str} (ha : a ∈ p.getLast?) (hb : b ∈ p)
    (e : Edge g a b) : Cyclic g :=
  ⟨b, Relation.TransGen.tail' (walk_reach h hb ha) e⟩

/-! ### Completeness -/

/-- From `v`, with `p` on the path, a repetition can be reached. -/
inductive Repeats (g : Graph) : Str → List Str → Prop
  | here {v p} : v ∈ p → Repeats g v p
  | step {v p w} : w ∈ g.nbrs v → Repeats g w (p ++ [v]) → Repeats g v p

theorem Repeats.mono {v : Str} {p q : List Str} (h : Repeats g v p) (hs : ∀ x ∈ p, x ∈ q) :
    Repeats g v q := by
  induction h generalizing q with
  | here h => exact .here (hs _ h)
  | step hw _ ih =>
    refine .step hw (ih ?_)
    intro x hx
    rcases List.mem_append.mp hx with hx | hx
    · exact List.mem_append.mpr (Or.inl (hs x hx))
    · exact List.mem_append.mpr (Or.inr hx)

theorem run_complete {n : Nat} {s : CycleState} (hr : cycleRun g n s = some none) :
    (∀ e ∈ s.stack, ¬ Repeats g e.1 e.2) ∧ ∀ v ∈ s.todo, v ∉ s.visited → ¬ Repeats g v [] := by
  induction n generalizing s with
  | zero => simp [cycleRun] at hr
  | succ n ih =>
    rw [cycleRun] at hr
    unfold cycleStep at hr
    split at hr
    · next r hs =>
      simp at hr; subst hr
      split at hs
      · split at hs <;> simp at hs
      · next hst =>
        split at hs
        · next ht => simp [hst, ht]
        · split at hs <;> simp at hs
    · next s' hs =>
      obtain ⟨i1, i2⟩ := ih hr
      split at hs
      · next cur path rest hst =>
        split at hs
        · simp at hs
        · next hc =>
          simp at hs; subst hs
          have hcur : ¬ Repeats g cur path := by
            intro hR
            cases hR with
            | here h => exact hc h
            | step hw h =>
              exact i1 (_, path ++ [cur]) (by simp; left; exact hw) h
          constructor
          · intro e he
            rw [hst] at he
            rcases List.mem_cons.mp he with rfl | he
            · exact hcur
            · exact i1 e (by simp [he])
          · intro v hv hnv hR
            by_cases hvc : v = cur
            · subst hvc; exact hcur (hR.mono (by simp))
            · exact i2 v hv (by simp [hvc, hnv]) hR
      · next hst =>
        split at hs
        · simp at hs
        · next v todo ht =>
          split at hs
          · next hv =>
            simp at hs; subst hs
            refine ⟨i1, ?_⟩
            intro w hw hnw
            rw [ht] at hw
            rcases List.mem_cons.mp hw with rfl | hw
            · exact absurd hv hnw
            · exact i2 w hw hnw
          · next hv =>
            simp at hs; subst hs
            refine ⟨by simp [hst], ?_⟩
            intro w hw hnw
            rw [ht] at hw
            rcases List.mem_cons.mp hw with rfl | hw
            · exact i1 (w, []) (by simp)
            · exact i2 w hw hnw

theorem repeats_of_reach {v x : Str} (h : Relation.ReflTransGen (Edge g) v x) {p : List Str} (hx : x ∈ p) :
    Repeats g v p := by
  induction h using Relation.ReflTransGen.head_induction_on generalizing p with
  | refl => exact .here hx
  | head e _ ih => exact .step (mem_nbrs.mpr e) (ih (List.mem_append.mpr (Or.inl hx)))

theorem findCycle_none_iff : FindCycle g none ↔ ¬ Cyclic g := by
  constructor
  · rintro ⟨n, hr⟩ ⟨v, hv⟩
    obtain ⟨w, e, hw⟩ := Relation.TransGen.head'_iff.mp hv
    have hk := edge_key e
    refine (run_complete hr).2 v hk (by simp [cycleInit]) ?_
    exact .step (mem_nbrs.mpr e) (repeats_of_reach hw (by simp))
  · intro h
    have hs := findCycle_spec g
    cases hc : findCycle g with
    | none => rw [hc] at hs; exact hs
    | some p =>
      rw [hc] at hs
      obtain ⟨n, hr⟩ := hs
      obtain ⟨hw, a, ha, b, hb, e⟩ := run_sound stackOk_init hr
      exact absurd (cyclic_of_walk hw ha hb e) h

theorem findCycle_eq_none : findCycle g = none ↔ ¬ Cyclic g := by
  rw [← findCycle_none_iff]
  constructor
  · intro h; rw [← h]; exact findCycle_spec g
  · intro h; exact findCycle_det (findCycle_spec g) h

end Pddl
