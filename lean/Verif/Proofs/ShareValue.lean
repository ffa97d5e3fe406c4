/-
C85: the values of new objects.
-/
import Verif.Spec.ShareValue
import Verif.Proofs.ShareSound

namespace Pddl
open Spec Share

theorem cell_some {h : Heap} {b : Addr} {c : Cell} : h.cell b = some c ↔ ∃ fr, h[b]? = some (.cell fr c) := by
  unfold Heap.cell
  constructor
  · intro h'
    split at h'
    · rename_i fr c' hc
      simp only [Option.some.injEq] at h'
      subst h'
      exact ⟨fr, hc⟩
    · cases h'
  · rintro ⟨fr, e⟩
    rw [e]

theorem arg_passed {α : Type} {w : World} {get : Addr → Option (List α)} {kind : List α → Cell} {x : Option Nat} {l : List α}
    (hget : ∀ a l, get a = some l → w.heap.cell a = some (kind l)) (h : w.arg get x = some l) : Passed w kind x l := by
  cases x with
  | none =>
    simp only [World.arg, Option.some.injEq] at h
    exact h.symm
  | some x =>
    simp only [World.arg, Option.bind_eq_bind, Option.bind_eq_some_iff] at h
    obtain ⟨a, ha, h⟩ := h
    obtain ⟨fr, hf⟩ := cell_some.1 (hget a l h)
    exact ⟨a, fr, ha, hf⟩

theorem get_reqs {h : Heap} (a : Addr) (l) (e : h.reqs a = some l) : h.cell a = some (.reqs l) := by
  unfold Heap.reqs at e; split at e <;> simp_all
theorem get_types {h : Heap} (a : Addr) (l) (e : h.types a = some l) : h.cell a = some (.types l) := by
  unfold Heap.types at e; split at e <;> simp_all
theorem get_terms {h : Heap} (a : Addr) (l) (e : h.terms a = some l) : h.cell a = some (.terms l) := by
  unfold Heap.terms at e; split at e <;> simp_all
theorem get_preds {h : Heap} (a : Addr) (l) (e : h.preds a = some l) : h.cell a = some (.preds l) := by
  unfold Heap.preds at e; split at e <;> simp_all
theorem get_funs {h : Heap} (a : Addr) (l) (e : h.funs a = some l) : h.cell a = some (.funs l) := by
  unfold Heap.funs at e; split at e <;> simp_all
theorem get_derived {h : Heap} (a : Addr) (l) (e : h.derived a = some l) : h.cell a = some (.derived l) := by
  unfold Heap.derived at e; split at e <;> simp_all
theorem get_actions {h : Heap} (a : Addr) (l) (e : h.actions a = some l) : h.cell a = some (.actions l) := by
  unfold Heap.actions at e; split at e <;> simp_all
theorem get_exprs {h : Heap} (a : Addr) (l) (e : h.exprs a = some l) : h.cell a = some (.exprs l) := by
  unfold Heap.exprs at e; split at e <;> simp_all

/-! ### What no client can change -/

/-- A collection stays a collection of its class. -/
theorem Share.Effect.stays {w w' : World} {op : Op} {a : Addr} {fr : Bool} {c : Cell} (h : Effect w op w')
    (ho : w.heap[a]? = some (.cell fr c)) : ∃ c', w'.heap[a]? = some (.cell fr c') ∧ (c' = c ∨ c'.like c = true) := by
  have hlt : a < w.heap.length := (List.getElem?_eq_some_iff.1 ho).1
  cases h with
  | nothing => exact ⟨c, ho, .inl rfl⟩
  | make os vs _ _ => exact ⟨c, by rw [List.getElem?_append_left hlt]; exact ho, .inl rfl⟩
  | write y l b c1 c' e hb hc' hl _ _ =>
    by_cases hne : b = a
    · subst hne
      rw [ho] at hc'
      simp only [Option.some.injEq, Obj.cell.injEq] at hc'
      obtain ⟨rfl, rfl⟩ := hc'
      exact ⟨c1, by rw [List.getElem?_set_self hlt], .inr hl⟩
    · exact ⟨c, by rw [List.getElem?_set_ne hne]; exact ho, .inl rfl⟩
  | assign y z b b2 p n _ hb hb2 hp _ =>
    have hne : b ≠ a := by
      rintro rfl
      rw [ho] at hp
      cases hp
    exact ⟨c, by rw [List.getElem?_set_ne hne]; exact ho, .inl rfl⟩
  | reveal x f a' b o _ _ _ _ => exact ⟨c, ho, .inl rfl⟩

theorem domain_stays {F : FloatOf} {w : World} {op : Op} {a : Addr} {d : Domain} (h : w.heap.domain a = some d) :
    ∃ d', (w.step F op).1.heap.domain a = some d' ∧ ∃ ts fs, d' = { d with types := ts, functions := fs } := by
  have he := step_effect F w op
  obtain ⟨o, fr, fr', ts, fs, h1, h2, h3, rfl⟩ := domain_some.1 h
  obtain ⟨c1, k1, e1⟩ := he.stays h2
  obtain ⟨c2, k2, e2⟩ := he.stays h3
  obtain ⟨ts', rfl⟩ : ∃ ts', c1 = .types ts' := by
    rcases e1 with rfl | e1
    · exact ⟨_, rfl⟩
    · cases c1 <;> simp [Cell.like] at e1
      exact ⟨_, rfl⟩
  obtain ⟨fs', rfl⟩ : ∃ fs', c2 = .funs fs' := by
    rcases e2 with rfl | e2
    · exact ⟨_, rfl⟩
    · cases c2 <;> simp [Cell.like] at e2
      exact ⟨_, rfl⟩
  exact ⟨_, domain_some.2 ⟨o, fr, fr', ts', fs', he.kept h1 (by simp) (by simp), k1, k2, rfl⟩, ts', fs', rfl⟩

theorem domainAt_stays {F : FloatOf} {w : World} {op : Op} {b : Option Addr} {d : Option Domain} (h : w.heap.domainAt b = some d) :
    ∃ d', (w.step F op).1.heap.domainAt b = some d' := by
  cases b with
  | none => exact ⟨none, rfl⟩
  | some b =>
    simp only [Heap.domainAt, Option.map_eq_some_iff] at h ⊢
    obtain ⟨d', h, rfl⟩ := h
    obtain ⟨d2, h2, _⟩ := domain_stays (F := F) (op := op) h
    exact ⟨_, d2, h2, rfl⟩

theorem reqsAt_stays {F : FloatOf} {w : World} {op : Op} {r : ReqsAt} {l : Option (List Req)} (h : w.heap.reqsAt r = some l) :
    ∃ l', (w.step F op).1.heap.reqsAt r = some l' := by
  cases r with
  | none => exact ⟨none, rfl⟩
  | frozen l => exact ⟨some l, rfl⟩
  | own a =>
    simp only [Heap.reqsAt, Option.map_eq_some_iff] at h ⊢
    obtain ⟨l', h, rfl⟩ := h
    obtain ⟨fr, h⟩ := reqs_some.1 h
    obtain ⟨c, k, e⟩ := (step_effect F w op).stays h
    obtain ⟨l2, rfl⟩ : ∃ l2, c = .reqs l2 := by
      rcases e with rfl | e
      · exact ⟨_, rfl⟩
      · cases c <;> simp [Cell.like] at e
        exact ⟨_, rfl⟩
    exact ⟨_, l2, reqs_some.2 ⟨fr, k⟩, rfl⟩

theorem problem_stays {F : FloatOf} {w : World} {op : Op} {a : Addr} {p : Problem} (h : w.heap.problem a = some p) :
    ∃ p', (w.step F op).1.heap.problem a = some p' ∧
      ∃ d n rs, p' = { p with domain := d, domainName_ := n, reqs_ := rs } := by
  obtain ⟨o, d, rs, h1, h2, h3, rfl⟩ := problem_some.1 h
  have hlt : a < w.heap.length := (List.getElem?_eq_some_iff.1 h1).1
  have key : ∃ b n, (w.step F op).1.heap[a]? = some (.problem { o with domain := b, domainName_ := n }) ∧
      ∃ d', (w.step F op).1.heap.domainAt b = some d' := by
    have hsame : (w.step F op).1.heap[a]? = some (.problem o) → ∃ b n, (w.step F op).1.heap[a]? =
        some (.problem { o with domain := b, domainName_ := n }) ∧ ∃ d', (w.step F op).1.heap.domainAt b = some d' :=
      fun e => ⟨o.domain, o.domainName_, e, domainAt_stays h2⟩
    have hst := fun b d (hb : w.heap.domain b = some d) => domain_stays (F := F) (op := op) hb
    have he := step_effect F w op
    generalize (w.step F op).1 = w' at hsame hst he ⊢
    cases he with
    | nothing => exact hsame h1
    | make os vs _ _ => exact hsame (by rw [List.getElem?_append_left hlt]; exact h1)
    | write y l b c1 c' e hb hc' hl _ _ =>
      have hne : b ≠ a := by
        rintro rfl
        rw [h1] at hc'
        cases hc'
      exact hsame (by rw [List.getElem?_set_ne hne]; exact h1)
    | assign y z b b2 p n _ hb hb2 hp hd =>
      by_cases hne : b = a
      · subst hne
        rw [h1] at hp
        cases hp
        obtain ⟨d2, hd2, _⟩ := hd
        obtain ⟨d3, hd3, _⟩ := hst b2 d2 hd2
        exact ⟨some b2, n, by rw [List.getElem?_set_self hlt], some d3, by simp only [Heap.domainAt, hd3, Option.map_some]⟩
      · exact hsame (by rw [List.getElem?_set_ne hne]; exact h1)
    | reveal x f a' b o _ _ _ _ => exact hsame h1
  obtain ⟨b, n, k1, d', k2⟩ := key
  obtain ⟨rs', k3⟩ := reqsAt_stays (F := F) (op := op) h3
  exact ⟨_, problem_some.2 ⟨_, d', rs', k1, k2, k3, rfl⟩, d', n, rs', rfl⟩

end Pddl
