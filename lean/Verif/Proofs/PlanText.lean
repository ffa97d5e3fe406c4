/-
Plans as text.
-/
import Verif.Model.ParseProblem
import Verif.Proofs.Reader

namespace Pddl
open Spec

theorem namesOnly_map (ns : List Str) :
    namesOnly (ns.map (fun n => Tree.atom (.name n))) = some ns := by
  induction ns with
  | nil => rfl
  | cons a l ih => simp [namesOnly, ih]

theorem mkConst_none {n : Str} (h : ValidName n) : mkConst n none = .ok (.const n none) := by
  simp [mkConst, parseName_of_valid h]

theorem mapM_mkConst {ns : List Str} (h : ∀ n ∈ ns, ValidName n) :
    ns.mapM (fun n => mkConst n none) = .ok (ns.map (fun n => Term.const n none)) := by
  induction ns with
  | nil => rfl
  | cons a l ih =>
    rw [List.mapM_cons, mkConst_none (h a (by simp)), ih (fun x hx => h x (by simp [hx]))]; rfl

/-- A step that can be written: names only. -/
def StepOk (s : Str × List Term) : Prop :=
  NameShape s.1 ∧ ∀ t ∈ s.2, ∃ n tag, t = Term.const n tag ∧ ValidName n

def stepTree (s : Str × List Term) : Tree :=
  .node (.atom (.name s.1) :: s.2.map (fun t => .atom (.name t.name)))

theorem prints_step {s : Str × List Term} (h : StepOk s) : Prints (stepStr s) [stepTree s] := by
  unfold stepStr stepTree
  have h1 : Prints (joinStr [' '] (s.2.map Term.str)) (s.2.flatMap (fun t => [Tree.atom (.name t.name)])) := by
    apply Prints.join_map (by decide)
    intro t ht
    obtain ⟨n, tag, rfl, hn⟩ := h.2 t ht
    exact Prints.name hn.1
  have h2 := ((Prints.name h.1).sep (c := ' ') (by decide) h1).paren
  rw [← List.map_eq_flatMap] at h2
  simpa using h2

theorem groundAction_stepTree {s : Str × List Term} (h : StepOk s) :
    groundAction (stepTree s) = .ok (s.1, s.2.map (fun t => Term.const t.name none)) := by
  have e : s.2.map (fun t => Tree.atom (.name t.name)) =
      (s.2.map Term.name).map (fun n => Tree.atom (.name n)) := by simp
  have hv : ∀ n ∈ s.2.map Term.name, ValidName n := by
    intro n hn
    obtain ⟨t, ht, rfl⟩ := List.mem_map.1 hn
    obtain ⟨m, tag, rfl, hm⟩ := h.2 t ht
    exact hm
  simp only [stepTree, groundAction, e, namesOnly_map, mapM_mkConst hv]
  simp [ok_bind]

theorem parsePlan_str {p : Plan} (h : ∀ s ∈ p.steps, StepOk s) :
    parsePlan p.str = .ok ⟨p.steps.map (fun s => (s.1, s.2.map (fun t => Term.const t.name none)))⟩ := by
  have h1 : Prints p.str (p.steps.flatMap (fun s => [stepTree s])) :=
    Prints.join_map (c := '\n') (by decide) (fun s hs => prints_step (h s hs))
  rw [← List.map_eq_flatMap] at h1
  have h2 : (p.steps.map stepTree).mapM groundAction =
      .ok (p.steps.map (fun s => (s.1, s.2.map (fun t => Term.const t.name none)))) := by
    generalize p.steps = l at h
    induction l with
    | nil => rfl
    | cons a l ih =>
      rw [List.map_cons, List.mapM_cons, groundAction_stepTree (h a (by simp)),
        ih (fun x hx => h x (by simp [hx]))]; rfl
  rw [parsePlan, h1.readText, ok_bind, h2]; rfl

end Pddl
