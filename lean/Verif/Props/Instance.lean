/-
C11: what instances say, for every formula and every mapping.
-/
import Verif.Proofs.Instance
import Verif.Props.Instantiate

namespace Pddl.Props
open Pddl Spec

/-- C11, exactly. Whatever the formula and whatever terms the variables are mapped to: the instance is true exactly if the
formula is true with each mapped variable replaced in every atom (also where a quantifier binds it, and only where it has
the types of the key), and with operands that become equal counted once in `=`, `+`, `-`, `*` and `/`. -/
theorem C11_exact {D : Type} (I : Interp D) (m : Mapping) (f g : Expr) (ρ : Str → D) (hb : Built f) (hw : WellSorted f)
    (h : f.inst m = .ok g) : holds I g ρ ↔ holdsWith I m f ρ := holds_instance hw hb.good h

/-- The same for values. -/
theorem C11_value_exact {D : Type} (I : Interp D) (m : Mapping) (f g : Expr) (ρ : Str → D) (hb : Built f) (hw : WellSorted f)
    (hn : Numeric f) (h : f.inst m = .ok g) : value I ρ g = valueWith I m ρ f := value_instance hn hw hb.good h

/-- `(forall (?x) (exists (?y) (q ?x ?y)))` with `?x` mapped to `?y`: the outer quantifier has nothing left to bind, and the
variable that is put in is caught by the inner one. -/
example {D : Type} (I : Interp D) (ρ : Str → D) :
    let f : Expr := .quant .all [vx] (.quant .ex [vy] (.pred ⟨s%"q", [.var vx, .var vy]⟩))
    Built f ∧ WellSorted f ∧
      f.inst [(.var vx, .var vy)] = .ok (.quant .all [vx] (.quant .ex [vy] (.pred ⟨s%"q", [.var vy, .var vy]⟩))) ∧
      (holdsWith I [(.var vx, .var vy)] f ρ ↔ ∃ d, I.pred s%"q" [d, d]) := by
  have e2 : substTerm [(.var vx, .var vy)] (.var vx) = .var vy := by decide +kernel
  have e3 : substTerm [(.var vx, .var vy)] (.var vy) = .var vy := by decide +kernel
  refine ⟨?_, by simp [WellSorted], by decide +kernel, ?_⟩
  · have hx : dedupBy Var.pyEq [vx] = [vx] := by decide +kernel
    have hy : dedupBy Var.pyEq [vy] = [vy] := by decide +kernel
    have h1 : Built (.pred ⟨s%"q", [.var vx, .var vy]⟩) := .pred (n := s%"q") (ts := [.var vx, .var vy]) (by decide +kernel)
    have h2 := Built.quant .ex [vy] h1
    rw [mkQuant, hy] at h2
    have h3 := Built.quant .all [vx] h2
    rw [mkQuant, hx] at h3
    exact h3
  · simp only [holdsWith, List.map, denoteWith, e2, e3, denote]
    constructor
    · intro h
      obtain ⟨ρ', _, h⟩ := h ρ ⟨fun _ _ => rfl, fun v hv => by simp at hv; subst hv; exact .inl rfl⟩
      exact ⟨_, h⟩
    · rintro ⟨d, h⟩ ρ1 _
      refine ⟨fun n => if n = s%"y" then d else ρ1 n, ⟨fun n hn => ?_, fun v hv => ?_⟩, by simpa [vy] using h⟩
      · have : n ≠ s%"y" := fun e => hn vy (by simp) e.symm
        simp [this]
      · simp at hv; subst hv; exact .inl rfl

end Pddl.Props
