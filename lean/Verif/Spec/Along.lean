/-
States seen through a renaming.
-/
import Verif.Spec.Rename
import Verif.Spec.Execute

namespace Pddl.Spec
open Pddl

/-- The state `I` with every name read as the name that `ρ` gives it. -/
def Interp.along {D} (I : Interp D) (ρ : Str → Str) : Interp D where
  const n := I.const (ρ n)
  ty t := I.ty (ρ t)
  pred p := I.pred (ρ p)
  fn f := I.fn (ρ f)

/-- A change of what the names that `ρ` gives stand for. -/
def Change.rename {D} (ρ : Str → Str) : Change D → Change D
  | .add p ds => .add (ρ p) ds
  | .del p ds => .del (ρ p) ds
  | .num o f ds v => .num o (ρ f) ds v

/-- The problem does not tell apart the names that `ρ` exchanges: the same objects and the same facts are listed, and the
same goal is asked for. -/
structure Symmetric (ρ : Str → Str) (p : Pddl.Problem) : Prop where
  objects : ∀ t, t ∈ p.objects ↔ t ∈ p.objects.map (Term.rename ρ)
  init : ∀ e, e ∈ p.init ↔ e ∈ p.init.map (Expr.rename ρ)
  goal : ∀ (D : Type) (J : Interp D) (ν : Str → D), holds J (p.goal.rename ρ) ν ↔ holds J p.goal ν

end Pddl.Spec
