/-
Ground actions that get in each other's way.
-/
import Verif.Spec.Execute
import Verif.Spec.Declared
import Verif.Spec.Problem

namespace Pddl.Spec
open Pddl

/-- Something an effect may change: an atom that becomes true, one that becomes false, a fluent that is updated. -/
inductive Touch
  | add (p : Pred)
  | del (p : Pred)
  | num (o : FOp) (f : NFun)

/-- What a (deterministic) effect may change. -/
inductive Changes : Expr → Touch → Prop
  | add {p} : Changes (.pred p) (.add p)
  | del {p} : Changes (.not (.pred p)) (.del p)
  | num {o f x} : updates o = true → Changes (.bfun o [.nfun f, x]) (.num o f)
  | part {as a c} : a ∈ as → Changes a c → Changes (.bin .and as) c
  | when {cond e c} : Changes e c → Changes (.when cond e) c
  | fall {vs e c} : Changes e c → Changes (.fall vs e) c

/-- The atoms on which it depends what an effect changes. -/
inductive AsksPred : Expr → Pred → Prop
  | part {as a p} : a ∈ as → AsksPred a p → AsksPred (.bin .and as) p
  | cond {cond e p} : p ∈ predsIn cond → AsksPred (.when cond e) p
  | when {cond e p} : AsksPred e p → AsksPred (.when cond e) p
  | fall {vs e p} : AsksPred e p → AsksPred (.fall vs e) p

/-- The fluents on which it depends what an effect changes; the old value of the updated fluent does not count. -/
inductive AsksFun : Expr → NFun → Prop
  | num {o f x g} : g ∈ funsIn x → AsksFun (.bfun o [.nfun f, x]) g
  | part {as a f} : a ∈ as → AsksFun a f → AsksFun (.bin .and as) f
  | cond {cond e f} : f ∈ funsIn cond → AsksFun (.when cond e) f
  | when {cond e f} : AsksFun e f → AsksFun (.when cond e) f
  | fall {vs e f} : AsksFun e f → AsksFun (.fall vs e) f

/-- The two lists of terms may stand for the same objects: they are of the same length, and in no place are there two
constants with different names. -/
def MayMeet (ts us : List Term) : Prop :=
  List.Forall₂ (fun t u => ∀ n m x y, t = .const n x → u = .const m y → n = m) ts us

/-- `increase` and `decrease`. -/
def additive (o : FOp) : Prop := o = .increase ∨ o = .decrease

/-- The atom is one the action asks about, in its precondition or in its effect. -/
def UsesPred (h : Action) (p : Pred) : Prop :=
  (∃ e, h.pre = some e ∧ p ∈ predsIn e) ∨ ∃ e, h.eff = some e ∧ AsksPred e p

/-- The fluent is one the action asks about. -/
def UsesFun (h : Action) (f : NFun) : Prop :=
  (∃ e, h.pre = some e ∧ f ∈ funsIn e) ∨ ∃ e, h.eff = some e ∧ AsksFun e f

/-- What the action may change. -/
def MayChange (g : Action) (c : Touch) : Prop := ∃ e, g.eff = some e ∧ Changes e c

/-- `g` may change something that `h` asks about, or make an atom true that `h` makes false, or update a fluent that
`h` updates, unless both only increase or decrease it. -/
inductive Disturbs (g h : Action) : Prop
  | added {p q} : MayChange g (.add p) → UsesPred h q → p.name = q.name → MayMeet p.terms q.terms → Disturbs g h
  | deleted {p q} : MayChange g (.del p) → UsesPred h q → p.name = q.name → MayMeet p.terms q.terms → Disturbs g h
  | updated {o f f'} : MayChange g (.num o f) → UsesFun h f' → f.name = f'.name → MayMeet f.terms f'.terms → Disturbs g h
  | opposed {p q} : MayChange g (.add p) → MayChange h (.del q) → p.name = q.name → MayMeet p.terms q.terms → Disturbs g h
  | both {o o' f f'} : MayChange g (.num o f) → MayChange h (.num o' f') → f.name = f'.name → MayMeet f.terms f'.terms →
      ¬ (additive o ∧ additive o') → Disturbs g h

/-- The ground action of a step of a plan. -/
def StepOf (d : Pddl.Domain) (s : Str × List Term) (g : Action) : Prop := ∃ a, lastNamed s.1 d.actions = some a ∧ a.inst s.2 = .ok g

/-- The ground actions of the two steps disturb each other. -/
def Interfere (d : Pddl.Domain) (s s' : Str × List Term) : Prop :=
  ∃ g h, StepOf d s g ∧ StepOf d s' h ∧ (Disturbs g h ∨ Disturbs h g)

/-- The second list has the elements of the first, and any two related elements come in the same order in both: without all
other elements the lists are the same. -/
def KeepsOrder {α} [DecidableEq α] (R : α → α → Prop) (l r : List α) : Prop :=
  l.Perm r ∧ ∀ a b, R a b → l.filter (fun x => decide (x = a ∨ x = b)) = r.filter (fun x => decide (x = a ∨ x = b))

/-- Constants with different names are different objects. -/
def UniqueNames {D} (I : Interp D) : Prop := ∀ n m, I.const n = I.const m → n = m

end Pddl.Spec
