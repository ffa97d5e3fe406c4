/-
What an effect with choices (`oneof`) can do, and what its text says it can do.
-/
import Verif.Spec.Effect

namespace Pddl.Spec
open Pddl

mutual
/-- `C` is one of the possible sets of changes of the effect in the state `I`: `oneof` chooses one of its operands;
`and` makes all choices of its operands, each on its own; `when` does what its effect does if the condition is true and
nothing otherwise; `forall` makes the choices for each of the objects on its own; anything else makes its changes. -/
def outcome {D} (I : Interp D) : Expr → (Str → D) → (Change D → Prop) → Prop
  | .bin .oneof as, ρ, C => outcomeSome I as ρ C
  | .bin .and as, ρ, C => outcomeAll I as ρ C
  | .when cond e, ρ, C => (holds I cond ρ ∧ outcome I e ρ C) ∨ (¬ holds I cond ρ ∧ ∀ c, ¬ C c)
  | .fall vs e, ρ, C => ∃ S : (Str → D) → Change D → Prop, (∀ ρ', Rebind I vs ρ ρ' → outcome I e ρ' (S ρ')) ∧
      ∀ c, C c ↔ ∃ ρ', Rebind I vs ρ ρ' ∧ S ρ' c
  | e, ρ, C => ∀ c, C c ↔ makes I c e ρ
/-- One of the operands can do `C`. -/
def outcomeSome {D} (I : Interp D) : List Expr → (Str → D) → (Change D → Prop) → Prop
  | [], _, _ => False
  | a :: as, ρ, C => outcome I a ρ C ∨ outcomeSome I as ρ C
/-- The operands together can do `C`. -/
def outcomeAll {D} (I : Interp D) : List Expr → (Str → D) → (Change D → Prop) → Prop
  | [], _, C => ∀ c, ¬ C c
  | a :: as, ρ, C => ∃ A B, outcome I a ρ A ∧ outcomeAll I as ρ B ∧ ∀ c, C c ↔ A c ∨ B c
end

mutual
/-- `C` is one of the possible sets of changes of the written effect. -/
def treeOutcome {D} (I : Interp D) (lit : Str → Option Rat) : Tree → (Str → D) → (Change D → Prop) → Prop
  | .node (.atom (.name w) :: args), ρ, C =>
    if w = s%"oneof" then treeOutcomeSome I lit args ρ C
    else if w = s%"and" then treeOutcomeAll I lit args ρ C
    else if w = s%"forall" then
      match args with
      | [.node vs, e] => ∃ l, VarsText vs l ∧ ∃ S : (Str → D) → Change D → Prop,
          (∀ ρ', Rebind I l.varList ρ ρ' → treeOutcome I lit e ρ' (S ρ')) ∧
          ∀ c, C c ↔ ∃ ρ', Rebind I l.varList ρ ρ' ∧ S ρ' c
      | _ => False
    else if w = s%"when" then
      match args with
      | [cond, e] => (treeHolds I lit cond ρ ∧ treeOutcome I lit e ρ C) ∨ (¬ treeHolds I lit cond ρ ∧ ∀ c, ¬ C c)
      | _ => False
    else ∀ c, C c ↔ treeMakes I lit c (.node (.atom (.name w) :: args)) ρ
  | t, ρ, C => ∀ c, C c ↔ treeMakes I lit c t ρ
/-- One of the written effects can do `C`. -/
def treeOutcomeSome {D} (I : Interp D) (lit : Str → Option Rat) : List Tree → (Str → D) → (Change D → Prop) → Prop
  | [], _, _ => False
  | t :: ts, ρ, C => treeOutcome I lit t ρ C ∨ treeOutcomeSome I lit ts ρ C
/-- The written effects together can do `C`. -/
def treeOutcomeAll {D} (I : Interp D) (lit : Str → Option Rat) : List Tree → (Str → D) → (Change D → Prop) → Prop
  | [], _, C => ∀ c, ¬ C c
  | t :: ts, ρ, C => ∃ A B, treeOutcome I lit t ρ A ∧ treeOutcomeAll I lit ts ρ B ∧ ∀ c, C c ↔ A c ∨ B c
end

mutual
/-- No `oneof` in the effect. -/
def choiceFree : Expr → Prop
  | .bin .oneof _ => False
  | .bin .and as => choicesFree as
  | .when _ e => choiceFree e
  | .fall _ e => choiceFree e
  | _ => True
def choicesFree : List Expr → Prop
  | [] => True
  | a :: as => choiceFree a ∧ choicesFree as
end

/-- Somewhere (with some declared requirements, constants and parameters) the two written effects are read as equal
objects. -/
def ReadAlike (F : FloatOf) (s t : Tree) : Prop :=
  ∃ E a b, ParserEnv E ∧ E.float = F ∧ E.effect false s = .ok a ∧ E.effect false t = .ok b ∧ a.pyEq b = true

/-- No choice is written twice among the operands of an `and`. -/
def ChoicesOnce (F : FloatOf) (t : Tree) : Prop := ∀ args, Inside (.node (.atom (.name s%"and") :: args)) t →
  args.Pairwise (fun a b => ReadAlike F a b → NoOneof a ∨ NoOneof b)

end Pddl.Spec
