/-
Vocabulary for what client programs do to the objects they use (C85).
-/
import Verif.Model.Share

namespace Pddl.Spec
open Share

/-- Every call of the program satisfies `P` at the point where it is made. -/
def Along (F : FloatOf) (P : World → Op → Prop) : World → List Op → Prop
  | _, [] => True
  | w, op :: ops => P w op ∧ Along F P (w.step F op).1 ops

/-- The call reads the property `f` of the object at `a`. -/
def AsksFor (a : Addr) (f : Field) (w : World) (op : Op) : Prop := ∃ x, op = .read x f ∧ w.vars[x]? = some a

/-- The call changes the collection at `a`. -/
def WritesTo (a : Addr) (w : World) (op : Op) : Prop := ∃ x l, op = .write x l ∧ w.vars[x]? = some a

/-- The call assigns the domain of the problem at `a`. -/
def SetsDomain (a : Addr) (w : World) (op : Op) : Prop := ∃ x y, op = .setDomain x y ∧ w.vars[x]? = some a

/-- The client world can be reached by some program. -/
def Reachable (F : FloatOf) (w : World) : Prop := ∃ ops, w = World.start.run F ops

/-- The call makes a new object, at `a`. -/
def Makes (F : FloatOf) (a : Addr) (w : World) (op : Op) : Prop :=
  (w.step F op).2 = .ok () ∧ (w.step F op).1.vars = w.vars ++ [a] ∧ a ∉ w.vars

/-- The call is `Domain(...)` without functions, or parses a domain. -/
def Op.makesDomain : Op → Prop
  | .domain _ _ _ _ _ none _ _ => True
  | .parseDomain _ => True
  | _ => False

/-- The call is `Problem(...)`, or parses a problem. -/
def Op.makesProblem : Op → Prop
  | .problem _ _ _ _ _ _ _ _ => True
  | .parseProblem _ => True
  | _ => False

/-- The call changes a dictionary of the domain of the problem at `a`. -/
def ChangesDomainOf (a : Addr) (w : World) (op : Op) : Prop :=
  ∃ o b d, w.heap[a]? = some (.problem o) ∧ o.domain = some b ∧ w.heap[b]? = some (.domain d) ∧
    (WritesTo d.types w op ∨ WritesTo d.functions w op)

/-- The call neither passes a dictionary of functions nor asks for a dictionary or for requirements. -/
def Op.discreet : Op → Prop
  | .domain _ _ _ _ _ (some _) _ _ => False
  | .read _ .types => False
  | .read _ .functions => False
  | .read _ .requirements => False
  | _ => True

/-- The call is an assignment to the domain of a problem. -/
def Op.assigns : Op → Prop
  | .setDomain _ _ => True
  | _ => False

end Pddl.Spec
