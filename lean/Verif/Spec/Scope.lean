/-
Variables of a written condition that no quantifier binds.
-/
import Verif.Spec.Parse
import Verif.Spec.Tags
import Verif.Model.ParseDomain

namespace Pddl.Spec
open Pddl

/-- `?n` is written directly in the list. -/
def Writes (n : Str) (l : List Tree) : Prop := ∃ pre post, l = pre ++ varTrees n ++ post

/-- The text is `(forall vs c)` or `(exists vs c)`. -/
def IsQuantifier (l : List Tree) (vs : List Tree) (c : Tree) : Prop :=
  ∃ w, (w = s%"forall" ∨ w = s%"exists") ∧ l = [.atom (.name w), .node vs, c]

/-- The variable `?n` occurs in the text and is not bound there. -/
inductive FreeIn (n : Str) : Tree → Prop
  | here {l} : Writes n l → FreeIn n (.node l)
  | part {l t} : t ∈ l → (∀ vs c, ¬ IsQuantifier l vs c) → FreeIn n t → FreeIn n (.node l)
  | under {l vs c} : IsQuantifier l vs c → ¬ Writes n vs → FreeIn n c → FreeIn n (.node l)

/-- A term without the types of variables. -/
def eraseTerm : Term → Term
  | .var v => .var ⟨v.name, []⟩
  | .const n t => .const n t

mutual
/-- A formula without the types at the occurrences of variables. -/
def erase : Expr → Expr
  | .pred p => .pred ⟨p.name, p.terms.map eraseTerm⟩
  | .eq l r => .eq (eraseTerm l) (eraseTerm r)
  | .nfun f => .nfun ⟨f.name, f.terms.map eraseTerm⟩
  | .num n => .num n
  | .bfun o as => .bfun o (erases as)
  | .bin o as => .bin o (erases as)
  | .not a => .not (erase a)
  | .quant q vs c => .quant q vs (erase c)
  | .when c e => .when (erase c) (erase e)
  | .fall vs e => .fall vs (erase e)
def erases : List Expr → List Expr
  | [] => []
  | a :: as => erase a :: erases as
end

/-- The bodies of the sections with a keyword, in order. -/
def sectionsOf (k : Str) (ts : List Tree) : List (List Tree) := ts.filterMap (fun
  | .node (.atom (.kw k') :: b) => if k' = k then some b else none
  | _ => none)

/-- The tree is an action or a derived predicate. -/
def IsStructure (t : Tree) : Prop :=
  ∃ b, t = .node (.atom (.kw s%"action") :: b) ∨ t = .node (.atom (.kw s%"derived") :: b)

/-- The text of a domain: declarations `pre`, then actions and derived predicates `S`. -/
structure DomainText (text : Str) (pre S : List Tree) : Prop where
  read : readText text = .ok [.node (pre ++ S)]
  declarations : ∀ t ∈ pre, ¬ IsStructure t
  structures : ∀ t ∈ S, IsStructure t

/-- No action has a parameter `?n`. -/
def NoParam (n : Str) (S : List Tree) : Prop := ∀ a ps rest,
  .node (.atom (.kw s%"action") :: .atom (.name a) :: .atom (.kw s%"parameters") :: .node ps :: rest) ∈ S → ¬ Writes n ps

end Pddl.Spec
