/- Problems and plans that fit a domain. -/
import Verif.Spec.Types

namespace Pddl.Spec
open Pddl

/-- An atomic formula (predicate, term equality) or a function expression, or the
negation of one. -/
inductive Literal : Expr → Prop
  | pred (p) : Literal (.pred p)
  | eq (l r) : Literal (.eq l r)
  | nfun (f) : Literal (.nfun f)
  | num (n) : Literal (.num n)
  | bfun (o as) : Literal (.bfun o as)
  | notPred (p) : Literal (.not (.pred p))
  | notEq (l r) : Literal (.not (.eq l r))
  | notNfun (f) : Literal (.not (.nfun f))
  | notNum (n) : Literal (.not (.num n))
  | notBfun (o as) : Literal (.not (.bfun o as))

/-- Equal up to ASCII case. -/
def SameIgnoringCase (a b : Str) : Prop := a.map Char.toLower = b.map Char.toLower

/-- A problem fits a domain. -/
structure Fits (p : Problem) (d : Domain) : Prop where
  name : SameIgnoringCase p.domainName d.name
  reqs : ∀ rs, p.reqs_ = some rs → ∀ r ∈ rs, r ∈ d.reqs
  objects : ∀ t ∈ p.objects, WellTypedTerm (Declared d.types) d.reqs t
  init : ∀ e ∈ p.init, WellTyped (Declared d.types) d.reqs e
  goal : WellTyped (Declared d.types) d.reqs p.goal

/-- The action of that name (the last one, should there be several). -/
def lastNamed (n : Str) (as : List Action) : Option Action := as.reverse.find? (fun a => decide (a.name = n))

/-- A plan step that a domain and a problem allow. -/
def StepOk (d : Domain) (p : Problem) (s : Str × List Term) : Prop :=
  ∃ a, lastNamed s.1 d.actions = some a ∧ s.2.length = a.params.length ∧
    ∀ t ∈ s.2, ∃ o ∈ p.objects ++ d.constants, t.pyEq o = true

end Pddl.Spec
