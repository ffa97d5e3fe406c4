/-
Arguments of the constructors: reading them off an object, and comparing them.
-/
import Verif.Spec.Built
import Verif.Spec.Types

namespace Pddl.Spec
open Pddl

/-! ### Reading the arguments off an object -/

/-- The public properties of a domain, as arguments of `Domain(...)`. -/
def domainArgs (d : Domain) : DomainArgs :=
  { name := d.name
    reqs := d.reqs
    types := d.types
    constants := d.constants
    predicates := d.predicates
    derived := d.derived
    functions := d.functions
    actions := d.actions }

/-- The public properties of a problem, as arguments of `Problem(...)`. -/
def problemArgs (p : Problem) : ProblemArgs :=
  { name := p.name
    domain := p.domain
    domainName := some p.domainName
    reqs := some p.reqs
    objects := p.objects
    init := p.init
    goal := some p.goal
    metric := p.metric }

/-- Calling the class of a formula with its operands, terms or variables. -/
def remake : Expr → Except Exc Expr
  | .pred p => do
    let q ← mkPred p.name p.terms
    pure (.pred q)
  | .eq l r => mkEq l r
  | .nfun f => do
    let g ← mkNFun f.name f.terms
    pure (.nfun g)
  | .num n => pure (.num n)
  | .bfun o as => pure (construct (.fop o) as)
  | .bin o as => pure (construct (.bop o) as)
  | .not a => pure (.not a)
  | .quant q vs c => pure (mkQuant q c vs)
  | .when c e => pure (.when c e)
  | .fall vs e => pure (mkForall e vs)

/-! ### Comparing arguments -/

/-- Each element of one collection is `==` to one of the other. -/
def SameSet {α} (eq : α → α → Bool) (a b : List α) : Prop :=
  (∀ x ∈ a, ∃ y ∈ b, eq x y = true) ∧ (∀ y ∈ b, ∃ x ∈ a, eq y x = true)

/-- The arguments of two calls of `Domain(...)` are equal. -/
structure SameDomainArgs (a b : DomainArgs) : Prop where
  name : a.name = b.name
  reqs : ∀ r, r ∈ a.reqs ↔ r ∈ b.reqs
  types : ∀ x, a.types.lookup x = b.types.lookup x
  constants : SameSet Term.pyEq a.constants b.constants
  predicates : SameSet Pred.pyEq a.predicates b.predicates
  derived : SameSet Derived.pyEq a.derived b.derived
  functions : funDictEq a.functions b.functions = true
  actions : SameSet Action.pyEq a.actions b.actions

/-- Both absent, or both present and related. -/
def SameOpt {α} (eq : α → α → Prop) : Option α → Option α → Prop
  | none, none => True
  | some x, some y => eq x y
  | _, _ => False

/-- The arguments of two calls of `Problem(...)` are equal. -/
structure SameProblemArgs (a b : ProblemArgs) : Prop where
  name : a.name = b.name
  domain : SameOpt (fun x y : Domain => x.pyEq y = true) a.domain b.domain
  domainName : a.domainName = b.domainName
  reqs : SameOpt (fun x y : List Req => ∀ r, r ∈ x ↔ r ∈ y) a.reqs b.reqs
  objects : SameSet Term.pyEq a.objects b.objects
  init : SameSet Expr.pyEq a.init b.init
  goal : SameOpt (fun x y : Expr => x.pyEq y = true) a.goal b.goal
  metric : SameOpt (fun x y : Metric => x.pyEq y = true) a.metric b.metric

/-- The terms in the arguments whose types are checked. -/
def domainTerms (a : DomainArgs) : List Term :=
  a.constants ++ a.predicates.flatMap (fun p => p.terms) ++ a.derived.flatMap (fun x => x.pred.terms) ++
    a.actions.flatMap (fun x => x.params ++ termsOpt x.pre ++ termsOpt x.eff)

/-- The same, for problems. -/
def problemTerms (a : ProblemArgs) : List Term :=
  a.objects ++ a.init.flatMap terms ++ termsOpt a.goal

/-- Equal terms of two collections have the same types. For variables this is always so; for constants `==` looks at
the name only. -/
def AgreeTypes (l m : List Term) : Prop :=
  ∀ s ∈ l, ∀ t ∈ m, s.pyEq t = true → ∀ x, x ∈ s.tags ↔ x ∈ t.tags

end Pddl.Spec
