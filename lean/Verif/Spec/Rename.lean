/-
Renaming the names of a text, and of the objects made from it.
-/
import Verif.Spec.Names
import Verif.Model.ParseProblem

namespace Pddl.Spec

/-- `ρ` gives different names to different names and leaves everything alone that is not a name or has a meaning
of its own: the reserved words, and `number`. -/
structure Renaming (ρ : Str → Str) : Prop where
  inj : ∀ a b, ρ a = ρ b → a = b
  name : ∀ w, NameShape w → NameShape (ρ w)
  other : ∀ w, ¬ NameShape w → ρ w = w
  reserved : ∀ w, Reserved w → ρ w = w
  number : ρ s%"number" = s%"number"

/-- The keywords after which the next name may follow without a space, since nothing else can come in their
place (`domainfoo` for `domain foo`). -/
def gluing : List Str := [s%"define", s%"domain", s%"problem", s%"either", s%"maximize", s%"minimize"]

/-- A word that cannot be read as a keyword and a name. -/
def Loose (w : Str) : Prop := ∀ k ∈ gluing, ∀ c cs, w = k ++ c :: cs → ¬ Letter c

/-- Exchanging two names. -/
def exchange (a b w : Str) : Str := if w = a then b else if w = b then a else w

end Pddl.Spec

namespace Pddl
variable (ρ : Str → Str)

/-! ### Texts -/

def Tok.rename : Tok → Tok
  | .name w => .name (ρ w)
  | t => t

mutual
def Tree.rename : Tree → Tree
  | .atom t => .atom (t.rename ρ)
  | .node l => .node (Tree.renames l)
def Tree.renames : List Tree → List Tree
  | [] => []
  | t :: ts => t.rename :: Tree.renames ts
end

/-- `t'` is `t` with its names renamed (white space and comments are free). -/
def Spec.Renamed (t t' : Str) : Prop := lex t' = (lex t).map (Tok.rename ρ)

/-- The names in a text are not glued to keywords. -/
def Spec.LooseText (t : Str) : Prop := ∀ w, Tok.name w ∈ lex t → Spec.Loose w

/-! ### Objects -/

def Var.rename (v : Var) : Var := ⟨ρ v.name, v.tags.map ρ⟩

def Term.rename : Term → Term
  | .var v => .var (v.rename ρ)
  | .const n t => .const (ρ n) (t.map ρ)

def Pred.rename (p : Pred) : Pred := ⟨ρ p.name, p.terms.map (Term.rename ρ)⟩
def NFun.rename (f : NFun) : NFun := ⟨ρ f.name, f.terms.map (Term.rename ρ)⟩

mutual
def Expr.rename : Expr → Expr
  | .pred p => .pred (p.rename ρ)
  | .eq l r => .eq (l.rename ρ) (r.rename ρ)
  | .nfun f => .nfun (f.rename ρ)
  | .num n => .num n
  | .bfun o as => .bfun o (Expr.renames as)
  | .bin o as => .bin o (Expr.renames as)
  | .not a => .not a.rename
  | .quant q vs c => .quant q (vs.map (Var.rename ρ)) c.rename
  | .when c e => .when c.rename e.rename
  | .fall vs e => .fall (vs.map (Var.rename ρ)) e.rename
def Expr.renames : List Expr → List Expr
  | [] => []
  | a :: as => a.rename :: Expr.renames as
end

def Action.rename (a : Action) : Action :=
  ⟨ρ a.name, a.params.map (Term.rename ρ), a.pre.map (Expr.rename ρ), a.eff.map (Expr.rename ρ)⟩
def Derived.rename (d : Derived) : Derived := ⟨d.pred.rename ρ, d.cond.rename ρ⟩
def Metric.rename (m : Metric) : Metric := ⟨m.expr.rename ρ, m.max⟩

def Domain.rename (d : Domain) : Domain where
  name := ρ d.name
  reqs := d.reqs
  types := d.types.map (fun p => (ρ p.1, p.2.map ρ))
  constants := d.constants.map (Term.rename ρ)
  predicates := d.predicates.map (Pred.rename ρ)
  functions := d.functions.map (fun p => (p.1.rename ρ, p.2.map ρ))
  derived := d.derived.map (Derived.rename ρ)
  actions := d.actions.map (Action.rename ρ)

def Problem.rename (p : Problem) : Problem where
  name := ρ p.name
  domain := p.domain.map (Domain.rename ρ)
  domainName_ := ρ p.domainName_
  reqs_ := p.reqs_
  objects := p.objects.map (Term.rename ρ)
  init := p.init.map (Expr.rename ρ)
  goal := p.goal.rename ρ
  metric := p.metric.map (Metric.rename ρ)

def Plan.rename (p : Plan) : Plan := ⟨p.steps.map (fun s => (ρ s.1, s.2.map (Term.rename ρ)))⟩

end Pddl
