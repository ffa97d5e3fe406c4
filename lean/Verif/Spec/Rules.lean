/-
Rules for the domain texts that are accepted: what may be written where, given what has been declared.
The rules speak of bracketed texts and of nothing that the parser builds.
-/
import Verif.Spec.Written
import Verif.Spec.Rearranged
import Verif.Spec.Tags
import Verif.Spec.Types

namespace Pddl.Spec.Rules
open Pddl Spec Grammar

/-- What is known at a place in a domain text.
* `float`: the texts that Python's `float` reads;
* `reqs`: the declared requirements;
* `consts`: the declared constants with their types;
* `params`: the parameters of the action with their types;
* `typeOk`: the types that variables bound there may be given. -/
structure Scope where
  float : FloatOf
  reqs : List Req
  consts : List (Str × Option Str)
  params : List (Str × List Str)
  typeOk : Str → Prop

/-- Other types for variables: `none` if there are none to be given at this place. -/
abbrev Retyping := Option (Str → Option (List Str))

/-- A term with the other type. -/
def retype (τ : Str → Option (List Str)) : Term → Term
  | .var v => .var ⟨v.name, (τ v.name).getD v.tags⟩
  | .const n t => .const n t

/-- Inside a quantifier its variables have the types that it gives them. -/
def bindTypes (l : List (Str × List Str)) (τ : Str → Option (List Str)) : Str → Option (List Str) :=
  fun n => (l.lookup n).or (τ n)

/-- The same for no other types. -/
def bindRetyping (l : List (Str × List Str)) : Retyping → Retyping := Option.map (bindTypes l)

/-- The arguments of a predicate: no name occurs with different types, neither with the types first given to
variables nor with the others. -/
def Agrees (ρ : Retyping) (ts : List Term) : Prop :=
  Consistent ts ∧ ∀ τ, ρ = some τ → Consistent (ts.map (retype τ))

/-- Arguments: constants must be declared, and a variable has the types of the parameter of that name, if there
is one, and none else. -/
inductive TermsIn (Γ : Scope) : List Tree → List Term → Prop
  | nil : TermsIn Γ [] []
  | const {n tag ts l} : (n, tag) ∈ Γ.consts → TermsIn Γ ts l → TermsIn Γ (word n :: ts) (.const n tag :: l)
  | param {n types ts l} : (n, types) ∈ Γ.params → TermsIn Γ ts l →
      TermsIn Γ (varTrees n ++ ts) (.var ⟨n, types⟩ :: l)
  | var {n ts l} : (∀ p ∈ Γ.params, p.1 ≠ n) → ValidName n → TermsIn Γ ts l →
      TermsIn Γ (varTrees n ++ ts) (.var ⟨n, []⟩ :: l)

/-- A typed list of variables: valid names, valid types, and a name that is written twice has the same types
both times. -/
def VarsIn (typeOk : Str → Prop) (vs : List Tree) (l : List (Str × List Str)) : Prop :=
  (∃ tl, VarsText vs tl ∧ l = tl.vars) ∧
    (∀ p ∈ l, ValidName p.1 ∧ ∀ t ∈ p.2, ValidType t ∧ typeOk t) ∧
    ∀ p ∈ l, ∀ q ∈ l, p.1 = q.1 → SameTypes p.2 q.2

/-- The function of an assignment or in an expression: it need not be declared. -/
inductive FHeadIn (Γ : Scope) : Tree → Prop
  | name {n} : ValidFunction n → FHeadIn Γ (word n)
  | args {n ts l} : ValidFunction n → TermsIn Γ ts l → FHeadIn Γ (.node (word n :: ts))

/-- Numeric expressions. -/
inductive FExpIn (Γ : Scope) : Tree → Prop
  | literal {s} : ('.' ∈ s → Γ.float s ≠ none) → FExpIn Γ (.atom (.num s))
  | plus {ts} : 2 ≤ ts.length → (∀ t ∈ ts, FExpIn Γ t) → FExpIn Γ (.node (.atom .plus :: ts))
  | times {ts} : 2 ≤ ts.length → (∀ t ∈ ts, FExpIn Γ t) → FExpIn Γ (.node (.atom .times :: ts))
  | divide {a b} : FExpIn Γ a → FExpIn Γ b → FExpIn Γ (.node [.atom .divide, a, b])
  | negate {a} : FExpIn Γ a → FExpIn Γ (.node [.atom .minus, a])
  | head {t} : FHeadIn Γ t → FExpIn Γ t

/-- Predicates, which need not be declared, and equalities of terms; `kws` are the words that mean something
else at this place. -/
inductive AtomIn (Γ : Scope) (ρ : Retyping) (kws : List Str) : Tree → Prop
  | predicate {n ts l} : n ∉ kws → ValidName n → TermsIn Γ ts l → Agrees ρ l →
      AtomIn Γ ρ kws (.node (word n :: ts))
  | equal {ts a b} : TermsIn Γ ts [a, b] → Agrees ρ [a, b] → InForce Γ.reqs .equality →
      AtomIn Γ ρ kws (.node (.atom .eq :: ts))

/-- Conditions. No requirement is needed for `not` and for comparisons of numbers. -/
inductive GdIn (Γ : Scope) : Retyping → Tree → Prop
  | atomic {ρ t} : AtomIn Γ ρ gdWords t → GdIn Γ ρ t
  | and {ρ ts} : (∀ t ∈ ts, GdIn Γ ρ t) → GdIn Γ ρ (.node (word s%"and" :: ts))
  | or {ρ ts} : (∀ t ∈ ts, GdIn Γ ρ t) → InForce Γ.reqs .disPrecondition → GdIn Γ ρ (.node (word s%"or" :: ts))
  | not {ρ t} : GdIn Γ ρ t → GdIn Γ ρ (.node [word s%"not", t])
  | imply {ρ a b} : GdIn Γ ρ a → GdIn Γ ρ b → InForce Γ.reqs .disPrecondition →
      GdIn Γ ρ (.node [word s%"imply", a, b])
  | forall {ρ vs l t} : VarsIn Γ.typeOk vs l → GdIn Γ (bindRetyping l ρ) t →
      InForce Γ.reqs .universalPrecondition → GdIn Γ ρ (.node [word s%"forall", .node vs, t])
  | exists {ρ vs l t} : VarsIn Γ.typeOk vs l → GdIn Γ (bindRetyping l ρ) t →
      InForce Γ.reqs .existentialPrecondition → GdIn Γ ρ (.node [word s%"exists", .node vs, t])
  | compare {ρ op a b} : op ∈ [.gt, .lt, .ge, .le] → FExpIn Γ a → FExpIn Γ b → GdIn Γ ρ (.node [.atom op, a, b])
  | equal {ρ a b} : (∀ n, a ≠ word n) → FExpIn Γ a → FExpIn Γ b → GdIn Γ ρ (.node [.atom .eq, a, b])

/-- Simple effects; `kws` are the words that mean something else at this place. -/
inductive PEffectIn (Γ : Scope) (kws : List Str) : Tree → Prop
  | not {t} : AtomIn Γ none [] t → PEffectIn Γ kws (.node [word s%"not", t])
  | atomic {t} : AtomIn Γ none (s%"not" :: assignWords ++ kws) t → PEffectIn Γ kws t
  | num {w h x} : w ∈ assignWords → FHeadIn Γ h → FExpIn Γ x → PEffectIn Γ kws (.node [word w, h, x])

/-- The effects of `when`. -/
inductive CondEffectIn (Γ : Scope) : Tree → Prop
  | and {ts} : (∀ t ∈ ts, PEffectIn Γ [] t) → CondEffectIn Γ (.node (word s%"and" :: ts))
  | one {t} : PEffectIn Γ [s%"and"] t → CondEffectIn Γ t

/-- Effects: `and` only where the flag is `true`. No requirement is needed for `when` and `forall`. -/
inductive EffectIn (Γ : Scope) : Bool → Tree → Prop
  | and {ts} : (∀ t ∈ ts, EffectIn Γ false t) → EffectIn Γ true (.node (word s%"and" :: ts))
  | forall {top vs l t} : VarsIn Γ.typeOk vs l → EffectIn Γ true t →
      EffectIn Γ top (.node [word s%"forall", .node vs, t])
  | when {top c t} : GdIn Γ none c → CondEffectIn Γ t → EffectIn Γ top (.node [word s%"when", c, t])
  | oneof {top ts} : ts ≠ [] → (∀ t ∈ ts, EffectIn Γ true t) → InForce Γ.reqs .nonDeterministic →
      EffectIn Γ top (.node (word s%"oneof" :: ts))
  | one {top t} : PEffectIn Γ (effectWords ++ if top then [s%"and"] else []) t → EffectIn Γ top t

/-- What a domain text declares before its actions; `types` are those after which no supertype or another
supertype than `object` is written. -/
structure Decls where
  reqs : List Req
  types : TypeDict
  consts : List (Str × Option Str)
  preds : List (Str × List (Str × List Str))

/-- A declared type, with `:typing` in force. -/
def Decls.typeOk (D : Decls) (t : Str) : Prop := Declared D.types t ∧ HasTyping D.reqs

/-- The scope inside an action. -/
def Decls.action (F : FloatOf) (D : Decls) (params : List (Str × List Str)) : Scope :=
  ⟨F, D.reqs, D.consts, params, D.typeOk⟩

/-- The scope of the condition of a derived predicate: types are not compared with the declared ones. -/
def Decls.derived (F : FloatOf) (D : Decls) (params : List (Str × List Str)) : Scope :=
  ⟨F, D.reqs, D.consts, params, fun _ => True⟩

/-- The types of the variables of a head: those written, else those of the declaration, if any. -/
def headTypes (l : List ((Str × List Str) × (Str × List Str))) : List (Str × List Str) :=
  l.filterMap (fun p => if p.1.2 ≠ [] then some p.1 else if p.2.2 ≠ [] then some (p.1.1, p.2.2) else none)

/-- `h c` in `(:derived h c)`: the last declaration of the predicate counts; the types that are written must be
among the declared ones or direct subtypes of them. A variable that is written twice has the types of its last place
where there are any. -/
def DerivedIn (F : FloatOf) (D : Decls) (params : List (Str × List Str)) (h c : Tree) : Prop :=
  ∃ n vs l dl, h = .node (word n :: vs) ∧ ValidName n ∧ VarsIn (Declared D.types) vs l ∧
    D.preds.reverse.lookup n = some dl ∧ dl.length = l.length ∧
    (∀ p ∈ l.zip dl, p.2.2 ≠ [] → ∀ t ∈ p.1.2, t ∈ p.2.2 ∨ ∃ u ∈ p.2.2, (t, some u) ∈ D.types) ∧
    GdIn (D.derived F params) (some fun x => (headTypes (l.zip dl)).reverse.lookup x) c

/-- `n`, `vs`, `pre` and `eff` in `(:action n :parameters (vs) :precondition pre :effect eff)`. -/
def ActionIn (F : FloatOf) (D : Decls) (l : List (Str × List Str)) (n : Str) (vs : List Tree) (pre eff : Tree) : Prop :=
  ValidName n ∧ VarsIn D.typeOk vs l ∧ (pre = .node [] ∨ GdIn (D.action F l) none pre) ∧
    (eff = .node [] ∨ EffectIn (D.action F l) true eff)

/-- Actions and derived predicates. A derived predicate sees the parameters of the action before it. -/
inductive StructuresIn (F : FloatOf) (D : Decls) : List (Str × List Str) → List Tree → Prop
  | nil {ps} : StructuresIn F D ps []
  | action {ps l n vs pre eff ts} : ActionIn F D l n vs pre eff → StructuresIn F D l ts →
      StructuresIn F D ps (actionText n vs pre eff :: ts)
  | derived {ps h c ts} : DerivedIn F D ps h c → StructuresIn F D ps ts →
      StructuresIn F D ps (section_ s%"derived" [h, c] :: ts)

/-- Two declarations of the same function: variables of `total-cost` do not count. -/
def SameFunction (f g : Str × List (Str × List Str)) : Prop :=
  f.1 = g.1 ∧ (f.1 = s%"total-cost" ∨ List.Forall₂ (fun p q => p.1 = q.1 ∧ SameTypes p.2 q.2) f.2 g.2)

/-- Declarations of functions: the types are not compared with the declared ones. -/
def FunctionsIn (rs : List Req) (b : List Tree) : Prop :=
  ∃ l fs, b ≠ [] ∧ FunctionsText b l ∧
    List.Forall₂ (fun p f => ∃ vs, p.1 = .node (word f.1 :: vs) ∧ ValidFunction f.1 ∧ VarsIn (fun _ => True) vs f.2) l fs ∧
    fs.Pairwise (fun f g => ¬ SameFunction f g) ∧
    ((∃ f ∈ fs, f.1 = s%"total-cost") → Req.actionCosts ∈ rs) ∧
    ((∃ f ∈ fs, f.1 ≠ s%"total-cost") → Req.numericFluents ∈ rs ∨ Req.fluents ∈ rs)

/-- Declarations of types. Any `-` needs `:typing` in force, and one with another supertype than `object` needs
`:typing` itself. -/
def TypesIn (rs : List Req) (b : List Tree) (T : TypeDict) : Prop :=
  ∃ l : NameList, b = l.text ∧ l.Ok ∧ (l.groups ≠ [] → InForce rs .typing) ∧ T = l.pairs.map objectless ∧
    TypeNamesOk T ∧ HierarchyOk T rs

/-- Declarations of constants. -/
def ConstantsIn (typeOk : Str → Prop) (b : List Tree) (cs : List (Str × Option Str)) : Prop :=
  ∃ l : NameList, b = l.text ∧ l.Ok ∧ cs = l.pairs ∧ ∀ p ∈ cs, ∀ t, p.2 = some t → typeOk t

/-- Declarations of predicates. -/
def PredicatesIn (typeOk : Str → Prop) (b : List Tree) (ps : List (Str × List (Str × List Str))) : Prop :=
  b ≠ [] ∧ List.Forall₂ (fun t p => ∃ vs, t = .node (word p.1 :: vs) ∧ ValidName p.1 ∧ VarsIn typeOk vs p.2) b ps

/-- An optional section, with what it declares. -/
def OptIn {α : Type} (P : List Tree → List α → Prop) : Option (List Tree) → List α → Prop
  | none, l => l = []
  | some b, l => P b l

/-- The sections of a domain text obey the rules. -/
structure SectionsIn (F : FloatOf) (s : DomainSections) (D : Decls) : Prop where
  name : ValidName s.name
  reqs : OptIn (fun b rs => Requirements b ∧ ReqsWritten b rs) s.reqs D.reqs
  types : OptIn (TypesIn D.reqs) s.types D.types
  constants : OptIn (ConstantsIn D.typeOk) s.constants D.consts
  predicates : OptIn (PredicatesIn D.typeOk) s.predicates D.preds
  functions : ∀ b, s.functions = some b → FunctionsIn D.reqs b
  structures : StructuresIn F D [] s.structures

/-- The text obeys the rules. -/
def DomainIn (F : FloatOf) (text : Str) : Prop :=
  ∃ t s D, Brackets (lex text) [t] ∧ s.Of t ∧ SectionsIn F s D

end Pddl.Spec.Rules
