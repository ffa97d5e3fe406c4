/-
pddl/parser/grammar.lark, rule for rule, as predicates of bracketed texts. `G` says whether the
alternatives are included that the tables of the LALR parser do not reach: after `( -` and one
expression the parser only expects `)`, and after `( =` it takes a name for a term.
A word is a `NAME` unless it is one of the keywords that the grammar allows at its place.
-/
import Verif.Spec.Parse

namespace Pddl.Spec.Grammar
open Pddl Spec

/-- A keyword at the front of a list, and what follows it. White space after it may be missing: what is
left of the word is then a `NAME`. -/
inductive Keyword (k : Str) : List Tree → List Tree → Prop
  | word (rest : List Tree) : Keyword k (word k :: rest) rest
  | fused (c : Char) (cs : Str) (rest : List Tree) : isAlphaC c = true →
      Keyword k (.atom (.name (k ++ c :: cs)) :: rest) (word (c :: cs) :: rest)

/-- `NAME*` -/
def Names (ts : List Tree) : Prop := ∃ ns : List Str, ts = ns.map word

/-- `term*` (grammar.lark:59-62). -/
inductive Terms : List Tree → Prop
  | nil : Terms []
  | constant (n : Str) {ts} : Terms ts → Terms (word n :: ts)
  | variable (n : Str) {ts} : Terms ts → Terms (.atom .qmark :: word n :: ts)

/-- One `term`. -/
inductive Term1 : List Tree → Prop
  | constant (n : Str) : Term1 [word n]
  | variable (n : Str) : Term1 [.atom .qmark, word n]

/-- `typed_list_variable` (grammar.lark:94-96, 100-103). -/
def TypedVars (ts : List Tree) : Prop := ∃ l, VarsText ts l

/-- `typed_list_name` (grammar.lark:98-99). -/
def TypedNames (ts : List Tree) : Prop := ∃ l : NameList, ts = l.text ∧ ∀ g ∈ l.groups, g.1 ≠ []

/-- `f_head` (grammar.lark:85-86). -/
inductive FHead : Tree → Prop
  | name (n : Str) : FHead (word n)
  | args (n : Str) {ts} : Terms ts → FHead (.node (word n :: ts))

/-- `f_exp` (grammar.lark:70-83). -/
inductive FExp (G : Prop) : Tree → Prop
  | literal (s : Str) : FExp G (.atom (.num s))
  | plus {ts} : 2 ≤ ts.length → (∀ t ∈ ts, FExp G t) → FExp G (.node (.atom .plus :: ts))
  | times {ts} : 2 ≤ ts.length → (∀ t ∈ ts, FExp G t) → FExp G (.node (.atom .times :: ts))
  | divide {a b} : FExp G a → FExp G b → FExp G (.node [.atom .divide, a, b])
  | minus {a b} : G → FExp G a → FExp G b → FExp G (.node [.atom .minus, a, b])
  | negate {a} : FExp G a → FExp G (.node [.atom .minus, a])
  | head {t} : FHead t → FExp G t

/-- `atomic_formula_term` (grammar.lark:57-58), where `kws` are the keywords expected at the place of the
predicate. -/
inductive Atomic (kws : List Str) : Tree → Prop
  | predicate (n : Str) {ts} : n ∉ kws → Terms ts → Atomic kws (.node (word n :: ts))
  | equal {a b} : Term1 a → Term1 b → Atomic kws (.node (.atom .eq :: (a ++ b)))

/-- The keywords with which a condition may begin. -/
def gdWords : List Str := [s%"or", s%"not", s%"and", s%"imply", s%"exists", s%"forall"]

/-- `gd` (grammar.lark:31-38, 64-68). -/
inductive Gd (G : Prop) : Tree → Prop
  | atomic {t} : Atomic gdWords t → Gd G t
  | or {ts} : (∀ t ∈ ts, Gd G t) → Gd G (.node (word s%"or" :: ts))
  | not {t} : Gd G t → Gd G (.node [word s%"not", t])
  | and {ts} : (∀ t ∈ ts, Gd G t) → Gd G (.node (word s%"and" :: ts))
  | imply {a b} : Gd G a → Gd G b → Gd G (.node [word s%"imply", a, b])
  | exists {vs t} : TypedVars vs → Gd G t → Gd G (.node [word s%"exists", .node vs, t])
  | forall {vs t} : TypedVars vs → Gd G t → Gd G (.node [word s%"forall", .node vs, t])
  | compare {op a b} : op ∈ [.gt, .lt, .ge, .le] → FExp G a → FExp G b → Gd G (.node [.atom op, a, b])
  | equal {a b} : (G ∨ ∀ n, a ≠ word n) → FExp G a → FExp G b → Gd G (.node [.atom .eq, a, b])

/-- `assign_op` (grammar.lark:88-92). -/
def assignWords : List Str := [s%"assign", s%"scale-up", s%"scale-down", s%"increase", s%"decrease"]

/-- `p_effect` and `num_effect` (grammar.lark:50-55); `kws` are the keywords expected besides their own. -/
inductive PEffect (G : Prop) (kws : List Str) : Tree → Prop
  | not {t} : Atomic [] t → PEffect G kws (.node [word s%"not", t])
  | atomic {t} : Atomic (s%"not" :: assignWords ++ kws) t → PEffect G kws t
  | num {w h x} : w ∈ assignWords → FHead h → FExp G x → PEffect G kws (.node [word w, h, x])

/-- `cond_effect` (grammar.lark:53-54). -/
inductive CondEffect (G : Prop) : Tree → Prop
  | and {ts} : (∀ t ∈ ts, PEffect G [] t) → CondEffect G (.node (word s%"and" :: ts))
  | one {t} : PEffect G [s%"and"] t → CondEffect G t

/-- The keywords with which a `c_effect` may begin. -/
def effectWords : List Str := [s%"forall", s%"when", s%"oneof"]

/-- `effect` (with the flag `true`) and `c_effect` (grammar.lark:43-49). -/
inductive Effect (G : Prop) : Bool → Tree → Prop
  | and {ts} : (∀ t ∈ ts, Effect G false t) → Effect G true (.node (word s%"and" :: ts))
  | forall {top vs t} : TypedVars vs → Effect G true t → Effect G top (.node [word s%"forall", .node vs, t])
  | when {top c t} : Gd G c → CondEffect G t → Effect G top (.node [word s%"when", c, t])
  | oneof {top ts} : ts ≠ [] → (∀ t ∈ ts, Effect G true t) → Effect G top (.node (word s%"oneof" :: ts))
  | one {top t} : PEffect G (effectWords ++ if top then [s%"and"] else []) t → Effect G top t

/-- `require_key+` (grammar.lark:6, 158-172). -/
def Requirements (ts : List Tree) : Prop :=
  ts ≠ [] ∧ ∀ t ∈ ts, ∃ k ∈ [s%"typing", s%"strips", s%"equality", s%"non-deterministic",
    s%"negative-preconditions", s%"disjunctive-preconditions", s%"existential-preconditions",
    s%"universal-preconditions", s%"quantified-preconditions", s%"adl", s%"derived-predicates",
    s%"conditional-effects", s%"numeric-fluents", s%"fluents", s%"action-costs"], t = .atom (.kw k)

/-- `atomic_formula_skeleton` and `atomic_function_skeleton` (grammar.lark:13, 20). -/
inductive Skeleton : Tree → Prop
  | mk (n : Str) {vs} : TypedVars vs → Skeleton (.node (word n :: vs))

/-- `f_typed_list_atomic_function_skeleton` (grammar.lark:15-18). -/
inductive Functions : List Tree → Prop
  | rest {ts} : (∀ t ∈ ts, Skeleton t) → Functions ts
  | group {ts us} : ts ≠ [] → (∀ t ∈ ts, Skeleton t) → Functions us →
      Functions (ts ++ .atom .minus :: word s%"number" :: us)

/-- A section `(:k …)`. -/
def section_ (k : Str) (body : List Tree) : Tree := .node (.atom (.kw k) :: body)

/-- An optional section. -/
inductive Opt (k : Str) (P : List Tree → Prop) : List Tree → Prop
  | absent : Opt k P []
  | present {body} : P body → Opt k P [section_ k body]

/-- `emptyor_pregd` (grammar.lark:29-30). -/
def PreGd (G : Prop) (t : Tree) : Prop := t = .node [] ∨ Gd G t

/-- `emptyor_effect` (grammar.lark:41-42). -/
def EffectOrEmpty (G : Prop) (t : Tree) : Prop := t = .node [] ∨ Effect G true t

/-- `action_body_def` (grammar.lark:25). -/
inductive Body (G : Prop) : List Tree → Prop
  | none : Body G []
  | pre {p} : PreGd G p → Body G [.atom (.kw s%"precondition"), p]
  | effect {e} : EffectOrEmpty G e → Body G [.atom (.kw s%"effect"), e]
  | both {p e} : PreGd G p → EffectOrEmpty G e →
      Body G [.atom (.kw s%"precondition"), p, .atom (.kw s%"effect"), e]

/-- `structure_def` (grammar.lark:22-26). -/
inductive Structure (G : Prop) : Tree → Prop
  | action (n : Str) {ps body} : TypedVars ps → Body G body →
      Structure G (section_ s%"action" (word n :: .atom (.kw s%"parameters") :: .node ps :: body))
  | derived {h c} : Skeleton h → Gd G c → Structure G (section_ s%"derived" [h, c])

/-- `domain_def` and `problem_def` (grammar.lark:4, 108): `(domain name)`. -/
def Header (k : Str) (t : Tree) : Prop := ∃ l n, t = .node l ∧ Keyword k l [word n]

/-- `domain` (grammar.lark:3-10). -/
def Domain (G : Prop) (t : Tree) : Prop :=
  ∃ h rq ty cs ps fs ss, t = .node (word s%"define" :: h :: (rq ++ ty ++ cs ++ ps ++ fs ++ ss)) ∧
    Header s%"domain" h ∧ Opt s%"requirements" Requirements rq ∧ Opt s%"types" TypedNames ty ∧
    Opt s%"constants" TypedNames cs ∧ Opt s%"predicates" (fun b => b ≠ [] ∧ ∀ t ∈ b, Skeleton t) ps ∧
    Opt s%"functions" (fun b => b ≠ [] ∧ Functions b) fs ∧ ∀ s ∈ ss, Structure G s

/-- `atomic_formula_name` and `ground_action` (grammar.lark:124, 148), where `kws` are the keywords expected
at the place of the predicate. -/
inductive Ground (kws : List Str) : Tree → Prop
  | mk (n : Str) {ts} : n ∉ kws → Names ts → Ground kws (.node (word n :: ts))

/-- `basic_function_term` (grammar.lark:121-122). -/
inductive BasicFunction : Tree → Prop
  | name (n : Str) : BasicFunction (word n)
  | args (n : Str) {ts} : Names ts → BasicFunction (.node (word n :: ts))

/-- `init_el` (grammar.lark:115-119). -/
inductive InitEl : Tree → Prop
  | fact {t} : Ground [s%"not"] t → InitEl t
  | not {t} : Ground [] t → InitEl (.node [word s%"not", t])
  | value {f} (s : Str) : BasicFunction f → InitEl (.node [.atom .eq, f, .atom (.num s)])

/-- `metric_f_exp` (grammar.lark:133-137). -/
inductive MetricExp (G : Prop) : Tree → Prop
  | literal (s : Str) : MetricExp G (.atom (.num s))
  | plus {ts} : 2 ≤ ts.length → (∀ t ∈ ts, MetricExp G t) → MetricExp G (.node (.atom .plus :: ts))
  | times {ts} : 2 ≤ ts.length → (∀ t ∈ ts, MetricExp G t) → MetricExp G (.node (.atom .times :: ts))
  | divide {a b} : MetricExp G a → MetricExp G b → MetricExp G (.node [.atom .divide, a, b])
  | minus {a b} : G → MetricExp G a → MetricExp G b → MetricExp G (.node [.atom .minus, a, b])
  | negate {a} : MetricExp G a → MetricExp G (.node [.atom .minus, a])
  | function {t} : BasicFunction t → MetricExp G t

/-- `metric_spec` (grammar.lark:128-131). -/
def Metric (G : Prop) (ts : List Tree) : Prop :=
  ∃ t, (Keyword s%"maximize" ts [t] ∨ Keyword s%"minimize" ts [t]) ∧ MetricExp G t

/-- `problem` (grammar.lark:107-126). -/
def Problem (G : Prop) (t : Tree) : Prop :=
  ∃ h dn rq os is g ms, t = .node (word s%"define" :: h :: section_ s%"domain" [word dn] ::
      (rq ++ os ++ section_ s%"init" is :: section_ s%"goal" [g] :: ms)) ∧
    Header s%"problem" h ∧ Opt s%"requirements" Requirements rq ∧ Opt s%"objects" TypedNames os ∧
    (∀ i ∈ is, InitEl i) ∧ Gd G g ∧ Opt s%"metric" (Metric G) ms

/-- `plan` (grammar.lark:147-148). -/
def Plan (ts : List Tree) : Prop := ∀ t ∈ ts, Ground [] t

/-- The tokens of bracketed texts written one after another. -/
inductive Brackets : List Tok → List Tree → Prop
  | nil : Brackets [] []
  | token {t a ts} : t ≠ .lpar → t ≠ .rpar → Brackets a ts → Brackets (t :: a) (.atom t :: ts)
  | group {a b l ts} : Brackets a l → Brackets b ts → Brackets (.lpar :: (a ++ .rpar :: b)) (.node l :: ts)

end Pddl.Spec.Grammar
