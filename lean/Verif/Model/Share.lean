/-
Which collections the objects of pddl/core.py share with the code that uses them.

In the other model files an object is its value. Here objects and mutable collections (lists, sets, dictionaries)
live at addresses of a heap, and a client is a sequence of calls: it makes and changes collections, calls the
constructors and parsers, and reads properties. Formulas, terms, actions, predicates and metrics stay values: they
store names, tuples and frozen sets, and every property that returns a collection returns a tuple or a frozen set
(pddl/action.py:42, pddl/logic/base.py:60-64, 191-202, pddl/logic/functions.py:41-52, 147-156,
pddl/logic/predicates.py:48-60, pddl/logic/terms.py:47-58). Private attributes (`_name`, ...) are not touched by a client.
-/
import Verif.Model.ParseProblem

namespace Pddl.Share

/-- An address: a position in the heap. -/
scoped notation "Addr" => Nat

/-- The contents of a collection. A step of a plan is a tuple of a name and the address of a list
(the arguments of pddl/core.py:51-63, 197-207, 398). -/
inductive Cell
  | reqs (l : List Req)
  | types (d : TypeDict)
  | terms (l : List Term)
  | preds (l : List Pred)
  | funs (d : FunDict)
  | derived (l : List Derived)
  | actions (l : List Action)
  | exprs (l : List Expr)
  | steps (l : List (Str × Addr))

/-- Where a problem keeps its requirements (pddl/core.py:263-285): nowhere, in the frozen set of a domain, or in a
set of its own. -/
inductive ReqsAt
  | none
  | frozen (l : List Req)
  | own (a : Addr)

/-- The attributes of a `Domain` (pddl/core.py:78-85). `ensure_set` copies into a frozen set
(pddl/helpers/base.py:63-72); the dictionaries of types and functions are mutable. -/
structure DomObj where
  name : Str
  reqs : List Req
  types : Addr
  constants : List Term
  predicates : List Pred
  functions : Addr
  derived : List Derived
  actions : List Action

/-- The attributes of a `Problem` (pddl/core.py:218-233). -/
structure ProbObj where
  name : Str
  domain : Option Addr
  domainName_ : Str
  reqs_ : ReqsAt
  objects : List Term
  init : List Expr
  goal : Expr
  metric : Option Metric

/-- What is at an address: a collection (mutable or not), a domain, a problem, or a plan with its list
(pddl/core.py:398-404). -/
inductive Obj
  | cell (frozen : Bool) (c : Cell)
  | domain (o : DomObj)
  | problem (o : ProbObj)
  | plan (steps : Addr)

/-- A heap: new objects are put at the end (the objects made by pddl/core.py:78-85, 220-232, 404). -/
abbrev Heap := List Obj

/-- The collection at an address, as the attributes set in pddl/core.py:78-85, 220-232, 404 refer to it. -/
def Heap.cell (h : Heap) (a : Addr) : Option Cell :=
  match h[a]? with
  | some (.cell _ c) => some c
  | _ => none

/-- A types dictionary (pddl/core.py:55). -/
def Heap.types (h : Heap) (a : Addr) : Option TypeDict :=
  match h.cell a with
  | some (.types d) => some d
  | _ => none

/-- A functions dictionary (pddl/core.py:61). -/
def Heap.funs (h : Heap) (a : Addr) : Option FunDict :=
  match h.cell a with
  | some (.funs d) => some d
  | _ => none

/-- A collection of constants (pddl/core.py:56, 203). -/
def Heap.terms (h : Heap) (a : Addr) : Option (List Term) :=
  match h.cell a with
  | some (.terms l) => some l
  | _ => none

/-- A collection of requirements (pddl/core.py:54, 202). -/
def Heap.reqs (h : Heap) (a : Addr) : Option (List Req) :=
  match h.cell a with
  | some (.reqs l) => some l
  | _ => none

/-- The list of a plan (pddl/core.py:398). -/
def Heap.steps (h : Heap) (a : Addr) : Option (List (Str × Addr)) :=
  match h.cell a with
  | some (.steps l) => some l
  | _ => none

/-- A collection of predicates (pddl/core.py:57). -/
def Heap.preds (h : Heap) (a : Addr) : Option (List Pred) :=
  match h.cell a with
  | some (.preds l) => some l
  | _ => none

/-- A collection of derived predicates (pddl/core.py:58-60). -/
def Heap.derived (h : Heap) (a : Addr) : Option (List Derived) :=
  match h.cell a with
  | some (.derived l) => some l
  | _ => none

/-- A collection of actions (pddl/core.py:62). -/
def Heap.actions (h : Heap) (a : Addr) : Option (List Action) :=
  match h.cell a with
  | some (.actions l) => some l
  | _ => none

/-- A collection of formulas (pddl/core.py:204). -/
def Heap.exprs (h : Heap) (a : Addr) : Option (List Expr) :=
  match h.cell a with
  | some (.exprs l) => some l
  | _ => none

/-- The value of the domain at an address: what its properties, `str`, `==` and the checks of problems and plans
see (pddl/core.py:107-145). -/
def Heap.domain (h : Heap) (a : Addr) : Option Domain :=
  match h[a]? with
  | some (.domain o) => do
    let ts ← h.types o.types
    let fs ← h.funs o.functions
    some ⟨o.name, o.reqs, ts, o.constants, o.predicates, fs, o.derived, o.actions⟩
  | _ => none

/-- The requirements a problem has stored (pddl/core.py:226-228). -/
def Heap.reqsAt (h : Heap) : ReqsAt → Option (Option (List Req))
  | .none => some none
  | .frozen l => some (some l)
  | .own a => (h.reqs a).map some

/-- An optional domain (pddl/core.py:221-225). -/
def Heap.domainAt (h : Heap) : Option Addr → Option (Option Domain)
  | none => some none
  | some a => (h.domain a).map some

/-- The value of the problem at an address (pddl/core.py:308-361). -/
def Heap.problem (h : Heap) (a : Addr) : Option Problem :=
  match h[a]? with
  | some (.problem o) => do
    let d ← h.domainAt o.domain
    let rs ← h.reqsAt o.reqs_
    some ⟨o.name, d, o.domainName_, rs, o.objects, o.init, o.goal, o.metric⟩
  | _ => none

/-- The steps a list of tuples stands for (pddl/core.py:406-409). -/
def Heap.stepValues (h : Heap) : List (Str × Addr) → Option (List (Str × List Term))
  | [] => some []
  | (n, a) :: rest => do
    let l ← h.terms a
    let ls ← h.stepValues rest
    some ((n, l) :: ls)

/-- The value of the plan at an address (pddl/core.py:406-409). -/
def Heap.plan (h : Heap) (a : Addr) : Option Plan :=
  match h[a]? with
  | some (.plan s) => do
    let l ← h.steps s
    let ls ← h.stepValues l
    some ⟨ls⟩
  | _ => none

/-- A collection as written in a client program: the lists in the steps of a plan are variables
(arguments as written for pddl/core.py:51-63, 197-207, 398). -/
inductive Lit
  | reqs (l : List Req)
  | types (d : TypeDict)
  | terms (l : List Term)
  | preds (l : List Pred)
  | funs (d : FunDict)
  | derived (l : List Derived)
  | actions (l : List Action)
  | exprs (l : List Expr)
  | steps (l : List (Str × Nat))

/-- A client: the heap and the values of its variables, in the order of assignment (a caller of pddl/core.py). -/
structure World where
  heap : Heap
  vars : List Addr

/-- The properties that return a collection or an object (pddl/core.py:107-145, 308-361, 406-409), and the list in
the i-th tuple of a list of steps. -/
inductive Field
  | requirements | types | constants | predicates | functions | derived | actions
  | domain | objects | init
  | args (i : Nat)

/-- A call made by the client. Its result, if it is an object, becomes a new variable
(the calls of pddl/core.py and pddl/__init__.py). -/
inductive Op
  /-- a list, set or dictionary display; `frozen`: a tuple or a frozen set -/
  | new (frozen : Bool) (l : Lit)
  /-- any change to the contents of a collection (add, remove, clear, ...) -/
  | write (x : Nat) (l : Lit)
  | domain (name : Str) (reqs types constants predicates functions derived actions : Option Nat)
  | problem (name : Str) (domain : Option Nat) (domainName : Option Str) (reqs objects init : Option Nat)
      (goal : Option Expr) (metric : Option Metric)
  | plan (x : Nat)
  | parseDomain (text : Str)
  | parseProblem (text : Str)
  | parsePlan (text : Str)
  /-- `p.domain = d` -/
  | setDomain (p d : Nat)
  /-- a property -/
  | read (x : Nat) (f : Field)

/-- The addresses that variables hold (a caller of pddl/core.py). -/
def World.addrs (w : World) : List (Str × Nat) → Option (List (Str × Addr))
  | [] => some []
  | (n, x) :: rest => do
    let a ← w.vars[x]?
    let l ← w.addrs rest
    some ((n, a) :: l)

/-- The value of a display. Of two entries of a dictionary with the same key the later one counts; the keys of a
dictionary of functions are taken to be different (an argument of pddl/core.py:51-63, 197-207, 398). -/
def World.eval (w : World) : Lit → Option Cell
  | .reqs l => some (.reqs l)
  | .types d => some (.types (dictOf d))
  | .terms l => some (.terms l)
  | .preds l => some (.preds l)
  | .funs d => some (.funs d)
  | .derived l => some (.derived l)
  | .actions l => some (.actions l)
  | .exprs l => some (.exprs l)
  | .steps l => (w.addrs l).map Cell.steps

/-- Two collections of one class (an assignment by a caller of pddl/core.py). -/
def Cell.like : Cell → Cell → Bool
  | .reqs _, .reqs _ => true
  | .types _, .types _ => true
  | .terms _, .terms _ => true
  | .preds _, .preds _ => true
  | .funs _, .funs _ => true
  | .derived _, .derived _ => true
  | .actions _, .actions _ => true
  | .exprs _, .exprs _ => true
  | .steps _, .steps _ => true
  | _, _ => false

/-- An optional argument: `None`, or the contents of the collection a variable holds (pddl/core.py:51-63, 197-207). -/
def World.arg {α : Type} (w : World) (get : Addr → Option (List α)) : Option Nat → Option (List α)
  | none => some []
  | some x => do
    let a ← w.vars[x]?
    get a

/-- A new object at the end of the heap, held by a new variable (a caller of pddl/core.py). -/
def World.push (w : World) (o : Obj) : World := ⟨w.heap ++ [o], w.vars ++ [w.heap.length]⟩

/-- A new object at the end of the heap that no variable holds (pddl/core.py:78-85, 220-232). -/
def World.alloc (w : World) (o : Obj) : World := ⟨w.heap ++ [o], w.vars⟩

/-- The arguments of `Domain(...)` (pddl/core.py:51-63). -/
def World.domainArgs (w : World) (name : Str) (reqs types constants predicates functions derived actions : Option Nat) :
    Option DomainArgs := do
  let rs ← w.arg w.heap.reqs reqs
  let ts ← w.arg w.heap.types types
  let cs ← w.arg w.heap.terms constants
  let ps ← w.arg w.heap.preds predicates
  let fs ← w.arg w.heap.funs functions
  let ds ← w.arg w.heap.derived derived
  let as ← w.arg w.heap.actions actions
  some ⟨name, rs, ts, cs, ps, fs, ds, as⟩

/-- The domain object with the value `d`. `to_types` makes a new dictionary (pddl/custom_types.py:109-114); the
dictionary of functions is kept as it was passed (`ensure`, pddl/_validation.py:317), a new one if there was none. -/
def World.storeDomain (w : World) (d : Domain) (functions : Option Addr) : World :=
  let w1 := w.alloc (.cell false (.types d.types))
  let ta := w.heap.length
  match functions with
  | some fa => w1.push (.domain ⟨d.name, d.reqs, ta, d.constants, d.predicates, fa, d.derived, d.actions⟩)
  | none =>
    (w1.alloc (.cell false (.funs d.functions))).push
      (.domain ⟨d.name, d.reqs, ta, d.constants, d.predicates, w1.heap.length, d.derived, d.actions⟩)

/-- The problem object with the value `p`, whose domain is at `dom`. Without a domain, given requirements are copied
into a set of the problem (pddl/core.py:263-285). -/
def World.storeProblem (w : World) (p : Problem) (dom : Option Addr) : World :=
  match dom, p.reqs_ with
  | none, some rs =>
    (w.alloc (.cell false (.reqs rs))).push
      (.problem ⟨p.name, none, p.domainName_, .own w.heap.length, p.objects, p.init, p.goal, p.metric⟩)
  | _, none => w.push (.problem ⟨p.name, dom, p.domainName_, .none, p.objects, p.init, p.goal, p.metric⟩)
  | some _, some rs => w.push (.problem ⟨p.name, dom, p.domainName_, .frozen rs, p.objects, p.init, p.goal, p.metric⟩)

/-- The lists of the steps of a parsed plan, each a new list (pddl/parser/plan.py:31-39). -/
def World.storeArgs (w : World) : List (Str × List Term) → World × List (Str × Addr)
  | [] => (w, [])
  | (n, l) :: rest =>
    let r := (w.alloc (.cell false (.terms l))).storeArgs rest
    (r.1, (n, w.heap.length) :: r.2)

/-- The plan returned by the parser, with its new list (pddl/parser/plan.py:41-44, pddl/core.py:404). -/
def World.storePlan (w : World) (p : Plan) : World :=
  let r := w.storeArgs p.steps
  (r.1.alloc (.cell false (.steps r.2))).push (.plan r.1.heap.length)

/-- The result of a property. Frozen sets are given as new immutable collections (which cannot be told from the same
one); `types`, `functions`, the requirements a problem has stored itself, and the list of a plan are the very
collections the object uses. A problem without requirements returns a new set (pddl/core.py:335-341). -/
def World.readField (w : World) (a : Addr) (f : Field) : World × Except Exc Unit :=
  let fresh (frozen : Bool) (c : Cell) : World × Except Exc Unit := (w.push (.cell frozen c), .ok ())
  let same (b : Addr) : World × Except Exc Unit := (⟨w.heap, w.vars ++ [b]⟩, .ok ())
  match w.heap[a]?, f with
  | some (.domain o), .requirements => fresh true (.reqs o.reqs)
  | some (.domain o), .types => same o.types
  | some (.domain o), .constants => fresh true (.terms o.constants)
  | some (.domain o), .predicates => fresh true (.preds o.predicates)
  | some (.domain o), .functions => same o.functions
  | some (.domain o), .derived => fresh true (.derived o.derived)
  | some (.domain o), .actions => fresh true (.actions o.actions)
  | some (.problem o), .domain =>
    match o.domain with
    | some b => same b
    | none => (w, .error .assertion)
  | some (.problem o), .requirements =>
    match o.domain with
    | some b =>
      match w.heap[b]? with
      | some (.domain d) => fresh true (.reqs d.reqs)
      | _ => (w, .error .type_)
    | none =>
      match o.reqs_ with
      | .none => fresh false (.reqs [])
      | .frozen l => fresh true (.reqs l)
      | .own b => same b
  | some (.problem o), .objects => fresh true (.terms o.objects)
  | some (.problem o), .init => fresh true (.exprs o.init)
  | some (.plan s), .actions => same s
  | some (.cell _ (.steps l)), .args i =>
    match l[i]? with
    | some p => same p.2
    | none => (w, .error .index)
  | _, _ => (w, .error .type_)

/-- One call: the client afterwards, and the exception if one is raised. A call whose arguments are not of the
annotated classes is not modelled: it changes nothing and gives `type_`. The domain setter assigns before it checks
(pddl/core.py:319-324). -/
def World.step (F : FloatOf) (w : World) : Op → World × Except Exc Unit
  | .new fr l =>
    match w.eval l with
    | some c => (w.push (.cell fr c), .ok ())
    | none => (w, .error .type_)
  | .write x l =>
    match w.vars[x]?, w.eval l with
    | some a, some c =>
      match w.heap[a]? with
      | some (.cell false c') => if c.like c' then (⟨w.heap.set a (.cell false c), w.vars⟩, .ok ()) else (w, .error .type_)
      | _ => (w, .error .type_)
    | _, _ => (w, .error .type_)
  | .domain name reqs types constants predicates functions derived actions =>
    match w.domainArgs name reqs types constants predicates functions derived actions with
    | none => (w, .error .type_)
    | some a =>
      match mkDomain a with
      | .error e => (w, .error e)
      | .ok d => (w.storeDomain d (functions.bind (fun x => w.vars[x]?)), .ok ())
  | .problem name domain domainName reqs objects init goal metric =>
    let args : Option ProblemArgs := do
      let da ← (match domain with
        | none => some none
        | some x => (w.vars[x]?).map some)
      let d ← w.heap.domainAt da
      let rs ← (match reqs with
        | none => some none
        | some x => (w.arg w.heap.reqs (some x)).map some)
      let os ← w.arg w.heap.terms objects
      let is ← w.arg w.heap.exprs init
      some ⟨name, d, domainName, rs, os, is, goal, metric⟩
    match args with
    | none => (w, .error .type_)
    | some a =>
      match mkProblem a with
      | .error e => (w, .error e)
      | .ok p => (w.storeProblem p (domain.bind (fun x => w.vars[x]?)), .ok ())
  | .plan x =>
    match w.vars[x]? with
    | some a =>
      match w.heap.steps a with
      | some _ => (w.push (.plan a), .ok ())
      | none => (w, .error .type_)
    | none => (w, .error .type_)
  | .parseDomain text =>
    match Pddl.parseDomain F .fresh text with
    | .ok (d, _) => (w.storeDomain d none, .ok ())
    | .error e => (w, .error e)
  | .parseProblem text =>
    match Pddl.parseProblem F [] text with
    | .ok (p, _) => (w.storeProblem p none, .ok ())
    | .error e => (w, .error e)
  | .parsePlan text =>
    match Pddl.parsePlan text with
    | .ok p => (w.storePlan p, .ok ())
    | .error e => (w, .error e)
  | .setDomain x y =>
    match w.vars[x]?, w.vars[y]? with
    | some a, some b =>
      match w.heap[a]?, w.heap.domain b, w.heap.problem a with
      | some (.problem o), some d, some p =>
        (⟨w.heap.set a (.problem { o with domain := some b, domainName_ := d.name }), w.vars⟩, (p.setDomain d).2)
      | _, _, _ => (w, .error .type_)
    | _, _ => (w, .error .type_)
  | .read x f =>
    match w.vars[x]? with
    | some a => w.readField a f
    | none => (w, .error .type_)

/-- A client program (a caller of pddl/core.py). -/
def World.run (F : FloatOf) (w : World) : List Op → World
  | [] => w
  | op :: ops => ((w.step F op).1).run F ops

/-- Before the first call (a caller of pddl/core.py). -/
def World.start : World := ⟨[], []⟩

end Pddl.Share
