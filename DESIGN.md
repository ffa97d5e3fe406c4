# Design: a Lean 4 model of AI-Planning/pddl and the properties proved about it

## 1. What is modelled, what is trusted

**Trusted.** Lean's kernel; the axioms each theorem depends on (at most
`propext`, `Classical.choice`, `Quot.sound`; `Verif/Audit.lean` prints them);
the reading of `/repo` recorded in the comments of the model files. The code was
never run: the tie between model and code is the citation on each definition.

**Modelled** (files under `lean/Verif/Model/`): `helpers/base.py` (duplicate
check, `find_cycle`, typed parameter printing, name regex, sequence helpers), `helpers/cache_hash.py`,
`custom_types.py`, `requirements.py`, `parser/symbols.py`, `logic/*.py` (terms,
formulas, functions, predicates, effects; construction, `==`, `hash`, `<`, `str`, `repr`,
`instantiate`), `action.py`, `_validation.py`, `core.py` (Domain, Problem, Plan),
`formatter.py`, `parser/typed_list_parser.py`, `parser/_update_type_tags.py`,
`parser/domain.py`, `parser/problem.py`, `parser/plan.py`, `parser/base.py`
(the traceback limit), `parser/grammar.lark` (as a lexer, a bracket reader and a
transformation of bracket trees), `__init__.py` (reading files), `__main__.py` (order of the stages). Which
collections the objects of `core.py` share with their users is modelled
separately (`Model/Share.lean`); everywhere else an object is its value.

**Not modelled.** Decoding of file contents (a parameter), the addresses in
Python's default `repr` (a parameter; `Domain`, `Problem` and `Plan` have no other), error
message texts, CPU/memory limits (recursion depth), NaN numbers, objects of a
class the type annotations exclude (e.g. a constant where a variable is
annotated), subclassing by users, `DerivedPredicate`/`Metric` objects nested
inside other formulas.

### Representation choices
* A Python string is a `List Char`; strings compare by code point.
* Python exceptions are values of `Exc`; a function that can raise returns
  `Except Exc α`. Which exception is raised when several are due is modelled
  for the checks of the Python classes, not for parse errors.
* A `set`, `frozenset` or `dict` is a list in its (arbitrary) iteration order.
  Set construction keeps the first of equal elements, as Python does.
  Membership and set equality use the `==` of the element class. That is what
  Python does provided equal objects have equal hashes, which is C04.
  "Whatever the iteration order" is then a statement about permuted lists.
* `==` is a Boolean function `pyEq`, written branch by branch from the `__eq__`
  methods. Hashes are computed from abstract hash functions of strings, tuples,
  classes, numbers and frozensets (a "seed").
* A number is an `int`, a float (finite rational or infinity together with its
  `repr`), or a string (metric literals are stored as strings by the code).
  Python's `float(text)` and `repr` are parameters.
* Loops become structural recursion; `find_cycle` and `_check_subtypes`, whose
  termination is itself a question, become a step function iterated with fuel.

### The grammar and lark
lark itself is outside the repository and is not available here; what follows is
an assumption about it. `parser/grammar.lark` is LALR(1) with a contextual
lexer. The model has three stages.

1. `Model/Lex.lean`: a lexer with longest match. A word is a `NAME`; it becomes
   a keyword only where the grammar accepts that keyword at that point
   (contextual lexing: where both are possible the keyword wins). In states
   where only a keyword is possible lark would also split a longer word after
   the keyword; `dropKeyword` models that. A text that no terminal matches gives
   a token `bad` that no rule accepts.
2. A bracket reader turning tokens into trees. Unbalanced brackets fail.
3. `Model/ParseFormula.lean`, `ParseDomain.lean`, `ParseProblem.lean`: a structural
   transformation of trees following the grammar rules and the transformer
   callbacks. Every rule of the grammar is bracketed, so this accepts the same
   texts.

Shift/reduce conflicts are resolved as lark does (shift): hence a binary
`(- a b)` is not accepted, and `(= f 3)` with a bare name `f` in a condition is
read as an equality of terms. An optional `[A b]` that is absent yields `None`
placeholders (lark >= 1.0 default), so an action without `:precondition` or
`:effect` makes `action_def` evaluate `None[1:]` (TypeError). Which error comes
first when a text has several is not specified. The limit of 4300 digits of
`int(text)` is ignored.

To test these assumptions a separate LALR(1) table generator with a contextual
lexer was written (outside this repository, from the description of the
algorithms) and applied to `grammar.lark`. It finds no reduce/reduce conflict,
and the shift/reduce conflicts are exactly the two just named and that between
`binary_op` and `multi_op`. It was run on 500 000 random texts, derived from the
grammar and then changed. No text that it refuses is accepted by the model (of
these about 40 000 fail in the model with another error than the syntax error).
Of the texts that it accepts the model refuses 351 as syntax errors, and all of
them for one reason: a number glued to `minimize` or `maximize`
(`(:metric minimize3)`) is two tokens for lark. The model refuses such texts, and
the theorems about which problem texts are accepted (C55, C80) do not cover them.

`Model/History.lean` adds what a failing call leaves in the parser object (the
callbacks of completed sections have run). It follows the grammar: for texts
that leave the grammar before a callback runs it is an over-approximation that
the theorems do not use.

### Sorting
`sorted` is modelled by an insertion sort (stable, as Python's). For a relation
that is no total order (constants, requirements: C06) Python's result depends on
the algorithm; the theorems that speak about sorted results have hypotheses that
exclude these cases, or hold for every permutation.

## 2. Properties

Model file and proof method for each property of `properties.jsonl`. Where the
property is false of the code, a counterexample theorem (`…_fails`) is proved and
a `_partial` theorem gives the part that holds.

| id | how it is expressed and proved |
|----|----|
| C01 | `parseName` on char lists; independent spec (letter, then allowed characters, not in keyword list); case analysis, both directions. |
| C02 | characterise `parseType`, `parseFunction` by `parseName` plus the one exception. |
| C03 | normal form function `norm` with `pyEq a b ↔ norm a = norm b`, induction on expressions. |
| C04 | induction on expressions for an arbitrary seed; well-formed sets (no duplicates) as constructors build them. |
| C05 | state machine (object attribute dictionary, interpreter seed), invariant over op lists; aliasing copy included. |
| C06 | order laws by lexicographic order; counterexamples for constants and requirements. |
| C07, C10 | semantics `holds` over an arbitrary interpretation; congruence of `holds` w.r.t. `pyEq`; induction on the worklist of the flattening loop. |
| C08 | worklist loop equals dedup of the flattened list; idempotence. |
| C09 | numeric semantics over rationals; counterexamples (`x + x`, `a - (b - c)`); partial for duplicate-free flat operands, and for flattening of + and *. |
| C11-C14 | induction on expressions; counterexample for shadowing; partial theorem with a binder condition. |
| C15 | decision logic of `Action.instantiate`, all error branches. |
| C16 | fuelled loop; termination by a weighted-sum measure; soundness and completeness against `Relation.TransGen`. |
| C17, C20 | `Types` constructor; uses C16; well-foundedness of the supertype relation; counterexample for `:adl`. |
| C18 | `checkType` against "all terms occurring in" as an independent inductive relation. |
| C19, C22 | finite enumeration lifted to arbitrary collections. |
| C21, C23-C27 | constructors as `Except`; iff characterisations; state machine over assignment histories for C26. |
| C28 | induction over the plan; counterexample (conditional effects) and partial. |
| C29, C41-C43 | lexer of printed text, bracket reader, transformer; `lex (print x) = tokens x`, `read (tokens x) = tree x`, `transform (tree x) == x`. |
| C30, C31 | token-list loop with index arithmetic against a group-wise specification. |
| C32 | update function against lexical scope specification, induction. |
| C33 | step function of the loop; characterisation of divergence; counterexample; partial. |
| C34, C48, C46, C47, C52, C38 | tree transformer; induction over trees; counterexamples for goals, `()`, minus and stale parameters. |
| C35, C36 | state machines over histories of calls; counterexamples and partials. |
| C37, C45 | lexer lemmas on white space and comments. |
| C39, C40 | printing functions on permuted lists; loop of the `:types` printer. |
| C44, C49-C51 | decision logic, small inductions. |
| C55 | `Spec/Grammar.lean` states grammar.lark rule for rule as predicates of bracketed token lists; soundness from the parse relations, completeness because no function then returns a syntax error. The flag `G` includes the alternatives lost to shift/reduce conflicts. |
| C56 | the set of exceptions of every function (`Within`), by induction; every member is reached by a text. |
| C57 | `Spec/Written.lean` says section by section what is written; each section callback is compared with it; merged declarations by the congruence of equality. |
| C58, C59 | `Spec/WrittenProblem.lean` in the same way for problems and plans; metrics without numbers are read like numeric expressions of goals. |
| C60 | `Model/OrderFormula.lean`: `<` of formulas as a function that may raise; order laws by induction on the first formula, tuples handled once for (variables, formula) and once for (formula, formula). |
| C61 | from the table theorem of C40: the loop over the types never gives up on a checked hierarchy. |
| C62 | `Spec/Helpers.lean` gives the value of a decimal text; induction on the digits. |
| C63 | `Model/Helpers.lean` (`str.split` and the two helpers) against a relation between a text and its words. |
| C64 | every stage of the parser and of `Domain` is monotone in the requirements: relations of C27/C53 with a larger environment, then section by section. |
| C65 | `Spec/ProblemArgs.lean` lists the conditions and the contents; one equivalence for each helper of the constructor. |
| C66 | C11 applied to head and condition, with the assignment that the mapping describes. |
| C67 | `Model/Call.lean`; C44 for the condition on the terms; the instance of a list of distinct variables under the zipped mapping is the list of values. |
| C68 | Case analysis; C07 for the meaning of the empty conjunction and disjunction. |
| C69 | The second pass changes nothing because removing duplicates, cleaning the type dictionary and simplifying operands are idempotent; the checks see the same object. |
| C70 | C21 and C65 give the condition for success; equal formulas have equal terms (induction), so the condition is the same if equal constants have the same types. |
| C71 | Section by section: a permuted list gives a permuted dictionary, and lookups in a dictionary without repeated keys do not depend on its order. Bodies of actions and derived predicates use the parser state only through such lookups and membership, so they are read alike; equality of domains ignores order. |
| C72 | Equation of `problem_def` from the sections; objects of a rearranged list are a permutation and give the same dictionary; initial facts read element by element; the constructor theorem (C68, C70) turns equal arguments into equal problems. |
| C73 | Induction on the formula: substitution maps well-typed terms to well-typed terms, constructors keep operands. Lifted to actions, derived predicates and plans. |
| C74 | Composition of the text semantics (C53, C54), the parameter theorem (C38) and the substitution lemma (C11). New: parsed formulas without arithmetic have no operands that can collide, binders are written quantifiers, instances of effects make the substituted changes. With arithmetic: the text with the arguments written in is itself read (Proofs/WriteIn, WriteEffect), equals the ground action (C82), and says what the original says with the parameters bound (Proofs/WriteSem). |
| C75 | Provenance of terms (every term in a parsed formula comes from the constants or the variables the parser knows at that point), composed with the history of the parser state through the sections; for ground actions the atoms and free variables of an instance are computed from those of the schema. |
| C76 | The proofs that printed texts are read back (C42, C43) are strengthened: what is read agrees with what was printed not only up to `==` but in everything that is printed (declarations up to order, conditions with the same text). With the independence of the iteration order (C39) the text is a fixed point. |
| C77 | Induction on formulas, through the normal form that characterises `==`; equal sets of distinct elements are equal up to order and `==` of the elements, and the printer sorts (C39). |
| C78 | From the round trips C29, C41, C42, C43: both objects are read back from the one text. |
| C79 | Rules for bracketed texts in Spec/Rules.lean, with inductive predicates for terms, numbers, conditions, effects and structures given what has been declared; they mention nothing that the parser builds. Both directions by induction over texts: RulesExpr/RulesGd/RulesForm for formulas, RulesAction and RulesDerived for structures, RulesSections and RulesFuns for declarations, RulesDom for the whole. |
| C80 | Rules for goals, facts, metrics and sections as inductive predicates in Spec/RulesProblem.lean; each reading function is shown to succeed exactly on the trees that obey its rule, then the sections are put together. |
| C81 | Execution is defined twice in Spec/Execute.lean, on objects and on bracketed texts. One step is related by C74, a plan by induction on its length, the initial state and the goal by C58. |
| C82 | `writeIn` (Spec/Replace) writes names for variables in a bracketed text. Proofs/Sub removes the checks from instantiation (`Expr.sub`) and shows that it commutes with the constructors up to `==`; Proofs/Replace follows the reading relations of conditions and effects on both texts; Proofs/ReplaceAction connects parameters and arguments. Theorem `C82_replace`. |
| C83 | Every function of the parser model is shown to commute with the renaming of its input (`Proofs/Rename*.lean`): names and terms, sets and dictionaries, formulas and their simplification, typed lists, type tags, cycles, checks, sections, texts. |
| C84 | `Spec/Grow.lean` says when a text declares more than another and when a domain contains another. The reading rules (`Spec/Rules`) are shown monotone in the environment: a larger table of constants and declared types reads every tree it read before as the same formula. By induction on the structures; sets are compared as filtered lists, so the order is kept too. |
| C85 | A heap model (`Model/Share.lean`): collections and objects have addresses, a client is a list of calls. Every call is one of five kinds of change to the heap (`Effect`); invariants "nobody else has this collection" (`Private`) are kept by each kind, and hold for what the constructors allocate. Consistency of everything is one invariant of whole programs (`Sound`). |
| C86 | The iterations of the two loops are counted by the step function of C16. Upper bound: with at most one successor the stack has at most one entry, and a weight of rounds left and chain left decreases. Lower bounds: the run on two families of graphs is computed by induction (a chain listed from the top; every node joined to all lower ones). |
| C87 | Equality is equality of normal forms (Proofs/Eq). Show that substitution, instantiation, truth, effects and initial states only depend on the normal forms, with two mappings that are equal entry by entry; actions are found by name, which is well defined when only equal actions share a name. Then induct on the plan. |
| C88 | `Model/Files.lean` has files as bytes, the decoding as a parameter and the translation of newlines in text mode. Outside comments the lexer treats `\r`, `\n` and `\r\n` alike; induction on the text with the state of the lexer. `Spec/Files.lean` says which comments are harmless without the lexer. |
| C89 | Direct inductions on the sequence; positions are specified with `position`, not with the model's loops. |
| C90 | Composition: the rereading theorems behind C42 and C43 (which keep the action schemas and the types of the objects exactly, not only up to `==`), an exact form of C29 for parsed plans, a lemma that a parsed problem fits a domain as soon as its objects do, and C87 for the meaning (`Proofs/WriteBack`). |
| C91 | `repr` of terms, formulas, effects and actions as a function to strings (`Model/Repr`; the default `repr` of `NumericValue` takes its address from a parameter). `repr` is shown to be a prefix code by induction (`Proofs/Repr`): class names end at the bracket, texts in brackets end where the brackets balance, lists end where no comma follows. The parts shown with `str` are told apart by C78. |
| C92 | Rules as relations between states and atoms, once for the objects (`Derives`) and once for the text (`TextDerives`), see `Spec/DerivedSem`. The head that is read is the written head with types filled in from the declaration (`filledHead_ok`); a text of variables is one typed list (`VarsText.unique`). Plans: the step lemma of C81 with conditions evaluated in a second, completed state. |
| C93 | The objects of an accepted text are one typed list (C80). The facts are read again with the objects of the second text: the terms have the same names (`initEl_norm`), so the facts are equal. The terms of a fact are objects of the problem or constants without a type (`initEl_bare`), so facts cannot make the check fail (`fits_read`). |
| C94 | The loop that merges nested operands never makes the operands larger or deeper (`simplLoop_nodes`, `simplLoop_nesting`); induction over the relations of the formula parser gives the bound for formulas; the typed lists and sections are counted token by token; the lexer never emits more tokens than it has read characters (`LSt.run_length`). |
| C95 | Every constructor, comparison and substitution commutes with an injective renaming of variables that fixes the names of constants (`Proofs/RenameVars`); so does each relation of the formula parser (`Proofs/RenameVarsText`), hence reading an action, a list of actions and a domain. The semantics of a renamed formula under ν is that of the formula under ν ∘ ρ, and formulas without free variables do not depend on ν (`Proofs/RenameVarsSem`). |
| C96 | A newline ends every token and every comment, so the tokens of the joined text are the tokens of the parts (`lex_newline`); the bracket reader is followed on both parts, with any stack below (`readTrees_first`, `readTrees_second`); the loops of `check` and `instantiate` by induction on the steps. |
| C97 | `writesTo` says on the trees of the text which names an effect adds, deletes or updates; `touches` says it on formulas. What a parsed effect touches is written (`effOpt_touches`, through the readings `PRel`, `CRel`, `ERel`), an instance touches nothing new (`inst_touches`), and the changes an effect makes are touched (`makes_touches`); then induction over the steps. |
| C98 | A written condition without `not` and `imply` is read as a formula without negation (`GRel.positive`), instances keep this (`inst_positive`) and have no conditional effects because those raise (`inst_noEffect`); such formulas stay true with more facts (`holds_larger`), and the run is rebuilt step by step (`runs_larger`). The problem text with more facts is handled by C93. |
| C99 | Every predicate or function name in a read formula is a word of its text (`GRel.words`, `ERel.words`) and instances have no other names (`inst_mentions`). Conditions and effects depend only on the names they mention (`holds_on`, `makes_on`), so two neighbouring steps can be swapped through a new state in between (`acts_swap`); then induction on the reordering. |
| C100 | If every name is spelt in one way in each text, exchanging the two spellings of each name is a renaming of all names that keeps the letters (`respelt_renaming`), so C83 applies; making all letters small afterwards removes the renaming (`rename_comp`). Counterexamples for keywords and for names spelt in two ways. |
| C101 | `outcome` and `treeOutcome` (Spec/Outcome) give the possible sets of changes of effects and of texts. Leaving out repeated operands of `and` only loses outcomes (induction over the removal), and loses none if the repeated operands have no choices. Induction over the reading of effects. Counterexample with the same `oneof` twice. |
| C102 | The ground effect equals the reading of the text with the arguments written in (as for C74), so C101 applies to that text; writing in does not change the outcomes. Counterexample with equal arguments. |
| C103 | `MayRun` and `TextMayRun` (Spec/MayRun) execute the ground actions and the written steps with any of the outcomes of C102. Induction over the steps: every execution of the ground actions is one of the written plan, and conversely if no choices merge. Start and goal as for C81. Counterexample with the same choice twice. |
| C104 | `metricValue` (Spec/Cost) evaluates the expression of a metric, whose numbers are kept as texts; `SolvesFor` and `TextSolvesFor` add the value of the metric at the end to C81. Induction over the text of the metric (flattened sums and products as in C09); `BestOf` compares plans. Counterexample with a repeated operand. |
| C105 | `WrittenAs` (Spec/ReqNames) is the table of flags. Lookup by cases on the enum; the text of the domain is read by the reader lemmas of the round trip. Counterexample: `:object-fluents`. |
| C106 | `ProblemUses` (Spec/ArgTypes) says what is declared. Shape of the facts that were read, the objects the parser knows, untyped terms of goals; the check reduces to the objects (C106_check). |
| C107 | `PlanSuits` (Spec/ArgTypes). Exactness of the check (C27) gives that it cannot see types: the outcome is the same after any change of types (C107_blind). |
| C108 | Spec/TypeSafe: typed interpretations, fitting effects and states. Which atoms a ground effect can add (induction over instantiation), parameters and constants keep their types when read (C38, C75), then induction over the visited states. |
| C109 | Spec/Cone: what the text of an effect depends on. Induction over the effect texts and over instantiation; two states that agree on R keep agreeing (simulation), a step that changes nothing in R is a step on the spot; induction over the run. |
| C110 | Spec/TypeRounds: the rounds as a relation without fuel. Induction over the fuel of the model (which never runs out); a set of supertypes in which each has its supertype in the set survives every round, and the rest is removed; such a set has a cycle because it is finite. |
| C111 | Spec/Along: a state read through a renaming. Structural induction over conditions and effects shows that a renamed formula means in a state what the formula means in the state read through the renaming; changes are renamed likewise; then induction over the steps of the plan, together with C83 (renaming commutes with parsing, instantiating and checking). |
| C112 | Spec/Easier: the parts of written conjunctions and the relation between the texts. Reading a conjunction and substituting the arguments gives the conjunction of the substituted parts; a part written in both texts is read to formulas that are equal up to the types of constants, hence says the same; then induction over the steps as in C98. |
| C113 | Spec/Interfere: what an effect may change and asks about, when lists of terms may stand for the same objects, interference, and reorderings (the plans without all steps but two interfering ones are the same). A formula sees of a state only the atoms its terms can stand for; two actions that do not disturb each other commute, with increases and decreases added up in either order; lists with the same order of related elements arise from each other by swapping unrelated neighbours. |
| C114 | Instances have neither conditional nor quantified effects, so the changed atoms are exactly those written. All states on the way agree outside these atoms, so there are at most 2^n of them; by the pigeonhole principle a longer plan meets a state twice and the steps between can be left out. Induction over the length. |
| C115 | Each formula has a tree of brackets that its text reads as; induction over the formula shows that the meaning of the tree (the meaning of texts used in C53, C54 and C101) is the meaning of the formula. |
| C116 | The texts have exactly the bracket structure of the sections, in some order of the sorted collections; the written actions are those of the domain; C115 carries each condition and effect, and induction over the plan carries the executions. |
| C117 | Different parameters make the dictionary of arguments a list of pairs; C11 carries the preconditions, a similar induction the effects with arithmetic, and induction over the plan the executions. C116 carries the texts. |
| C118 | Reading: the actions of a domain correspond to the action sections of its text (C57) and conditions and effects say the same (C53, C54), so each step is a step of the text; induction over the plan. Writing: what is read without the obstacles of C42 and C43 can be said in the sense of C116. |
| C119 | The text of the domain is taken apart into sections (`domain_textSections`); the typed list of a printed head is determined (`declList_text`, C92's `VarsText.unique`), so that head and declaration are those of the objects; conditions say the same (C115). Plans: steps as in C116 with conditions evaluated in a second, completed state. Formatting: with C92 and C118. |
| C120 | `Spec.Completed` is a state with exactly the facts for which there is a reason, the least such; `LeastClosed` of C92 is the least closed set. Rules read from positive conditions can only derive more with more facts (C98 for formulas, through the types added to variables by `updateTags`). The theorem of Knaster and Tarski gives existence and the equivalence of both; plans by induction on their steps. `C120_negative`: with a negation in a rule more facts can mean less. |
| C121 | `Spec.MoreRules` compares the sections of the two texts. What is read derives what the text derives (C92 with conditions as they are read), and that can only grow with the rules. The completion of a state is monotone in facts and rules together; the steps as in C112, at the completed states. `C121_negative`: with a negation in a precondition a further rule can take plans away. |

Statuses and theorem names are in `MANIFEST.json`.

### Texts as they are read

Many partial theorems about the meaning of texts (C47, C53, C54, C58, C74, C81,
C92, C101 to C104, C118) have the condition that no operands are lost, because the code
drops repeated operands of sums, products and quotients and merges nested ones.
The theorems `…_exact` have no such condition. They compare the objects with the
text *as it is read*: `Spec/AsRead.lean` defines, on bracketed texts only and
without the parser, which operands of a text are left (`readNum`, `readCond`,
`readPre`, `readEff`; `readMetric` in `Spec/ReadExecute.lean`). The meaning of
what is left is the usual one, so these theorems say exactly what the code makes
of every accepted text, including those for which the full property is false.

### Objects, texts and ground actions

A task is executed in three ways: by the steps of a plan as objects
(`Spec/SaidTask.lean`, without instantiating), by the ground actions that
`Plan.instantiate` returns (`Spec/Execute.lean`), and by its text
(`Spec/Execute.lean`). C117 relates the first two, C116 relates objects to the
texts that `str` returns for them, `C118_read_partial` relates objects to the texts
from which they were read, and C118 joins the last two: the text before and after
formatting. C119 does the same for derived predicates. None of the three definitions
uses the parser or the formatter.

## 3. Disagreements between the code and the expected behaviour

Each is a theorem (`…_fails`, `…_never` and so on) about the model, with a
concrete witness. They were found by reading and proving; nothing was run.

| id | what the code does |
|----|----|
| C06 | Constants compare by name only with `==` but also by type with `<`: two constants with the same name and different types are equal and yet one is less than the other. `Requirements.__lt__` uses `<=`, so `x < x`. |
| C09 | `Plus(x, x)` keeps one operand; so do `Times`, `Minus`, `Divide`. `Minus(a, Minus(b, c))` is flattened to `Minus(a, b, c)`. |
| C11 | Instantiating under a quantifier replaces the bound variable too; arithmetic operands that become equal are merged; a variable with other type tags than the mapped one is not replaced. |
| C13 | Instantiating in two steps can raise `ValueError` where one step does not, and the other way round. |
| C14, C28 | `When` and `Forall` have no `instantiate`: grounding an action with a conditional effect raises `AttributeError`. Constants of parsed plans have no type and clash with typed constants of the domain. |
| C20 | A type hierarchy needs `:typing` itself; `:adl` does not suffice. |
| C21 | The head of a derived predicate may have types although nothing like `:typing` is declared. |
| C23 | An action with an omitted precondition or effect is accepted by no domain (`NotImplementedError`). |
| C26 | The setter `Problem.domain` assigns before it checks; the rejected domain stays attached. |
| C33 | The loop of `_check_subtypes` never moves up: it does not return for a grandchild of the declared type. |
| C35 | A parser object keeps requirements, constants, predicates and parameters of earlier texts. After a call that fails behind `:types` it rejects every text with `:types`. |
| C36 | With `sys.tracebacklimit` unset or `None`, parsing leaves it at 0 (failure) or `None` (success). |
| C39 | Texts of quantifiers and of parameters with several types depend on the iteration order of sets. |
| C40 | A declared type `object` is not printed. If it is the only type, the line printed has no subtypes and cannot be read. |
| C41 | Not read back: quantified variables with several types (`?a - t u`), `(+ (f) (f))` (printed `(+ (f))`), `(= (f) (f))`, nested `/`; untyped variables printed before typed ones take their type. |
| C42 | Not read back, among others: undeclared supertypes (they become declared), `object` as a supertype, types without `:typing`, `:object-fluents`, variables of functions with two types, parameters with two types, `()` as precondition or effect, a derived predicate after an action, with a variable twice in its head, or declared twice. |
| C43 | Not read back, among others: an attached domain, goals with `or`, `imply`, quantifiers or `=` of terms, numbers in metrics (they come back as strings). |
| C45 | A comment that contains a vertical tab, form feed or another line boundary of `splitlines` is cut by `remove_empty_lines`, and its rest becomes text. |
| C46 | `:precondition ()` is the empty disjunction: the action is never applicable. |
| C47 | `(+ 1 1)` has the value 1; `(/ 8 (/ 4 2))` has the value 1; `(- a b)` is rejected. |
| C48 | The goal of a problem is read with no requirements in force: `or`, `imply`, quantifiers and `=` of terms are never accepted. |
| C49 | `object` as the type of a variable or constant is never accepted. |
| C52 | A free variable, or an untyped variable of the head, of a derived predicate takes the type of a parameter of that name of the action before it. |
| C55 | Differences `(- a b)`, also in metrics, and comparisons `(= f 4)` of a function without brackets are derivable from the grammar and refused. |
| C56 | Refusals with other exceptions: `TypeError` for an action without `:precondition` or `:effect`, `ValueError` for numbers such as `1.2.3`, `RuntimeError` for two typings of a derived predicate; and the loop of C33. |
| C57 | Variables written for the function `total-cost` are dropped. |
| C58 | Numbers in a metric stay strings, so that the metric has no numeric value; a reused problem parser types the constants of a text without `:objects` by the objects of an earlier text. |
| C60 | Sets of variables are ordered by inclusion, so quantified formulas over different variables are neither `<` nor `==`, and each is `>` the other; the same holds for `forall` and `exists` of one body. `DerivedPredicate.__lt__` compares the predicate of one with the condition of the other: `x < x` can hold. |
| C62 | A negative number is printed with a sign that the grammar does not have: the printed text is not read back. |
| C66 | As C11: `?x = a` turns `(p ?x)` if `(forall (?x) (q ?x))` into `(p a)` if `(forall (?x) (q a))`. |
| C70 | `Constant.__eq__` ignores the types: `Domain(..., constants=[c - t])` succeeds and the equal call with `c - u` (`u` undeclared) raises. True when equal constants of the two calls have the same types. |
| C71 | A derived predicate after an action is not read like one before it (the leftover parameters of C52), and with two declared predicates of one name a derived predicate is compared with the one declared last. True when the derived predicates come before the actions in both texts and, if there are any, declared predicates have distinct names. Also true for derived predicates between actions if the variables free in their conditions are typed by the head or are no parameter names, and no variable of a condition has the name of a constant. |
| C73 | `Plan.check` finds the objects of a step by name only: a step with `t2 - plane` for an undeclared type `plane` is accepted, and the ground action is rejected by the type checker (`C73_fails`). Plans built by the parser have untyped arguments and are fine (`C73_parsed`). |
| C74 | `instantiate` does not look at binders: with `:parameters (?x) :precondition (exists (?x) (p ?x))` the ground action for `a` requires `(p a)` (`C74_fails`). The precondition `()` becomes an empty disjunction and never holds (`C74_empty_fails`). With `a` for both parameters `(+ (dist ?x ?y) (dist ?y ?x))` becomes the single operand `(dist a a)` (`C74_operands_fails`). |
| C75 | Only constants are checked. `(q ?x)` for an undeclared predicate, `(p ?x ?x)` for a unary `p`, an undeclared function `(g ?x)` and a variable `?z` that is no parameter are accepted (`C75_fails`, `C75_arity_fails`, `C75_function_fails`, `C75_variable_fails`). A parser used before also accepts constants of the earlier text (`C75_used_fails`). |
| C76 | The formatter prints texts that it rejects when they are read again: types without `:typing`, `either` in a parameter or a quantifier, the empty precondition `()`, merged operands such as `(= (f) (f))`, a variable twice in the head of a derived predicate (`C76_fails`, `C76_problem_fails`). With two quantified variables the second text can differ from the first (`C76_order_fails`). |
| C77 | `1 == 1.0` but the texts differ; the text of a quantifier shows the iteration order of a set (`C77_fails`). Domains that differ in the types of their constants are `==` (`C77_constants_fails`). |
| C78 | The types of variables are not written, predicates and functions are written alike, strings in metrics are written like numbers (`C78_fails`); of two types of a variable of a function only one is written (`C78_domains_fails`). |
| C80 | Found while stating it: problem goals refuse `or`, `imply`, `exists`, `forall` and `(= ?x ?y)` even if the problem declares `:adl`, because the goal is read by a domain transformer with no requirements; variables in goals need not be declared; plan action names are not checked. |
| C81 | False for actions with precondition `()` (read as the empty disjunction, so the action never applies), and for the arithmetic and re-bound parameters of C47 and C74. |
| C83 | After `(define (`, where only one keyword can come, lark matches the keyword at the beginning of a longer word: `(define (domainfoo))` is the domain `foo`, while `(define (bar))` is rejected. So renaming `domainfoo` to `bar` changes the outcome (`C83_fails`). Proved for texts in which no name begins with such a keyword (`define`, `domain`, `problem`, `either`, `maximize`, `minimize`) followed by a letter. |
| C85 | False. `d.types` and `d.functions` return the dictionaries the domain uses, `Domain` keeps the dictionary of functions it was given, `p.requirements` returns the set of a problem without a domain, and `Plan` keeps the list it was given and returns it. So a client can give a domain cyclic types (`C85_fails_types`) or costs without the requirement (`C85_fails_functions`), make a problem accept a domain it rejected (`C85_fails_requirements`), and change a plan by changing its own list (`C85_fails_plan`). Proved: these are the only ways (`C85_step`, `C85_domain_partial`, `C85_functions_partial`, `C85_problem_partial`, `C85_parsed_plan_partial`, `C85_plan`), and a program that uses none of them keeps everything consistent (`C85_consistent_partial`). |
| C86 | find_cycle never checks whether a popped node was visited, so it walks along every path: on graphs without cycles the number of iterations can be exponential in the number of nodes (C86_exponential, C86_fails). Type hierarchies have one supertype per type, so there the cost is quadratic and not worse. |
| C87 | Equal domains can disagree on a plan: with two actions of one name, `{action.name: action ...}` keeps the last of the set's order (`C87_fails`). Constants are equal whatever their types, but `Predicate` refuses terms of one name and different types, so `instantiate` can raise `ValueError` for one of two equal plans (`C87_fails_types`). |
| C88 | `open(fn, "r")` turns a lone `\r` into `\n`, which ends a comment in the file but not in the text given to the parser (`C88_fails`: the plan file `;\r(a)` has one step, the text none). |
| C89 | `safe_get` ("safe") raises `IndexError` for an index below `-len(seq)` (`C89_fails`). |
| C90 | A domain with the precondition `()` is written as text that the parser rejects (C42), and when two actions share a name the text lists them in another order, so a step can mean another action (`C90_fails`, `C90_fails_names`). Proved for texts without the obstacles of C42/C43 whose actions have distinct names. |
| C91 | `__repr__` gives an unambiguous string (docstrings in base.py, effects.py, functions.py, predicates.py, action.py). It does not: the types of quantified variables and of action parameters are not shown (`C91_fails_types`, `C91_fails_actions`), and numbers are shown by the address of the object (`C91_fails_numbers`). Proved for formulas of one scope without these two, and for actions with untyped parameters. |
| C92 | The types of the variables of a derived predicate come from the declaration (domain.py:167-220). If a variable is written twice, only the type of the last argument is kept, for both (`C92_fails`). A parser that is used again also takes the declaration from a text that was read before (`C92_fails_reused`). |
| C95 | False as stated. A variable may not have the name of a constant of another type that is written next to it, because the consistency test of a predicate compares all terms of one name, variables and constants alike (C95_fails). A derived predicate written after an action takes the types of free variables from the parameters of that action (C95_fails_derived, see C52). |
| C100 | False of the code. Keywords are accepted in small letters only: `(DEFINE (domain d))` is rejected (C100_fails). Names that differ only in case are different names: a type declared as `Ball` cannot be used as `ball` (C100_fails_names). Only `Problem.check` ignores case, for the name of the domain. True if only names are respelt and each is spelt in one way throughout a text. |
| C101 | False of the code. `And` removes repeated operands, which is right for conditions and for plain effects, but `(and (oneof (p) (q)) (oneof (p) (q)))` is read as a single choice, so the outcome in which both `(p)` and `(q)` become true is lost (C101_fails). No outcome is ever added. |
| C102 | False of the code. `And` removes operands that become equal: `(and (oneof (p ?x) (q ?x)) (oneof (p ?y) (q ?y)))` for equal arguments has only one choice (C102_fails). No outcome is ever added. |
| C103 | False of the code. With the effect `(and (oneof (p) (q)) (oneof (p) (q)))` the goal `(and (p) (q))` may be reached as written, but not by the ground action (C103_fails), because And merges the two choices (C101). |
| C104 | False of the code. `(:metric minimize (+ (f) (f) (g)))` is read as `(+ (f) (g))` (C47): of two plans the parsed problem prefers one and the text the other (C104_fails_order). |
| C105 | False of the code. The grammar has no `:object-fluents` although the enum and the symbols have it: a domain that declares it is refused (C105_fails). |
| C106 | False of the code. No name or arity in a problem is compared with the domain, only types of terms: `(r a)` for an undeclared predicate, `(p a a)` for a unary `p`, an undeclared object, an undeclared function, a variable in the goal and an object of another type are all accepted (C106_fails, C106_more_fails, C106_types_fails). |
| C107 | False of the code. Plan.check compares names and numbers of arguments only: a step that moves a truck with an action for planes passes (C107_fails). |
| C115 | Quantified variables are written one after the other, each followed by its types. A variable without a type before one with a type is read as having the type of that one, and several types are written after one `-` without `either`, which is not PDDL. Negative numbers are written `-1`, which the grammar reads as two tokens. Proved: C115_order_fails, C115_types_fails, C115_number_fails. |
| C116 | An initial value of -1 is written `(= (f) -1)`, which the grammar reads as a value of no kind, so the printed problem starts in other states. The other failures are those of C115. Proved: C116_fails. |
| C117 | A domain may have two actions of the same name; Plan.instantiate finds only one of them. The other failures are those of C11. Proved: C117_fails. |
| C118 | The goal (> (+ 1 1) 1) is read as (> (+ 1) 1) and written so: the text had a solution, the formatted text has none. Proved: C118_fails. |
| C119 | A derived predicate `(p ?x)` without a type, where `p` is declared for `?x - t`, is about all objects; its text `(:derived (p ?x) ...)` is about those of type `t`, as the parser takes missing types from the declaration. `Domain` does not compare the two. Proved: C119_fails. |

Other observations without a property of their own: two predicates with the same
name and different arity are accepted, and the later one is used for derived
predicates; literals of metrics stay strings; the action name of a plan step is
not checked; functions are printed with the first type of each variable only.
