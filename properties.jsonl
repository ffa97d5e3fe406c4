{"id": "C01", "title": "Names are validated exactly", "statement": "Constructing a constant, variable, predicate, action, domain or problem with a name string succeeds in the name check iff the string is one ASCII letter followed by ASCII letters, digits, '-' or '_' and is not one of the PDDL keyword strings; the stored name is that same string and re-validating it changes nothing.", "quantifier": "every string (any length, any Unicode characters)", "why_tests_cant": "Tests try a handful of good and bad names; the regular expression and the keyword table must agree with the rule on infinitely many strings.", "anchors": ["pddl/custom_types.py:parse_name", "pddl/custom_types.py:name", "pddl/helpers/base.py:RegexConstrainedString", "pddl/parser/symbols.py:ALL_SYMBOLS"]}
{"id": "C02", "title": "Keyword exceptions are exactly 'object' for types and 'total-cost' for functions", "statement": "The only string accepted as a type name but not as an ordinary name is 'object'; the only one accepted as a function name but not as an ordinary name is 'total-cost'.", "quantifier": "every string", "why_tests_cant": "A finite set of examples cannot show that no other keyword slips through.", "anchors": ["pddl/custom_types.py:parse_type", "pddl/custom_types.py:parse_function", "pddl/custom_types.py:_is_a_keyword"]}
{"id": "C03", "title": "== is an equivalence relation", "statement": "For terms, formulas, numeric expressions, effects, derived predicates, actions, domains, problems and plans, == is reflexive, symmetric and transitive, although constants ignore their type, variables ignore tag order, quantifiers ignore variable order and 1 == 1.0.", "quantifier": "every pair/triple of objects of any depth", "why_tests_cant": "Equality is recursive over unboundedly deep trees with three different notions of equality mixed in.", "anchors": ["pddl/logic/base.py:BinaryOp.__eq__", "pddl/logic/base.py:UnaryOp.__eq__", "pddl/logic/base.py:QuantifiedCondition.__eq__", "pddl/logic/terms.py:Term.__eq__", "pddl/logic/terms.py:Constant.__eq__", "pddl/logic/terms.py:Variable.__eq__", "pddl/logic/predicates.py:Predicate.__eq__", "pddl/logic/predicates.py:EqualTo.__eq__", "pddl/logic/predicates.py:DerivedPredicate.__eq__", "pddl/logic/functions.py:NumericFunction.__eq__", "pddl/logic/functions.py:NumericValue.__eq__", "pddl/logic/functions.py:BinaryFunction.__eq__", "pddl/logic/functions.py:Metric.__eq__", "pddl/logic/effects.py:When.__eq__", "pddl/logic/effects.py:Forall.__eq__", "pddl/action.py:Action.__eq__", "pddl/core.py:Domain.__eq__", "pddl/core.py:Problem.__eq__", "pddl/core.py:Plan.__eq__"]}
{"id": "C04", "title": "Equal objects have equal hashes", "statement": "If a == b then hash(a) == hash(b), in every interpreter (whatever its string-hash seed), so objects can be used in sets and dict keys.", "quantifier": "every pair of equal objects, every hash seed", "why_tests_cant": "Hash values depend on the interpreter seed and on unboundedly nested components.", "anchors": ["pddl/logic/base.py:BinaryOp.__hash__", "pddl/logic/base.py:UnaryOp.__hash__", "pddl/logic/base.py:QuantifiedCondition.__hash__", "pddl/logic/terms.py:Constant.__hash__", "pddl/logic/terms.py:Variable.__hash__", "pddl/logic/predicates.py:Predicate.__hash__", "pddl/logic/predicates.py:EqualTo.__hash__", "pddl/logic/predicates.py:DerivedPredicate.__hash__", "pddl/logic/functions.py:NumericFunction.__hash__", "pddl/logic/functions.py:NumericValue.__hash__", "pddl/logic/functions.py:BinaryFunction.__hash__", "pddl/logic/functions.py:Metric.__hash__", "pddl/logic/effects.py:When.__hash__", "pddl/logic/effects.py:Forall.__hash__", "pddl/action.py:Action.__hash__"]}
{"id": "C05", "title": "Cached hashes never go stale", "statement": "Along any history of hash(), pickling, unpickling (possibly in another interpreter with another seed) and copying, hash(x) always returns what a freshly built equal object would return in the current interpreter.", "quantifier": "every finite history of hash / pickle / unpickle / copy operations and every sequence of interpreter seeds", "why_tests_cant": "A test exercises one dump/load; the cache is hidden state whose correctness is a claim over all histories.", "anchors": ["pddl/helpers/cache_hash.py:_cache_hash", "pddl/helpers/cache_hash.py:_getstate", "pddl/helpers/cache_hash.py:_setstate", "pddl/helpers/cache_hash.py:cache_hash"]}
{"id": "C06", "title": "Ordering is a strict total order compatible with ==", "statement": "For terms and predicates, exactly one of a < b, a == b, b < a holds and < is transitive, so sorted() output is determined by the set being sorted.", "quantifier": "every pair/triple of terms and predicates", "why_tests_cant": "Order laws quantify over all triples; sorting is only deterministic if they hold for all of them.", "anchors": ["pddl/logic/terms.py:Term.__lt__", "pddl/logic/predicates.py:Predicate.__lt__", "pddl/requirements.py:Requirements.__lt__"]}
{"id": "C07", "title": "And/Or constructors preserve truth", "statement": "And(f1..fn) (also via &, |) is true in a state exactly when all the fi are; Or(f1..fn) exactly when some fi is, whatever nesting and duplicates the arguments contain and whatever simplification the constructor performs.", "quantifier": "every list of formulas, every interpretation of atoms and free variables", "why_tests_cant": "The constructor flattens and deduplicates arbitrary trees; equivalence must hold in all states.", "anchors": ["pddl/logic/base.py:BinaryOpMetaclass", "pddl/logic/base.py:_simplify_monotone_op_operands", "pddl/logic/base.py:And", "pddl/logic/base.py:Or"]}
{"id": "C08", "title": "And/Or results are canonical and rebuilding is idempotent", "statement": "An And built from two or more distinct operands has no And operand, no two equal operands, and lists the flattened operands in first-occurrence order; And(*f.operands) == f for every f so built.", "quantifier": "every list of formulas", "why_tests_cant": "Depends on arbitrary nesting and repetition patterns.", "anchors": ["pddl/logic/base.py:_simplify_monotone_op_operands"]}
{"id": "C09", "title": "Arithmetic constructors preserve value", "statement": "Plus, Times, Minus, Divide applied to numeric expressions denote the sum, product, difference, quotient of the given operands.", "quantifier": "every list of numeric expressions and every numeric state", "why_tests_cant": "Value preservation is a statement about all operands, including repeated and nested ones.", "anchors": ["pddl/logic/functions.py:Plus", "pddl/logic/functions.py:Times", "pddl/logic/functions.py:Minus", "pddl/logic/functions.py:Divide", "pddl/logic/base.py:_simplify_monotone_op_operands"]}
{"id": "C10", "title": "a >> b means a implies b", "statement": "The formula produced by a >> b is true exactly when Imply(a, b) is, i.e. when a is false or b is true; ~a is true exactly when a is false.", "quantifier": "every pair of formulas and every state", "why_tests_cant": "Quantifies over all states and formulas.", "anchors": ["pddl/logic/base.py:Formula.__rshift__", "pddl/logic/base.py:Formula.__invert__", "pddl/logic/base.py:Imply"]}
{"id": "C11", "title": "Instantiation is substitution", "statement": "f.instantiate(m) is true in a state iff f is true there when each mapped variable denotes the object it is mapped to.", "quantifier": "every formula, every mapping from variables to constants, every state", "why_tests_cant": "Correctness of substitution under quantifiers needs all shadowing patterns.", "anchors": ["pddl/logic/predicates.py:Predicate.instantiate", "pddl/logic/base.py:Formula.instantiate", "pddl/logic/base.py:BinaryOp.instantiate", "pddl/logic/base.py:UnaryOp.instantiate", "pddl/logic/base.py:Atomic.instantiate", "pddl/logic/base.py:QuantifiedCondition.instantiate", "pddl/logic/functions.py:FunctionExpression.instantiate", "pddl/logic/functions.py:NumericFunction.instantiate", "pddl/logic/functions.py:NumericValue.instantiate", "pddl/logic/functions.py:BinaryFunction.instantiate", "pddl/logic/functions.py:Metric.instantiate"]}
{"id": "C12", "title": "Instantiated formulas do not mention the mapped variables", "statement": "After f.instantiate(m) with constants as values, no variable of m occurs in any term of the result; terms not mapped are unchanged and every predicate/function symbol and arity is preserved.", "quantifier": "every formula and mapping", "why_tests_cant": "Unbounded formula depth.", "anchors": ["pddl/logic/predicates.py:Predicate.instantiate", "pddl/logic/functions.py:NumericFunction.instantiate"]}
{"id": "C13", "title": "Staged instantiation equals one-shot instantiation", "statement": "Instantiating with m1 and then with m2 (values constants, disjoint domains) gives the same formula as instantiating once with the union.", "quantifier": "every formula and pair of mappings", "why_tests_cant": "Quantifies over all partial instantiations.", "anchors": ["pddl/logic/predicates.py:Predicate.instantiate", "pddl/logic/base.py:Formula.instantiate", "pddl/logic/base.py:BinaryOp.instantiate", "pddl/logic/base.py:UnaryOp.instantiate", "pddl/logic/base.py:Atomic.instantiate", "pddl/logic/base.py:QuantifiedCondition.instantiate"]}
{"id": "C14", "title": "Empty instantiation is the identity", "statement": "f.instantiate({}) == f for every formula built with the library's constructors.", "quantifier": "every constructible formula", "why_tests_cant": "Rebuilding calls simplifying constructors on unboundedly nested input.", "anchors": ["pddl/logic/base.py:BinaryOp.instantiate"]}
{"id": "C15", "title": "Action.instantiate outcome", "statement": "Action.instantiate(args) raises ValueError when the number of arguments differs from the number of parameters; otherwise, when it returns, the result has the same name, the arguments as parameters, and the instantiated precondition and effect.", "quantifier": "every action and argument list", "why_tests_cant": "All arities, all bodies (including conditional and universal effects).", "anchors": ["pddl/action.py:Action.instantiate"]}
{"id": "C16", "title": "Cycle detection is exact and terminates", "statement": "On every finite directed graph the cycle finder terminates, reports a cycle iff the graph has one, and the reported sequence is a walk in the graph whose last node has an edge back to a node of the sequence.", "quantifier": "every finite graph, every neighbour iteration order", "why_tests_cant": "Graphs of every size and every set iteration order.", "anchors": ["pddl/helpers/base.py:find_cycle"]}
{"id": "C17", "title": "Accepted type hierarchies are well-founded", "statement": "A domain's type dictionary is accepted iff it is empty or (no supertypes or :typing declared) and 'object' has no supertype and the supertype relation has no cycle; in an accepted hierarchy every chain of supertypes is finite.", "quantifier": "every type dictionary and requirement set", "why_tests_cant": "All hierarchy shapes and sizes.", "anchors": ["pddl/_validation.py:Types", "pddl/_validation.py:Types._check_types_dictionary"]}
{"id": "C18", "title": "Type checking is exact", "statement": "The type checker accepts a formula, effect, action (with precondition and effect; C23 covers the others) or collection iff every term occurring anywhere in it (including quantified variables) carries only declared types, and carries none unless typing is required (directly or through :adl).", "quantifier": "every object of any depth, every set of types and requirements", "why_tests_cant": "Recursion over unbounded trees; a missed case in the dispatch would silently skip a subtree.", "anchors": ["pddl/_validation.py:TypeChecker"]}
{"id": "C19", "title": "Requirement closure", "statement": "The effective requirement set contains the declared ones, is monotone and idempotent, and adds exactly: both quantified-precondition requirements for :quantified-preconditions, the ADL bundle for :adl, both fluents for :fluents.", "quantifier": "every subset of requirements (as any collection)", "why_tests_cant": "All 2^16 subsets in any presentation.", "anchors": ["pddl/requirements.py:_extend_domain_requirements"]}
{"id": "C20", "title": ":adl enables type hierarchies", "statement": "A domain that declares :adl (which includes :typing) may use type hierarchies, i.e. acceptance of types depends only on the effective requirement set.", "quantifier": "every type dictionary and requirement set", "why_tests_cant": "Universal over hierarchies and requirement sets.", "anchors": ["pddl/_validation.py:Types._check_types_dictionary", "pddl/_validation.py:TypeChecker.has_typing"]}
{"id": "C21", "title": "A constructed Domain is well-typed", "statement": "Domain(...) succeeds iff its name is valid, its types and functions are consistent with the requirements, and all constants, predicates, actions and derived-predicate heads are well-typed; hence every Domain object that exists satisfies these.", "quantifier": "every combination of constructor arguments", "why_tests_cant": "Invariant over all constructible domains.", "anchors": ["pddl/core.py:Domain.__init__", "pddl/core.py:Domain._check_consistency"]}
{"id": "C22", "title": "Numeric functions need the right requirement", "statement": "A domain with functions is accepted only if total-cost comes with :action-costs and any other function with :numeric-fluents or :fluents; a domain without functions needs neither.", "quantifier": "every function dictionary and requirement set", "why_tests_cant": "All dictionaries.", "anchors": ["pddl/_validation.py:Functions._check_total_cost"]}
{"id": "C23", "title": "Actions may omit precondition or effect", "statement": "An action built without a precondition or without an effect can be put in a domain.", "quantifier": "every action with an omitted part and every domain", "why_tests_cant": "Universal over domains.", "anchors": ["pddl/action.py:Action", "pddl/_validation.py:TypeChecker.check_type", "pddl/parser/domain.py:DomainTransformer.action_def"]}
{"id": "C24", "title": "Problem initial state contains only literals", "statement": "Problem(...) rejects any initial condition element that is not an atomic formula or the negation of one; every existing Problem has only literals in init.", "quantifier": "every initial condition collection", "why_tests_cant": "Invariant over all constructible problems.", "anchors": ["pddl/core.py:Problem.__init__", "pddl/logic/base.py:is_literal"]}
{"id": "C25", "title": "Problem.check is exact", "statement": "problem.check(domain) succeeds iff the domain names agree ignoring case, the problem's requirements (if declared) are a subset of the domain's, and objects, init and goal are well-typed for the domain.", "quantifier": "every problem and domain", "why_tests_cant": "All pairs.", "anchors": ["pddl/core.py:Problem.check"]}
{"id": "C26", "title": "Attaching a domain keeps a problem consistent", "statement": "Along any history of domain assignments to a problem object, the problem is consistent with its current domain; a rejected assignment leaves the problem unchanged.", "quantifier": "every finite history of assignments, including failing ones", "why_tests_cant": "State-machine property over all histories and failure points.", "anchors": ["pddl/core.py:Problem.domain"]}
{"id": "C27", "title": "Plan.check is exact", "statement": "plan.check(domain, problem) succeeds iff every step names an action of the domain, has as many arguments as that action has parameters, and uses only problem objects or domain constants.", "quantifier": "every plan, domain and problem", "why_tests_cant": "Plans of any length.", "anchors": ["pddl/core.py:Plan.check"]}
{"id": "C28", "title": "A checked plan can be instantiated", "statement": "If plan.check(domain, problem) succeeds then plan.instantiate(domain) returns one ground action per step, in order, with the step's name and arguments.", "quantifier": "every plan, domain, problem", "why_tests_cant": "Plans of any length over arbitrary domains.", "anchors": ["pddl/core.py:Plan.check", "pddl/core.py:Plan.instantiate"]}
{"id": "C29", "title": "Plans round-trip through text", "statement": "Parsing str(plan) gives back an equal plan.", "quantifier": "every plan with valid names", "why_tests_cant": "All plans; depends on lexer and printer agreeing on every name.", "anchors": ["pddl/core.py:Plan.__str__", "pddl/parser/plan.py", "pddl/parser/grammar.lark"]}
{"id": "C30", "title": "Typed lists are grouped correctly", "statement": "In a typed list each name/variable gets exactly the types written after the next '-', trailing items get none, and order is preserved.", "quantifier": "every token sequence allowed by the grammar", "why_tests_cant": "Unboundedly many groups of unbounded length; index arithmetic.", "anchors": ["pddl/parser/typed_list_parser.py:TypedListParser.parse_typed_list"]}
{"id": "C31", "title": "Typed lists: duplicates and multiple types", "statement": "A list of names is rejected iff some name occurs twice or some item has more than one type; a list of variables is rejected iff one variable occurs with two different type sets.", "quantifier": "every token sequence allowed by the grammar", "why_tests_cant": "All repetition patterns.", "anchors": ["pddl/parser/typed_list_parser.py:TypedListParser.add_item", "pddl/parser/typed_list_parser.py:TypedListParser.get_typed_list_of_names"]}
{"id": "C32", "title": "Type tags are propagated by lexical scope", "statement": "In a parsed derived predicate each variable occurrence carries the types of its innermost enclosing quantifier, else those of the head variable; nothing else changes.", "quantifier": "every formula and variable/type mapping", "why_tests_cant": "All nestings of quantifiers.", "anchors": ["pddl/parser/_update_type_tags.py"]}
{"id": "C33", "title": "Derived-predicate subtype check terminates and is correct", "statement": "When a derived predicate annotates a head variable, parsing terminates and accepts the annotation iff each annotated type is a (reflexive, transitive) subtype of a declared type of that argument.", "quantifier": "every type hierarchy and annotation", "why_tests_cant": "Termination and correctness over all hierarchies.", "anchors": ["pddl/parser/domain.py:DomainTransformer._check_subtypes", "pddl/parser/domain.py:DomainTransformer.derived_predicates"]}
{"id": "C34", "title": "Language features are gated by requirements", "statement": "Parsing a domain whose preconditions use or/imply, forall/exists, or =, or whose effects use oneof, fails unless the effective requirements contain the corresponding requirement.", "quantifier": "every formula of any depth, every requirement set", "why_tests_cant": "The construct may occur anywhere in an unbounded tree.", "anchors": ["pddl/parser/domain.py:DomainTransformer.gd_or", "pddl/parser/domain.py:DomainTransformer.gd_imply", "pddl/parser/domain.py:DomainTransformer.gd_quantifiers", "pddl/parser/domain.py:DomainTransformer.atomic_formula_term", "pddl/parser/domain.py:DomainTransformer.c_effect"]}
{"id": "C35", "title": "Parsing is independent of parser history", "statement": "Calling one parser object on a text gives the same outcome as a fresh parser would, whatever texts it parsed (successfully or not) before.", "quantifier": "every finite history of parses on one parser object", "why_tests_cant": "Histories, including failed parses, are unbounded.", "anchors": ["pddl/parser/domain.py:DomainTransformer.__init__", "pddl/parser/base.py:BaseParser"]}
{"id": "C36", "title": "Parsing restores the traceback limit", "statement": "After a parser call, successful or not, sys.tracebacklimit is what it was before.", "quantifier": "every history of parser calls, every initial value", "why_tests_cant": "Global state over all histories including exceptions.", "anchors": ["pddl/parser/base.py:BaseParser._call_parser"]}
{"id": "C37", "title": "Layout and comments do not matter", "statement": "Two texts with the same tokens, differing only in white space and ';' comments between tokens, parse to the same result.", "quantifier": "every pair of texts with the same token sequence", "why_tests_cant": "All texts.", "anchors": ["pddl/parser/grammar.lark"]}
{"id": "C38", "title": "Parsed action bodies use the declared parameters", "statement": "In a parsed action every occurrence of a parameter name in precondition and effect is the declared parameter (same types); the parameter list is the declared list in order.", "quantifier": "every parsed action", "why_tests_cant": "All bodies and parameter lists.", "anchors": ["pddl/parser/domain.py:DomainTransformer.action_parameters", "pddl/parser/domain.py:DomainTransformer._constant_or_variable"]}
{"id": "C39", "title": "Printing is deterministic", "statement": "str(domain) and str(problem) do not depend on the iteration order of the sets and dicts inside.", "quantifier": "every domain/problem and every iteration order", "why_tests_cant": "Iteration order depends on the interpreter's hash seed; all orders must agree.", "anchors": ["pddl/core.py:Domain.__str__", "pddl/core.py:Problem.__str__", "pddl/formatter.py", "pddl/helpers/base.py:_typed_parameters"]}
{"id": "C40", "title": "The :types section is printed completely, parents first", "statement": "For every accepted type hierarchy printing terminates without a cycle error, every declared type is printed exactly once as a subtype, under its supertype, and every supertype line comes after the line that introduces it.", "quantifier": "every accepted type dictionary", "why_tests_cant": "All hierarchies.", "anchors": ["pddl/formatter.py:print_typed_lists"]}
{"id": "C41", "title": "Formulas round-trip through text", "statement": "Parsing the text str(f) of a condition in the same scope gives a formula equal to f.", "quantifier": "every printable condition of any depth", "why_tests_cant": "Printer/parser agreement on unbounded trees.", "anchors": ["pddl/logic/base.py:BinaryOp.__str__", "pddl/logic/base.py:UnaryOp.__str__", "pddl/logic/base.py:QuantifiedCondition.__str__", "pddl/parser/domain.py:DomainTransformer.gd"]}
{"id": "C42", "title": "Domains round-trip through text", "statement": "Parsing str(domain) gives a domain equal to the original.", "quantifier": "every domain", "why_tests_cant": "All domains.", "anchors": ["pddl/core.py:Domain.__str__", "pddl/parser/domain.py", "pddl/parser/grammar.lark"]}
{"id": "C43", "title": "Problems round-trip through text", "statement": "Parsing str(problem) gives a problem equal to the original.", "quantifier": "every problem", "why_tests_cant": "All problems.", "anchors": ["pddl/core.py:Problem.__str__", "pddl/parser/problem.py", "pddl/parser/grammar.lark"]}
{"id": "C44", "title": "Same-named terms in an atom agree on types", "statement": "Predicate(...) and EqualTo(...) raise ValueError iff two of their terms have the same name and different type sets.", "quantifier": "every term sequence", "why_tests_cant": "Any arity and repetition pattern.", "anchors": ["pddl/logic/predicates.py:_check_terms_consistency"]}
{"id": "C45", "title": "Indentation and blank-line removal keep the tokens", "statement": "The final layout pass of str(domain)/str(problem) never adds, removes or merges tokens and leaves no blank line.", "quantifier": "every text", "why_tests_cant": "All texts.", "anchors": ["pddl/formatter.py:remove_empty_lines", "pddl/core.py:Domain.__str__"]}
{"id": "C46", "title": "An empty precondition '()' means true", "statement": "Parsing ':precondition ()' yields a condition that holds in every state, and ':effect ()' an effect that changes nothing.", "quantifier": "every state", "why_tests_cant": "Semantic claim over all states.", "anchors": ["pddl/parser/domain.py:DomainTransformer.emptyor_pregd", "pddl/parser/domain.py:DomainTransformer.emptyor_effect"]}
{"id": "C47", "title": "Arithmetic expressions of the grammar parse to the written operation", "statement": "(op e1 .. en) in a numeric expression parses to an expression denoting op applied to the values of e1..en.", "quantifier": "every numeric expression text", "why_tests_cant": "All nestings.", "anchors": ["pddl/parser/grammar.lark:f_exp", "pddl/parser/domain.py:DomainTransformer.f_exp"]}
{"id": "C48", "title": "Problem goals may use what the requirements allow", "statement": "A goal using or/imply/forall/exists/= parses when the problem declares the corresponding requirement.", "quantifier": "every goal and requirement set", "why_tests_cant": "All goals.", "anchors": ["pddl/parser/problem.py:ProblemTransformer.gd", "pddl/parser/problem.py:ProblemTransformer.requirements"]}
{"id": "C49", "title": "The object supertype", "statement": "'object' can be used as the type of a variable in any domain with typing, and declaring 't - object' is the same as declaring 't'.", "quantifier": "every domain", "why_tests_cant": "Universal over domains.", "anchors": ["pddl/parser/domain.py:DomainTransformer.types", "pddl/_validation.py:Types._get_all_types"]}
{"id": "C50", "title": "CLI succeeds iff every stage does", "statement": "The CLI prints the domain, then (if given) checks and prints the problem, then checks and prints the plan, and stops at the first failing stage having printed exactly the outputs of the earlier ones.", "quantifier": "every outcome combination of the stages", "why_tests_cant": "All combinations of stage outcomes and argument presence.", "anchors": ["pddl/__main__.py:cli"]}
{"id": "C51", "title": "Duplicate detection in collections", "statement": "Variable(name, type_tags=list) is rejected iff the list has a repeated element; sets are always accepted.", "quantifier": "every list of tags", "why_tests_cant": "Any length.", "anchors": ["pddl/helpers/base.py:check_no_duplicates", "pddl/logic/terms.py:Term.__init__"]}
{"id": "C52", "title": "Derived predicates do not depend on preceding actions", "statement": "The object parsed for a (:derived ...) section depends only on the section and on the domain's declarations, not on actions that precede it in the file.", "quantifier": "every domain text", "why_tests_cant": "All orders of sections.", "anchors": ["pddl/parser/domain.py:DomainTransformer._constant_or_variable", "pddl/parser/domain.py:DomainTransformer.derived_predicates"]}
{"id": "C53", "title": "Parsed conditions say what is written", "statement": "The precondition of a parsed action and the goal of a parsed problem are true in exactly the states in which the written condition is true: and, or, not, imply, forall, exists, equality and comparisons keep their meaning through the parser (flattening, removal of duplicates and typing of variables do not change it).", "quantifier": "every accepted domain and problem text whose condition is not () and loses no arithmetic operand (see C46, C47), every planning state and every assignment of objects to variables", "why_tests_cant": "Texts nest without bound and the claim is about all states.", "anchors": ["pddl/parser/domain.py:DomainTransformer.gd", "pddl/parser/domain.py:DomainTransformer._constant_or_variable", "pddl/logic/base.py:BinaryOp", "pddl/parser/problem.py:ProblemTransformer.goal"]}
{"id": "C54", "title": "Parsed deterministic effects make the written changes", "statement": "The effect of a parsed action adds, deletes and updates exactly what the written effect says, in every state: nested and, forall, when, not, atoms and numeric updates.", "quantifier": "every accepted domain text without oneof in which no arithmetic operand is lost (see C47), every planning state and every change", "why_tests_cant": "Texts nest without bound and the claim is about all states.", "anchors": ["pddl/parser/domain.py:DomainTransformer.effect", "pddl/parser/domain.py:DomainTransformer.c_effect", "pddl/parser/domain.py:DomainTransformer.p_effect", "pddl/parser/domain.py:DomainTransformer.num_effect"]}
{"id": "C55", "title": "Parsing follows the grammar", "statement": "A text is accepted only if it is derivable from the grammar, and a text that is derivable from the grammar is never refused as a syntax error (it may be refused for other reasons, such as missing requirements).", "quantifier": "every domain, problem and plan text; for the first half every state of the parser, for the second a new parser", "why_tests_cant": "The language of the grammar is infinite and nested; the conflicts of the grammar show only for particular combinations.", "anchors": ["pddl/parser/grammar.lark:domain", "pddl/parser/grammar.lark:problem", "pddl/parser/grammar.lark:plan", "pddl/parser/base.py:BaseParser", "pddl/parser/domain.py:DomainTransformer"]}
{"id": "C56", "title": "Which exceptions a parser raises", "statement": "A new parser refuses a text only with an exception of the lark library or of pddl (PDDLParsingError, PDDLMissingRequirementError, PDDLValidationError), and it always returns.", "quantifier": "every domain, problem and plan text and every behaviour of float()", "why_tests_cant": "There are infinitely many wrong texts; a test sees only the faults somebody thought of.", "anchors": ["pddl/parser/domain.py:DomainTransformer", "pddl/parser/problem.py:ProblemTransformer", "pddl/parser/plan.py:PlanTransformer", "pddl/exceptions.py:PDDLError"]}
{"id": "C57", "title": "A parsed domain declares exactly what is written", "statement": "Parsing a domain text gives a domain with the written name, requirements, types with their supertypes, constants with their types, predicates and functions with their variables and types, actions with their parameters, and derived predicates, and no others; preconditions, effects and derived conditions say what is written.", "quantifier": "every accepted domain text and every parser that has parsed any number of texts before", "why_tests_cant": "Texts have any number of sections, declarations and variables, and equal declarations are merged.", "anchors": ["pddl/parser/domain.py:DomainTransformer.domain", "pddl/parser/domain.py:DomainTransformer.types", "pddl/parser/domain.py:DomainTransformer.constants", "pddl/parser/domain.py:DomainTransformer.predicates", "pddl/parser/domain.py:DomainTransformer.functions", "pddl/parser/domain.py:DomainTransformer.derived_predicates", "pddl/parser/domain.py:DomainTransformer.atomic_function_skeleton", "pddl/parser/domain.py:DomainTransformer.action_def"]}
{"id": "C58", "title": "A parsed problem contains exactly what is written", "statement": "Parsing a problem text gives a problem with the written name, domain name, requirements, objects with their types, initial facts (with the declared types of their objects), negated facts and function values, and no others; the goal says what is written, and the metric has the written direction and value.", "quantifier": "every accepted problem text and every parser that has parsed any number of texts before", "why_tests_cant": "Texts have any number of objects and facts, equal facts are merged, and goals and metrics nest to any depth.", "anchors": ["pddl/parser/problem.py:ProblemTransformer.problem", "pddl/parser/problem.py:ProblemTransformer.objects", "pddl/parser/problem.py:ProblemTransformer.init", "pddl/parser/problem.py:ProblemTransformer.init_el", "pddl/parser/problem.py:ProblemTransformer.atomic_formula_name", "pddl/parser/problem.py:ProblemTransformer.basic_function_term", "pddl/parser/problem.py:ProblemTransformer.metric_spec"]}
{"id": "C59", "title": "A parsed plan has exactly the written steps", "statement": "A plan text is accepted if and only if it is a sequence of brackets of words whose arguments are valid names, and the plan then has these actions with these arguments in this order.", "quantifier": "every text", "why_tests_cant": "Plans have any number of steps and arguments, with any white space and comments.", "anchors": ["pddl/parser/plan.py:PlanTransformer.ground_action", "pddl/parser/plan.py:PlanTransformer.plan"]}
{"id": "C60", "title": "Ordering of formulas and effects", "statement": "Between formulas and effects that can be compared, exactly one of a < b, a == b, b < a holds, the derived <=, > and >= agree with it, and < is transitive.", "quantifier": "all pairs and triples of formulas, effects, numbers and derived predicates with constructed terms", "why_tests_cant": "Formulas nest without bound, and transitivity is about all triples.", "anchors": ["pddl/logic/base.py:QuantifiedCondition.__lt__", "pddl/logic/effects.py:When.__lt__", "pddl/logic/effects.py:Forall.__lt__", "pddl/logic/functions.py:NumericFunction.__lt__", "pddl/logic/functions.py:NumericValue.__lt__", "pddl/logic/predicates.py:DerivedPredicate.__lt__"]}
{"id": "C61", "title": "Every domain can be printed", "statement": "str() of every domain that the constructor or the parser has produced returns a text; the command line tool on an accepted domain never fails while printing it.", "quantifier": "every constructed domain and every accepted domain text, after any history of the parser", "why_tests_cant": "The printer orders the types with a loop that gives up on cycles; only a proof covers all hierarchies.", "anchors": ["pddl/core.py:Domain.__str__", "pddl/formatter.py:print_typed_lists", "pddl/__main__.py:cli"]}
{"id": "C62", "title": "Printed integers denote their value", "statement": "The printed text of an integer value is the decimal notation of that integer, and the parser reads it back as the same integer.", "quantifier": "every integer", "why_tests_cant": "Infinitely many integers.", "anchors": ["pddl/logic/functions.py:NumericValue.__str__", "pddl/parser/domain.py:DomainTransformer.num_literal"]}
{"id": "C63", "title": "variables() and constants() make one term per word", "statement": "variables(s, types) and constants(s, type) return one term per white-space separated word of s, in order, named after the word and with exactly the given types; they fail if and only if a word is not a valid name or there is a word and a type is not valid.", "quantifier": "every string and every collection of types", "why_tests_cant": "All strings with any white space.", "anchors": ["pddl/logic/helpers.py:variables", "pddl/logic/helpers.py:constants"]}
{"id": "C64", "title": "Declaring more requirements never breaks a domain", "statement": "If Domain(...) succeeds with some requirements, it succeeds with any larger set of them and the result differs in the requirements only. If a domain text is accepted, then the same text with a (:requirements ...) section listing at least the same requirements is accepted, and the domain has the listed requirements and is otherwise equal.", "quantifier": "all arguments of Domain, all domain texts, all larger requirement lists, all parser states", "why_tests_cant": "All domains and all combinations of requirements; tests try a few fixed combinations.", "anchors": ["pddl/core.py:Domain.__init__", "pddl/parser/domain.py:DomainTransformer.requirements", "pddl/_validation.py:Types"]}
{"id": "C65", "title": "Problem(...) accepts exactly consistent arguments and keeps them", "statement": "Problem(...) succeeds if and only if its name is valid, a domain or a valid domain name is given, a given domain agrees with a given name and with given requirements (the same set), every initial fact is a literal, and the objects, facts and goal that are kept fit the domain. The problem then has the given name, domain, objects, facts, goal (And() if none) and metric, and the domain's name and requirements if there is a domain. Otherwise a ValueError or a validation error is raised.", "quantifier": "all arguments of Problem", "why_tests_cant": "All combinations of eight optional arguments; unbounded collections and formulas.", "anchors": ["pddl/core.py:Problem.__init__", "pddl/core.py:Problem._parse_domain_and_domain_name", "pddl/core.py:Problem._parse_requirements", "pddl/core.py:Problem.check"]}
{"id": "C66", "title": "Instances of derived predicates", "statement": "DerivedPredicate.instantiate(m) instantiates head and condition, and raises if and only if one of these does. If head and condition of a derived predicate hold of the same objects, then so do head and condition of its instance.", "quantifier": "all derived predicates, all mappings to constants, all interpretations", "why_tests_cant": "All formulas and interpretations.", "anchors": ["pddl/logic/predicates.py:DerivedPredicate.instantiate"]}
{"id": "C67", "title": "Calling a predicate or a function makes the atom with those terms", "statement": "p(t1, ..., tn) succeeds iff p has n terms and terms of one name have one set of types, and is the atom with the name of p and these terms; f(t1, ..., tn) of a numeric function succeeds iff f has n terms and each ti has the types of the term it replaces. Otherwise AssertionError or ValueError is raised. Calling a schema whose terms are distinct variables is instantiation.", "quantifier": "all predicates and functions that can be constructed, all terms", "why_tests_cant": "Unbounded arity and arbitrary terms.", "anchors": ["pddl/logic/predicates.py:Predicate.__call__", "pddl/logic/functions.py:NumericFunction.__call__"]}
{"id": "C68", "title": "Metrics and default formulas", "statement": "Metric(e, o) succeeds iff o is 'minimize' or 'maximize' and keeps both arguments; otherwise it raises AssertionError. ensure_formula(f, b) is f if f is given, otherwise a formula that always holds (b true) or never holds (b false).", "quantifier": "all expressions, strings, formulas and interpretations", "why_tests_cant": "All strings and interpretations.", "anchors": ["pddl/logic/functions.py:Metric", "pddl/logic/base.py:ensure_formula"]}
{"id": "C69", "title": "Objects can be rebuilt from their properties", "statement": "Calling the class of a domain, problem, action or formula with the object's own properties succeeds and gives an object with the same properties.", "quantifier": "all domains, problems, actions and formulas made by the constructors", "why_tests_cant": "Arbitrary formulas, hierarchies and collections; constructors merge operands, drop duplicates and check consistency, and each of these could change on a second pass.", "anchors": ["pddl/core.py:Domain.__init__", "pddl/core.py:Problem.__init__", "pddl/action.py:Action.__init__", "pddl/logic/base.py"]}
{"id": "C70", "title": "Equal arguments make equal objects", "statement": "If the arguments of two calls of Domain(...) or of Problem(...) are equal (collections as sets, dictionaries as dictionaries, so order and repetition do not matter), then both calls succeed or both raise, and the results are equal.", "quantifier": "all pairs of equal arguments", "why_tests_cant": "All orders and repetitions of unbounded collections.", "anchors": ["pddl/core.py:Domain.__init__", "pddl/core.py:Problem.__init__", "pddl/helpers/base.py:ensure_set", "pddl/logic/terms.py:Constant.__eq__"]}
{"id": "C71", "title": "The order of declarations in a domain text does not matter", "statement": "If two domain texts have the same sections and differ only in the order of what is declared in them (requirements, types, constants, predicates, functions, derived predicates, actions), in repeated requirements, and in supertypes `object` left out under typing, then the parser accepts both or neither, and the two domains are equal.", "quantifier": "all texts, all rearrangements, all parser states", "why_tests_cant": "Every permutation of lists of any length, of any declarations, after any history of the parser.", "anchors": ["pddl/parser/domain.py:DomainTransformer.domain", "pddl/parser/domain.py:DomainTransformer.types", "pddl/parser/domain.py:DomainTransformer.constants", "pddl/parser/domain.py:DomainTransformer.predicates", "pddl/parser/domain.py:DomainTransformer.functions", "pddl/parser/domain.py:DomainTransformer.derived_predicates", "pddl/parser/domain.py:DomainTransformer.action_def"]}
{"id": "C72", "title": "The order of declarations in a problem text does not matter", "statement": "If two problem texts differ only in the order of the requirements, of the objects and of the initial facts, and in requirements and facts that are repeated, then the parser accepts both or neither, the two problems are equal, and the parser afterwards knows the same objects.", "quantifier": "all texts, all rearrangements, all parser states", "why_tests_cant": "Every permutation and repetition of lists of any length, after any history of the parser.", "anchors": ["pddl/parser/problem.py:ProblemTransformer.problem", "pddl/parser/problem.py:ProblemTransformer.objects", "pddl/parser/problem.py:ProblemTransformer.init", "pddl/parser/problem.py:ProblemTransformer.requirements", "pddl/core.py:Problem.__eq__"]}
{"id": "C73", "title": "Instances of well-typed formulas and actions are well-typed", "statement": "If the type checker accepts an action of a domain (or a derived predicate or a formula), then it accepts every instance of it whose arguments have types the domain declares. In particular, after `Plan.check` accepts a plan for a domain whose actions are well-typed, every ground action that `Plan.instantiate` returns is accepted by the type checker.", "quantifier": "all formulas, actions and derived predicates, all type checkers (declared types), all argument lists; all domains, problems and plans", "why_tests_cant": "The claim is about every formula of any depth and every combination of typed arguments; a test only tries a few plans, and those come from the parser, which never attaches types to plan arguments.", "anchors": ["pddl/core.py:Plan.check", "pddl/core.py:Plan.instantiate", "pddl/action.py:Action.instantiate", "pddl/logic/predicates.py:Predicate.instantiate", "pddl/_validation.py:TypeChecker"]}
{"id": "C74", "title": "Ground actions of parsed domains say what is written", "statement": "When an action of a parsed domain is instantiated with constants, the ground action has the name of the written action and the constants as parameters; its precondition holds in a state exactly when the written precondition holds there with the parameters denoting the constants, and its effect makes exactly the changes the written effect makes. The same holds for every step of an instantiated plan.", "quantifier": "all domain texts that are accepted, all earlier uses of the parser, all actions, all constant argument lists, all plans, all states and all domains of objects", "why_tests_cant": "It relates the text to the behaviour of the ground action in every state; tests compare a few instances with expected objects and do not evaluate formulas at all.", "anchors": ["pddl/action.py:Action.instantiate", "pddl/core.py:Plan.instantiate", "pddl/parser/domain.py:DomainTransformer.action_def", "pddl/logic/base.py:QuantifiedCondition.instantiate"]}
{"id": "C75", "title": "An accepted domain uses only what it declares", "statement": "In a domain the parser accepts, the preconditions and effects of the actions and the conditions of the derived predicates use only constants the domain declares, predicates and functions it declares with that number of arguments, and no variables except the parameters (the variables of the head) and those bound by a quantifier. Consequently the ground actions of a checked plan mention only objects of the problem and constants of the domain, and contain no free variables.", "quantifier": "all domain texts that are accepted, all earlier uses of the parser, all actions, derived predicates, problems and plans", "why_tests_cant": "Tests parse well-formed fixture domains, in which nothing undeclared occurs; they cannot show that no accepted text uses an undeclared name.", "anchors": ["pddl/parser/domain.py:DomainTransformer._constant_or_variable", "pddl/parser/domain.py:DomainTransformer.constant", "pddl/parser/domain.py:DomainTransformer.atomic_formula_term", "pddl/core.py:Domain._check_consistency", "pddl/core.py:Plan.check"]}
{"id": "C76", "title": "Formatting a formatted text changes nothing", "statement": "The text that the formatter prints for a domain or a problem it has read is read again without an error, and what is read is printed as exactly the same text.", "quantifier": "every text accepted by the domain or problem parser, every iteration order of the sets and dictionaries", "why_tests_cant": "All texts, and all iteration orders of hashed sets between two runs of the program.", "anchors": ["pddl/formatter.py:domain_to_string", "pddl/formatter.py:problem_to_string", "pddl/core.py:Domain.__str__", "pddl/core.py:Problem.__str__", "pddl/__main__.py:cli", "pddl/parser/domain.py", "pddl/parser/problem.py"]}
{"id": "C77", "title": "Equal objects have equal texts", "statement": "If two formulas, effects, numeric expressions, actions, domains, problems or plans are equal (==), then str() gives the same text for both.", "quantifier": "all pairs of objects made by the constructors", "why_tests_cant": "All pairs of objects, of any size.", "anchors": ["pddl/logic/base.py:BinaryOp.__eq__", "pddl/logic/base.py:UnaryOp.__eq__", "pddl/logic/base.py:QuantifiedCondition.__eq__", "pddl/logic/base.py:BinaryOp.__str__", "pddl/logic/base.py:UnaryOp.__str__", "pddl/logic/base.py:QuantifiedCondition.__str__", "pddl/logic/functions.py:NumericValue.__eq__", "pddl/core.py:Domain.__eq__", "pddl/core.py:Domain.__str__", "pddl/core.py:Problem.__eq__", "pddl/core.py:Plan.__eq__"]}
{"id": "C78", "title": "Objects with equal texts are equal", "statement": "If str() gives the same text for two conditions, effects, domains, problems or plans, then they are equal (==): the text loses nothing that equality sees.", "quantifier": "all pairs of objects made by the constructors", "why_tests_cant": "All pairs of objects, of any size.", "anchors": ["pddl/logic/base.py:BinaryOp.__str__", "pddl/logic/base.py:UnaryOp.__str__", "pddl/logic/base.py:QuantifiedCondition.__str__", "pddl/formatter.py", "pddl/core.py:Domain.__str__", "pddl/core.py:Problem.__str__", "pddl/core.py:Plan.__str__", "pddl/parser/grammar.lark"]}
{"id": "C79", "title": "Which domain texts are accepted", "statement": "A fresh domain parser accepts a text exactly if the text obeys an explicit set of rules: its brackets form one define block with the known sections in order; names, types and typed lists are well formed; the types form a proper hierarchy and :typing is declared where needed; constants, predicates and parameters use declared types; function declarations differ from one another and have their requirements; conditions and effects use declared constants only, agree on the types of variables, and use equality, disjunctions, quantifiers and oneof only with their requirements; derived predicates fit the last declaration of their predicate.", "quantifier": "for all texts and all readings of decimals, with no bound on length or nesting", "why_tests_cant": "Tests accept some texts and reject some others; that the rules are complete, so that nothing else is rejected or accepted, is a statement about every text.", "anchors": ["pddl/parser/grammar.lark", "pddl/parser/domain.py", "pddl/parser/typed_list_parser.py", "pddl/parser/_update_type_tags.py", "pddl/_validation.py", "pddl/core.py:Domain.__init__"]}
{"id": "C80", "title": "Which problem texts and plan texts are accepted", "statement": "ProblemParser accepts a text exactly if: it is one bracketed form with the sections of the grammar in order; the names of the problem and of the domain are valid names; the requirements are known; the objects form a typed list of valid names without duplicates; each element of the initial state is a fact, a negated fact, or (= f v), over valid names; the goal is built from predicates, and, not and comparisons only (no or, imply, quantifiers or equality of terms, whatever requirements the problem declares); and the metric is maximize or minimize of an arithmetic expression over numbers and fluents. This is the same for a parser that has read other problems. PlanParser accepts a text exactly if it is a sequence of (name object ...) with valid object names; the names of the actions are not checked.", "quantifier": "for every text, every conversion of decimal literals, and every parser state in which objects are known under their own names (fresh or after reading other problems)", "why_tests_cant": "An if-and-only-if over all texts: tests sample accepted and rejected texts but cannot show that no other text is accepted and none that obeys the rules is refused.", "anchors": ["pddl/parser/problem.py:ProblemTransformer", "pddl/parser/plan.py:PlanTransformer", "pddl/parser/grammar.lark:107-148", "pddl/core.py:Problem.__init__"]}
{"id": "C81", "title": "A plan solves the parsed problem exactly if it solves the written one", "statement": "Let a domain text, a problem text and a plan text be parsed and the plan be instantiated for the domain. For every set of objects and every first state, the ground actions lead from the initial state of the Problem object to a state in which its goal holds, exactly if the written steps, executed directly on the texts with the parameters denoting the written arguments, lead from the written initial state to a state in which the written goal holds.", "quantifier": "for all domain, problem and plan texts that are accepted and whose plan can be instantiated, all sets of objects, all states, all readings of decimals; no bound on the length of the plan or on nesting", "why_tests_cant": "It relates two executions over every state and every plan: a test runs one plan in one state, and the library itself has no executor to run.", "anchors": ["pddl/core.py:Plan.instantiate", "pddl/action.py:Action.instantiate", "pddl/parser/domain.py", "pddl/parser/problem.py", "pddl/parser/plan.py"]}
{"id": "C82", "title": "Ground actions are what is read with the arguments written in", "statement": "Instantiating an action of a parsed domain gives, up to ==, what the parser reads from the text of the action with the names of the arguments written in place of the parameters: in every accepted domain text that has such an action, there is an action of that name without parameters whose precondition and effect equal those of the ground action.", "quantifier": "All accepted domain texts, all actions of the parsed domain, all constant arguments for which instantiate succeeds, and all accepted texts containing the action with the arguments written in.", "why_tests_cant": "It is about every pair of texts, with every nesting of connectives, quantifiers, arithmetic and conditional effects; instantiate merges equal operands while the parser merges while reading, and a test sees only a few of the places where the two could differ.", "anchors": ["pddl/action.py:Action.instantiate", "pddl/logic/base.py", "pddl/logic/functions.py", "pddl/parser/domain.py"]}
{"id": "C83", "title": "The names used in a text do not matter", "statement": "If the names in a domain, problem or plan text are renamed one to one, leaving alone the reserved words and `number`, then the object read from the new text is the object read from the old one with the names renamed, and a text that is rejected is rejected with the same error. Checking plans and problems and instantiating actions and plans give the same outcome up to the renaming.", "quantifier": "all one-to-one renamings of names, all texts (white space and comments may change), all behaviours of float(), all plans, domains, problems, actions and argument lists", "why_tests_cant": "A test fixes the names. A parser that treats some name specially, or compares a prefix or a case-folded form of a name, passes all tests that do not use such a name.", "anchors": ["pddl/parser/domain.py:DomainTransformer", "pddl/parser/problem.py:ProblemTransformer", "pddl/parser/plan.py:PlanTransformer", "pddl/parser/typed_list_parser.py:TypedListParser", "pddl/custom_types.py:parse_name", "pddl/core.py:Plan.check", "pddl/action.py:Action.instantiate"]}
{"id": "C84", "title": "Declaring more changes nothing else", "statement": "If a domain text is accepted and a second text declares everything the first declares and more (requirements, types, constants, predicates and functions anywhere in their sections, actions and derived predicates at the end), and the new declarations obey the rules and use new names, then the second text is accepted too, and the domain read from it contains the first: the same name, the same actions, derived predicates and predicates in the same order, the same constants and types. A problem that passes the check for the first domain passes it for the second, a plan that passes the check for the first passes it for the second, and the plan's ground actions are the same.", "quantifier": "all pairs of domain texts of which the second declares more, all float readers, all problems and plans", "why_tests_cant": "The parser keeps tables of constants, predicates and types that every later rule reads; a new entry could shadow, retag or reject something written long ago. Tests read a fixed set of files and never compare a text with all its extensions.", "anchors": ["pddl/parser/domain.py:DomainTransformer", "pddl/core.py:Domain.__init__", "pddl/core.py:Problem.check", "pddl/core.py:Plan.check", "pddl/core.py:Plan.instantiate"]}
{"id": "C85", "title": "Objects are isolated from the code that uses them", "statement": "Whatever a client program does with the collections it passed to the constructors and with the collections it got from properties, a domain or a plan keeps its value, and a problem keeps its value until its domain is assigned. In particular domains stay domains that the constructor would accept, and problems stay problems that fit their domain.", "quantifier": "all sequences of client calls (making and changing collections, constructors, parsers, assignments of a domain, reading properties), in any order and of any length, all domains, problems and plans made on the way", "why_tests_cant": "A test calls a constructor and looks at the result at once. Sharing shows only when some later call, anywhere in the program, changes a collection that is used inside an object; there are unboundedly many such programs.", "anchors": ["pddl/core.py:Domain.__init__", "pddl/core.py:Domain.types", "pddl/core.py:Domain.functions", "pddl/core.py:Problem._parse_requirements", "pddl/core.py:Problem.requirements", "pddl/core.py:Problem.domain", "pddl/core.py:Plan.__init__", "pddl/core.py:Plan.actions", "pddl/custom_types.py:to_types", "pddl/_validation.py:Functions", "pddl/helpers/base.py:ensure", "pddl/helpers/base.py:ensure_set"]}
{"id": "C86", "title": "Cycle detection takes few steps", "statement": "The number of iterations of find_cycle is bounded by a polynomial in the number of nodes and edges of the graph; for the graphs that Types checks (each type has at most one supertype) it is at most quadratic in the number of types.", "quantifier": "for every graph (dictionary of sets), every dictionary of types, of any size", "why_tests_cant": "A bound on the number of iterations is about all sizes at once; tests with small hierarchies never notice that the search repeats work, and the worst case depends on the order of the dictionary.", "anchors": ["pddl/helpers/base.py:find_cycle", "pddl/_validation.py:Types._check_types_dictionary"]}
{"id": "C87", "title": "Equal domains, problems and plans are interchangeable", "statement": "If two domains, two problems and two plans are equal (==), then Plan.check has the same outcome for both, Plan.instantiate gives equal ground actions for both, the ground actions of one solve its problem from a state if and only if those of the other do, and the metrics of the problems have the same value in every state.", "quantifier": "all domains, problems and plans, with sets in every iteration order, constants with any types, and all states over any universe", "why_tests_cant": "A test compares a few pairs of objects with one iteration order of each set; the claim is about every pair of equal objects, every order of their sets and every state.", "anchors": ["pddl/core.py:Plan.check", "pddl/core.py:Plan.instantiate", "pddl/core.py:Plan.__eq__", "pddl/core.py:Problem.__eq__", "pddl/core.py:Domain.__eq__", "pddl/action.py:Action.instantiate", "pddl/logic/terms.py:Constant.__eq__"]}
{"id": "C88", "title": "Parsing a file is parsing its text", "statement": "parse_domain, parse_problem and parse_plan do with a file exactly what a new parser does with the text of the file (same object or same exception), the command line tool does with files what it does with their texts, and a file that cannot be opened or decoded raises without anything being parsed.", "quantifier": "all file systems, file names, decodings and file contents, accepted or not", "why_tests_cant": "The test files are a fixed set with one line-ending convention; the claim is about every text, with every mixture of line endings and comments.", "anchors": ["pddl/__init__.py:parse_domain", "pddl/__init__.py:parse_problem", "pddl/__init__.py:parse_plan", "pddl/__main__.py:cli", "pddl/parser/grammar.lark:COMMENT"]}
{"id": "C89", "title": "The sequence helpers find what they promise and do not raise", "statement": "find returns the first position satisfying the condition, or -1; safe_index returns the first position of an equal element within the bounds, or None; safe_get returns the element at an index that exists and the default for every other index; ensure and ensure_sequence replace None and nothing else. None of them raises.", "quantifier": "all sequences, conditions, equality relations, bounds and indices, negative ones included", "why_tests_cant": "The helpers are called with a few small non-negative indices in the tests; the claim covers every index and every sequence.", "anchors": ["pddl/helpers/base.py:find", "pddl/helpers/base.py:safe_index", "pddl/helpers/base.py:safe_get", "pddl/helpers/base.py:ensure", "pddl/helpers/base.py:ensure_sequence"]}
{"id": "C90", "title": "Writing and reading back keeps plans and solutions", "statement": "Take a domain, a problem and a plan that were read from texts, write them with the formatter and str(), and read the written texts with new parsers. Then the domain and problem checks have the same outcome, Plan.check has the same outcome, Plan.instantiate gives the same ground actions or raises the same error, and the plan solves the problem that was read back if and only if it solves the original one.", "quantifier": "every domain text, problem text and plan text that the parsers accept", "why_tests_cant": "It composes printing, parsing, validation, instantiation and the meaning of plans over three unbounded texts; a test compares single files and never all later uses of the objects.", "anchors": ["pddl/formatter.py:domain_to_string", "pddl/formatter.py:problem_to_string", "pddl/core.py:Plan.check", "pddl/core.py:Plan.instantiate", "pddl/core.py:Problem.check", "pddl/parser/base.py:BaseParser.__call__"]}
{"id": "C91", "title": "repr is unambiguous", "statement": "The docstrings of __repr__ promise an unambiguous string representation: two formulas with the same repr are equal, and so are two actions, two derived predicates and two metrics.", "quantifier": "all formulas, actions, derived predicates and metrics made by the constructors, and every assignment of addresses to objects", "why_tests_cant": "It is a statement about all pairs of objects of unbounded size; tests compare a few reprs with literals and never look for two objects that share one.", "anchors": ["pddl/logic/base.py:BinaryOp.__repr__", "pddl/logic/base.py:UnaryOp.__repr__", "pddl/logic/base.py:QuantifiedCondition.__repr__", "pddl/logic/effects.py:When.__repr__", "pddl/logic/effects.py:Forall.__repr__", "pddl/logic/functions.py:BinaryFunction.__repr__", "pddl/logic/functions.py:NumericValue", "pddl/logic/predicates.py:Predicate.__repr__", "pddl/logic/predicates.py:EqualTo.__repr__", "pddl/logic/terms.py:Variable.__repr__", "pddl/action.py:Action.__repr__"]}
{"id": "C92", "title": "derived predicates derive what the text derives", "statement": "In every state the derived predicates of a domain that was read derive exactly the atoms that the written rules derive: the condition is true for values of the variables that are of the types written after the head, or else of the types in the declaration of the predicate. Hence a plan solves the problem that was read exactly if it solves the written problem, in whatever way states are completed by rules.", "quantifier": "all domain, problem and plan texts that are accepted, all states over any objects, all plans, and every way to evaluate rules", "why_tests_cant": "It is about all texts and all states, with chains of derivations and plans of any length; tests only look at how a derived predicate is stored.", "anchors": ["pddl/parser/domain.py:DomainTransformer.derived_predicates", "pddl/parser/_update_type_tags.py:update_type_tags", "pddl/logic/predicates.py:DerivedPredicate", "pddl/core.py:Plan.instantiate"]}
{"id": "C93", "title": "adding objects and facts to a problem changes nothing else", "statement": "If a problem text is accepted, then so is every text that has the same objects with the same types, the same facts and further objects and facts, in any order. The problem that is read contains the other one: name, domain, requirements, goal and metric are the same, every object and every fact is there. It fits a domain exactly if the other problem does and the types of the new objects are declared. Plans for the first problem are plans for the second.", "quantifier": "all problem texts that are accepted, all texts with more objects and facts in any order, all domains, all plans", "why_tests_cant": "It compares infinitely many pairs of texts, with any number of new objects and facts at any place; objects are looked up while facts are read, so a new object could change how an old fact is read.", "anchors": ["pddl/parser/problem.py:ProblemTransformer.objects", "pddl/parser/problem.py:ProblemTransformer.init", "pddl/parser/problem.py:ProblemTransformer.atomic_formula_name", "pddl/core.py:Problem.check", "pddl/core.py:Plan.check"]}
{"id": "C94", "title": "what is read is no larger than its text", "statement": "A domain, problem or plan that is read has fewer objects, counted where they occur, than its text has tokens, and the text has no more tokens than characters. Formulas and effects are nested less deeply than the brackets of the text. Instances of formulas, actions and derived predicates are no larger and no deeper than what they are made from, so the actions of a plan are at most as large as the length of the plan times the size of the domain.", "quantifier": "all texts that are accepted, all states of the parser, all mappings and arguments, all plans and domains", "why_tests_cant": "It is a bound for texts of any length and depth; a simplification or an expansion that copies operands would show only on texts where the copies multiply.", "anchors": ["pddl/logic/base.py:_simplify_monotone_op_operands", "pddl/parser/domain.py:DomainTransformer", "pddl/parser/problem.py:ProblemTransformer", "pddl/parser/plan.py:PlanTransformer", "pddl/action.py:Action.instantiate", "pddl/core.py:Plan.instantiate"]}
{"id": "C95", "title": "the names of an action's variables do not matter", "statement": "If the variables in the actions of a domain text are renamed, different variables to different valid names, the text is still accepted, the rest of the domain stays as it was, the actions are those of before with other variables, the same plans are accepted, and a plan solves a problem for one text if and only if it does for the other.", "quantifier": "all domain texts, all renamings of the variables of each action, all plans, problems, states and interpretations", "why_tests_cant": "Tests use a few fixed variable names; a clash between a variable and a constant, another variable or something left in the parser shows only for particular choices of names, and the claim is about all of them.", "anchors": ["pddl/parser/domain.py:DomainTransformer.action_def", "pddl/parser/domain.py:DomainTransformer.action_parameters", "pddl/parser/domain.py:DomainTransformer.atomic_formula_term", "pddl/logic/predicates.py:Predicate", "pddl/action.py:Action.instantiate", "pddl/core.py:Plan.check", "pddl/core.py:Plan.instantiate"]}
{"id": "C96", "title": "plans can be put together and taken apart", "statement": "A plan text followed on a new line by another text is read as the steps of the first followed by what the second is read as, and fails exactly as the other text does if that one is no plan. Printing, checking and instantiating a joined plan is printing, checking and instantiating its parts in order, so parts of accepted plans are accepted and accepted plans can be joined; a joined plan solves a problem exactly if the second part reaches the goal from a state that the first part leads to.", "quantifier": "all texts, all plans of any length, all domains, problems and states", "why_tests_cant": "It is an equation for all pairs of texts, among them those that end in comments or are no plans, and for plans of any length.", "anchors": ["pddl/parser/plan.py:PlanTransformer.plan", "pddl/parser/grammar.lark:plan", "pddl/core.py:Plan.check", "pddl/core.py:Plan.instantiate", "pddl/core.py:Plan.__str__"]}
{"id": "C97", "title": "states change only as the effects are written", "statement": "When the actions of a plan, instantiated from an accepted domain text, are carried out from any state, every atom of a predicate that no written effect deletes stays, no atom of a predicate that no written effect adds is new, a fluent that no written effect updates keeps its values, and the constants and types stay as they are. So a predicate in no written effect is the same in all states, and a goal with an atom that is not in the initial state and that no written effect adds is reached by no plan at all.", "quantifier": "all domain texts, all plans of any length, all states over any set of objects, all predicates, fluents and goals", "why_tests_cant": "It is about all plans and all states, and that there is no plan cannot be shown by trying some.", "anchors": ["pddl/parser/domain.py:DomainTransformer.p_effect", "pddl/parser/domain.py:DomainTransformer.c_effect", "pddl/parser/domain.py:DomainTransformer.effect", "pddl/action.py:Action.instantiate", "pddl/core.py:Plan.instantiate"]}
{"id": "C98", "title": "without negative conditions more facts do no harm", "statement": "If no precondition in an accepted domain text has a negation or an implication, then every plan that can be carried out in a state can be carried out in every state with more facts, and reaches all the facts it reached before, with the same values of the fluents. If the goal of a problem text has no negation either, a plan that solves the problem solves every problem whose text has more facts and starts with the same values.", "quantifier": "all domain texts, problem texts and additions to them, all plans of any length, all states over any set of objects", "why_tests_cant": "It relates the outcomes of all plans in all pairs of states, one of which has more facts than the other.", "anchors": ["pddl/parser/domain.py:DomainTransformer.gd", "pddl/action.py:Action.instantiate", "pddl/core.py:Plan.instantiate", "pddl/parser/problem.py:ProblemTransformer.init", "pddl/parser/problem.py:ProblemTransformer.goal"]}
{"id": "C99", "title": "independent steps of a plan can be swapped", "statement": "Take an accepted domain text and two plans with the same steps, where one order arises from the other by swapping neighbouring steps whose actions are written independently: no name that the effect of one changes is a word of the precondition or effect of the other. Then both plans pass the check or both fail it in the same way, both can be instantiated or neither can, they have the same ground actions, lead from the same states to the same states, and solve the same problems.", "quantifier": "all domain texts, all plans of any length, any number of swaps, all states over any set of objects", "why_tests_cant": "It compares all runs of two plans from all states, for any number of reordered steps.", "anchors": ["pddl/core.py:Plan.check", "pddl/core.py:Plan.instantiate", "pddl/action.py:Action.instantiate", "pddl/parser/domain.py:DomainTransformer.action_def"]}
{"id": "C100", "title": "capital and small letters", "statement": "PDDL does not distinguish capital and small letters. Two texts that differ only in capital and small letters are both accepted or both rejected, and what is read from them differs only in capital and small letters.", "quantifier": "all pairs of domain, problem or plan texts that differ only in letter case", "why_tests_cant": "There are exponentially many spellings of every text, and infinitely many texts.", "anchors": ["pddl/parser/grammar.lark", "pddl/parser/base.py:BaseParser.__call__", "pddl/custom_types.py:namelike", "pddl/core.py:Problem.check"]}
{"id": "C101", "title": "Parsed effects with choices have the written outcomes", "statement": "The possible outcomes (sets of changes) of the effect of a parsed action are exactly the possible outcomes of the written effect: oneof chooses one of its parts, the parts of an and choose independently, forall chooses for each object, when does nothing if its condition is false.", "quantifier": "every accepted domain text in which no arithmetic operand is lost (see C47), every action, every planning state, every assignment of objects to variables and every set of changes", "why_tests_cant": "Effects nest without bound, the number of outcomes grows exponentially, and the claim is about all states.", "anchors": ["pddl/parser/domain.py:DomainTransformer.effect", "pddl/parser/domain.py:DomainTransformer.c_effect", "pddl/logic/base.py:OneOf", "pddl/logic/base.py:And", "pddl/logic/base.py:BinaryOpMetaclass"]}
{"id": "C102", "title": "Ground actions have the written outcomes", "statement": "The possible outcomes of the effect of an instantiated action are exactly the possible outcomes of the written effect with the parameters denoting the arguments.", "quantifier": "every accepted domain text, every action, all argument constants with valid names for which instantiation succeeds, every planning state and every set of changes", "why_tests_cant": "All texts, all argument lists (including equal arguments) and all states; the number of outcomes is exponential.", "anchors": ["pddl/action.py:Action.instantiate", "pddl/logic/base.py:BinaryOp.instantiate", "pddl/logic/base.py:BinaryOpMetaclass", "pddl/logic/base.py:OneOf"]}
{"id": "C103", "title": "Plans of actions with choices may do what is written", "statement": "After parsing a domain, a problem and a plan and grounding the plan, the ground actions may lead from the start to the goal exactly if the written steps may, and they never end outside the goal exactly if the written steps never do.", "quantifier": "every accepted domain, problem and plan text that grounds (differently named actions, no operand lost as in C47), every set of objects, every first state; any number of steps and outcomes", "why_tests_cant": "All texts, plans of any length, and the number of executions is exponential in the number of steps and choices.", "anchors": ["pddl/core.py:Plan.instantiate", "pddl/action.py:Action.instantiate", "pddl/logic/base.py:OneOf", "pddl/logic/base.py:BinaryOpMetaclass", "pddl/parser/plan.py:PlanTransformer"]}
{"id": "C104", "title": "Plans cost what the written metric says", "statement": "After parsing a domain, a problem with a metric and plans, a plan reaches the goal with a value of the metric exactly if the written plan reaches the written goal with that value of the written metric; so the best of several plans by the objects are the best by the texts.", "quantifier": "every accepted domain, problem and plan text that grounds, every set of plan texts, every set of objects, every first state, metrics of any size", "why_tests_cant": "All texts, plans of any length and metrics of any depth; tests compare metric objects with expected ones and never evaluate them.", "anchors": ["pddl/parser/problem.py:ProblemTransformer.metric_spec", "pddl/parser/problem.py:ProblemTransformer.metric_f_exp", "pddl/logic/functions.py:Metric", "pddl/logic/base.py:BinaryOpMetaclass", "pddl/core.py:Plan.instantiate"]}
{"id": "C105", "title": "Every requirement can be looked up and declared by its flag", "statement": "str of a requirement is its PDDL flag; Requirements(v) is the requirement whose flag is v after a colon and raises ValueError exactly if there is none; a domain text declaring any flags, in any order and with repetitions, is accepted and has just the requirements with these flags.", "quantifier": "every string, every requirement, every domain name, every list of flags of any length", "why_tests_cant": "All strings and all lists of flags; the tests use a few fixed requirement sections, none with the flag missing from the grammar.", "anchors": ["pddl/requirements.py:Requirements", "pddl/parser/symbols.py:RequirementSymbols", "pddl/parser/domain.py:DomainTransformer.requirements", "pddl/parser/grammar.lark:require_key"]}
{"id": "C106", "title": "An accepted problem uses only what it and its domain declare", "statement": "If a problem read from a text passes problem.check(domain) for a domain read from a text, then its facts and its goal use only objects of the problem and constants of the domain, predicates and functions that the domain declares with that number of arguments, arguments whose type is the declared one or lies below it, and no variables.", "quantifier": "every domain text and every problem text that are accepted", "why_tests_cant": "All pairs of texts; the fixtures are correct planning problems, so they never use a name that is not declared.", "anchors": ["pddl/core.py:Problem.check", "pddl/parser/problem.py:ProblemTransformer.atomic_formula_name", "pddl/parser/problem.py:ProblemTransformer.goal"]}
{"id": "C107", "title": "The arguments of a checked plan suit the types of the parameters", "statement": "If plan.check(domain, problem) accepts a plan, then each argument of each step is an object of the problem or a constant of the domain one of whose types is a type of the parameter in its place or lies below one (any object, if the parameter has no types).", "quantifier": "every domain, problem and plan, of any size, in particular all that are read from texts", "why_tests_cant": "All plans over all typed domains; the tests check a few plans that planners have made, which are well-typed.", "anchors": ["pddl/core.py:Plan.check"]}
{"id": "C108", "title": "Well-typed plans keep the declared types", "statement": "Let a domain, a problem and a plan be read from texts, with the predicates in the effects of the actions used for terms of the declared types or types below, the listed facts of the problem of objects with such types, and the arguments of the plan suiting the parameters. Then carrying out the ground actions that the plan returns, from a state in which the problem starts, every state on the way has only facts of declared predicates, with the declared number of arguments, of objects that have the declared types.", "quantifier": "every domain, problem and plan text that is accepted, every interpretation of the objects that respects their types and the hierarchy, every start and every sequence of states, of any length", "why_tests_cant": "It speaks of all states on all runs of all plans; the library does not execute plans, so no test looks at a state at all. It needs that parsing gives each use of a parameter the types of its declaration, that constants are looked up, and that instantiation puts each argument in the place of its parameter.", "anchors": ["pddl/core.py:Plan.instantiate", "pddl/action.py:Action.instantiate", "pddl/parser/domain.py:DomainTransformer.action_def", "pddl/parser/domain.py:DomainTransformer.atomic_formula_term"]}
{"id": "C109", "title": "What no condition depends on does not matter", "statement": "Let R be a set of words such that the goal asks only about R, and each step of a plan is either by an action whose precondition asks only about R and whose changes to R depend only on R, or by an action that changes nothing in R. If the plan solves a problem, then the plan without the steps of the second kind can be instantiated, and solves every problem with the same goal and the same facts and values for the names in R.", "quantifier": "every domain text, problem text and plan that are accepted, every set of words, every start and every run, of any length", "why_tests_cant": "All domains, plans and states; the library does not execute plans, so no test looks at what a step changes. It needs that parsing and instantiation put no name in a condition or effect that the text does not have there.", "anchors": ["pddl/core.py:Plan.instantiate", "pddl/action.py:Action.instantiate", "pddl/parser/domain.py:DomainTransformer.action_def", "pddl/parser/domain.py:DomainTransformer.effect"]}
{"id": "C110", "title": "Printing a type hierarchy takes few rounds and fails exactly for cycles", "statement": "For every dictionary of types the loop that orders the lines of the :types section ends. With k supertypes other than object it takes at most k(k+1)/2 rounds if it returns, and one more if it raises; it raises ValueError exactly if there is a cycle of types other than object. Hierarchies that a domain accepts are always printed.", "quantifier": "every dictionary of types, of any size, whether or not a domain would accept it", "why_tests_cant": "A loop without a bound over all hierarchies: the fixtures have a handful of types and no cycle, so neither the number of rounds nor the error branch is seen.", "anchors": ["pddl/formatter.py:print_typed_lists", "pddl/formatter.py:print_types_or_functions_with_parents"]}
{"id": "C111", "title": "Objects that a problem does not tell apart may be exchanged in its plans", "statement": "If the names in the texts of a domain, a problem and a plan are renamed consistently (names not written right behind keywords), the plan with the new names can be instantiated and solves the new problem from exactly those starting states which, read with the old names, the old plan solves the old problem from. Hence, for a renaming of names that do not occur in the domain and that leaves the objects, facts and goal of the problem the same, the renamed plan passes the check and solves the problem exactly if the plan does.", "quantifier": "every one-to-one renaming that keeps reserved words, all domain, problem and plan texts, all states over all sets of objects", "why_tests_cant": "A statement about all renamings and all states; tests run the library on fixed names and never execute plans.", "anchors": ["pddl/core.py:Plan.instantiate", "pddl/core.py:Plan.check", "pddl/action.py:Action.instantiate", "pddl/logic/base.py:BinaryOp.instantiate"]}
{"id": "C112", "title": "Plans remain plans when actions are made easier", "statement": "Take two accepted domain texts where every action of the second has the parameters of the action of that name in the first, some of its conditions (without negation and implication), all its effects except for some deletions, and perhaps further additions. Then every plan of the first domain that can be instantiated in both can be carried out in the second from every state with at least the same facts, ending with at least the same facts and the same numeric values; and if it solves a problem whose goal has no negation and no implication, it solves it with the second domain. In particular this holds for the text without deletions.", "quantifier": "all pairs of accepted domain texts related this way, all plans, all problem texts with positive goals, all states over all sets of objects", "why_tests_cant": "A statement about all pairs of domains, all plans and all states; tests compare fixed objects and never execute plans.", "anchors": ["pddl/core.py:Plan.instantiate", "pddl/action.py:Action.instantiate", "pddl/parser/domain.py:DomainTransformer.effect", "pddl/parser/domain.py:DomainTransformer.gd_and", "pddl/logic/base.py:BinaryOpMetaclass.__call__"]}
{"id": "C113", "title": "Only steps that interfere need their order", "statement": "Call two steps of a plan interfering if the ground action of one may change a fact or a fluent that the other asks about (in its precondition, or in its effect to determine what changes), or one makes a fact true that the other makes false, or both update a fluent and do not both only increase or decrease it; facts with different constants in one place are different. Take two plans with the same steps in which interfering steps come in the same order. Then both pass Plan.check or neither does, both can be instantiated or neither can, they have the same ground actions, and from every state in which different constant names are different objects they lead to the same states (numeric values included) and solve the same problems. Steps no two of which interfere can be taken in any order.", "quantifier": "all domains, all plans of any length, all reorderings that keep the order of interfering steps, all states over all sets of objects, all problems", "why_tests_cant": "The number of reorderings grows factorially with the plan, and states are unbounded; tests do not execute plans.", "anchors": ["pddl/core.py:Plan.instantiate", "pddl/core.py:Plan.check", "pddl/action.py:Action.instantiate"]}
{"id": "C114", "title": "Plans can be shortened", "statement": "Take a plan whose ground actions, as Plan.instantiate gives them, change nothing but whether n ground atoms hold. Whatever state the plan leads to from a state, fewer than 2^n of its steps, in the order in which they stand in the plan, lead to the same state; these steps can be instantiated, they pass Plan.check if the plan does, and they solve a problem if the plan does. So a problem whose ground actions change at most n atoms has a plan if and only if it has one with fewer than 2^n steps.", "quantifier": "all domains, problems and plans of any length, all lists of atoms, all states over all sets of objects", "why_tests_cant": "The bound speaks about all plans of all lengths and about states over arbitrary sets of objects; tests do not execute plans.", "anchors": ["pddl/core.py:Plan.instantiate", "pddl/core.py:Plan.check", "pddl/action.py:Action.instantiate"]}
{"id": "C115", "title": "The text of a formula says what the formula says", "statement": "str of a condition is one bracketed text which, read with the PDDL meaning of its words and brackets (not with the package's own parser), is true in exactly the states in which the condition is true. str of a numeric expression has the value of the expression in every state. str of an effect makes in every state exactly the changes of the effect, and has exactly its possible outcomes.", "quantifier": "all conditions, numeric expressions and effects with valid names, of any depth and with any number of operands; all states over all sets of objects", "why_tests_cant": "The claim compares meanings over infinitely many states, for trees of every depth; the round-trip tests compare texts or objects only, and the parser simplifies what it reads.", "anchors": ["pddl/logic/base.py:BinaryOp.__str__", "pddl/logic/base.py:UnaryOp.__str__", "pddl/logic/base.py:QuantifiedCondition.__str__", "pddl/logic/predicates.py:Predicate.__str__", "pddl/logic/functions.py:BinaryFunction.__str__", "pddl/logic/effects.py:When.__str__", "pddl/logic/effects.py:Forall.__str__"]}
{"id": "C116", "title": "The texts of a task say what the task says", "statement": "str of a domain, of a problem and of a plan are bracketed texts. Read with the PDDL meaning of their words and brackets (not with the package's own parsers), the printed plan solves the printed problem in the printed domain from exactly the states from which the plan solves the problem. With non-deterministic effects it may solve it from exactly the same states, and the metric of the printed problem gives exactly the cost of the plan.", "quantifier": "all domains, problems without a domain attached and plans with valid names, formulas of any depth, any number of actions, initial facts and steps; all states over all sets of objects", "why_tests_cant": "The claim compares executions over infinitely many states, for domains and plans of every size; the tests compare texts with texts or parsed objects with objects.", "anchors": ["pddl/core.py:Domain.__str__", "pddl/core.py:Problem.__str__", "pddl/core.py:Plan.__str__", "pddl/action.py:Action.__str__", "pddl/formatter.py:print_typed_lists", "pddl/formatter.py:sort_and_print_collection"]}
{"id": "C117", "title": "The ground actions of a plan do what the plan does", "statement": "Plan.instantiate returns ground actions that lead from a state to exactly the states to which the steps of the plan lead, where a step is an action of the domain with its parameters denoting the arguments. So the ground actions solve a problem exactly if the plan does, and exactly if the printed plan solves the printed problem in the printed domain.", "quantifier": "all domains, problems and plans of objects (parsed or not) for which instantiate returns, any number of actions and steps; all states over all sets of objects", "why_tests_cant": "The claim compares executions over infinitely many states; a capture of variables, a lost operand or a wrong action of the same name shows only for particular arguments and states.", "anchors": ["pddl/core.py:Plan.instantiate", "pddl/action.py:Action.instantiate"]}
{"id": "C118", "title": "Formatting a task keeps its solutions", "statement": "The texts of a domain, a problem and a plan are read and written again with str. The written plan leads from the written start to the written goal in the written domain exactly if the plan of the original texts leads from their start to their goal.", "quantifier": "all texts that the three parsers accept, any number of actions and steps, formulas of any depth; all states over all sets of objects and all values of the literals that agree with the parser", "why_tests_cant": "The claim compares executions over infinitely many states for all accepted texts; an operand lost or a parenthesis misplaced on the way changes the solutions only in particular states.", "anchors": ["pddl/parser/base.py:BaseParser.__call__", "pddl/core.py:Domain.__str__", "pddl/core.py:Problem.__str__", "pddl/core.py:Plan.__str__", "pddl/formatter.py:domain_to_string", "pddl/formatter.py:problem_to_string", "pddl/formatter.py:plan_to_string"]}
{"id": "C119", "title": "The texts of derived predicates derive what the objects derive", "statement": "A domain is written with str. In every state, the derived predicates of the written text derive exactly the atoms that the derived predicates of the domain derive; so, in whatever way states are completed by the rules, the written plan solves the written problem in the written domain exactly if the plan solves the problem.", "quantifier": "all domains, problems and plans made by the constructors, any number of derived predicates, recursive or not, conditions of any depth; all states over all sets of objects, all ways to complete states by rules, and all values of the literals that agree with the parser", "why_tests_cant": "The claim compares what rules derive in infinitely many states for all domains; a type lost in the head of one rule changes what is derived only for objects of other types.", "anchors": ["pddl/core.py:Domain.__str__", "pddl/logic/predicates.py:DerivedPredicate.__str__", "pddl/formatter.py:domain_to_string", "pddl/formatter.py:problem_to_string", "pddl/formatter.py:plan_to_string", "pddl/parser/domain.py:DomainTransformer.derived_predicates"]}
{"id": "C120", "title": "With positive rules more facts mean more derived facts", "statement": "Let the conditions of the derived predicates in an accepted domain text have no negation and no implication. Then every state has exactly one completion by the derived predicates that were read: the least state whose facts are those of the given state and what the rules derive in it. It is the least set of facts that contains those of the state and is closed under the rules. A state with more facts has a completion with more facts. If the preconditions have no negation and no implication either, a plan that can be carried out with derived predicates from a state can be carried out from every state with more facts and ends with more facts; and a plan for a problem whose goal has no negation and no implication is a plan for every problem with more facts.", "quantifier": "all accepted domain, problem and plan texts with positive rules, preconditions and goals, all states over any objects, all chains of derivations and plans of any length", "why_tests_cant": "It is about all states, with any number of objects and chains of derivations of any length, and about all plans; completions of states are not even computed by the library, so that a test could only look at single rules.", "anchors": ["pddl/parser/domain.py:DomainTransformer.derived_predicates", "pddl/parser/domain.py:DomainTransformer.action_def", "pddl/logic/predicates.py:DerivedPredicate.condition", "pddl/action.py:Action.instantiate", "pddl/core.py:Plan.instantiate"]}
{"id": "C121", "title": "Plans remain plans if actions are made easier and rules are added", "statement": "Let a second domain text declare the same predicates as a first one, contain all its derived predicates and perhaps more, and let its actions be easier: some of the conditions, all effects except for some deletions, perhaps further additions. Let each derived predicate be declared once, with different variables in the heads of its rules. Then whatever the derived predicates read from the first text derive, those read from the second derive. If the conditions of the actions and rules of the second text have no negation and no implication, a plan that can be carried out with derived predicates in the first domain can be carried out with derived predicates in the second, from every state with more facts, with at least the same facts at the end; and a plan for a problem whose goal has no negation and no implication is a plan for it in the second domain.", "quantifier": "all pairs of accepted domain texts related as described, all accepted problem and plan texts with positive goals, all states over any objects, all chains of derivations and plans of any length", "why_tests_cant": "It compares all pairs of texts related by any number of changes and all plans and states, with chains of derivations of any length; the library computes no derived facts and executes no plans, so that no test can observe it.", "anchors": ["pddl/parser/domain.py:DomainTransformer.derived_predicates", "pddl/parser/domain.py:DomainTransformer.action_def", "pddl/logic/predicates.py:DerivedPredicate.condition", "pddl/action.py:Action.instantiate", "pddl/core.py:Plan.instantiate"]}
