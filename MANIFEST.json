{"claims": [
{"property": "C01", "status": "proved", "theorems": ["Pddl.Props.C01_name_accepted", "Pddl.Props.C01_constructors", "Pddl.Props.C01_idempotent", "Pddl.Props.C01_rejected"], "note": "Name check characterised for every string, both directions, with the exception raised on rejection."},
{"property": "C02", "status": "proved", "theorems": ["Pddl.Props.C02_type_accepted", "Pddl.Props.C02_function_accepted", "Pddl.Props.C02_exceptions"], "note": "Exact exceptions for type and function names."},
{"property": "C03", "status": "proved", "theorems": ["Pddl.Props.C03_terms", "Pddl.Props.C03_expr", "Pddl.Props.C03_others", "Pddl.Props.C03_domain", "Pddl.Props.C03_problem", "Pddl.Props.C03_term_meaning", "Pddl.Props.C03_expr_meaning"], "note": "Equality is an equivalence relation on terms, expressions, actions, derived predicates, metrics, domains and problems, with characterisations of what == compares. Domains/problems: dictionaries with distinct keys."},
{"property": "C04", "status": "proved", "theorems": ["Pddl.Props.C04_terms", "Pddl.Props.C04_expr", "Pddl.Props.C04_others"], "note": "Equal objects have equal hashes, for every seed of the builtin hash functions."},
{"property": "C05", "status": "proved", "theorems": ["Pddl.Props.C05_hash_fresh", "Pddl.Props.C05_pickle_content"], "note": "Every interleaving of construct/hash/pickle/unpickle/reseed; hash always the freshly computed one."},
{"property": "C06", "status": "partial", "theorems": ["Pddl.Props.C06_fails", "Pddl.Props.C06_requirements_fails", "Pddl.Props.C06_terms_partial", "Pddl.Props.C06_predicates", "Pddl.Props.C06_sorted_predicates", "Pddl.Props.C06_sorted_terms"], "note": "False for constants with equal names and different types and for Requirements (x < x): counterexamples C06_fails, C06_requirements_fails. Proved for variables and for terms where equal names carry equal types; sorted() of predicates/terms is order independent. Ordering of derived predicates and formulas: see C60."},
{"property": "C07", "status": "proved", "theorems": ["Pddl.Props.C07_and", "Pddl.Props.C07_or", "Pddl.Props.C07_amp", "Pddl.Props.C07_bar", "Pddl.Props.C07_eq"], "note": "For all formulas and interpretations."},
{"property": "C08", "status": "proved", "theorems": ["Pddl.Props.C08_and", "Pddl.Props.C08_or", "Pddl.Props.C08_same", "Pddl.Props.C08_and_canonical", "Pddl.Props.C08_or_canonical"], "note": "Exact result for two or more different operands; canonical operands and rebuild identity for constructor-built operands."},
{"property": "C09", "status": "partial", "theorems": ["Pddl.Props.C09_plus_fails", "Pddl.Props.C09_times_fails", "Pddl.Props.C09_minus_fails", "Pddl.Props.C09_divide_fails", "Pddl.Props.C09_minus_nested_fails", "Pddl.Props.C09_partial", "Pddl.Props.C09_plus_nested_partial", "Pddl.Props.C09_times_nested_partial", "Pddl.Props.C09_exact", "Pddl.Props.C09_split", "Pddl.Props.C09_plus_exact", "Pddl.Props.C09_times_exact", "Pddl.Props.C09_plus_iff"], "note": "False: repeated operands are dropped and nested Minus is flattened (five counterexamples). Proved exactly, for all operands of +, -, *, / and =: the operator is applied to the flattened operands without those equal to an earlier one (C09_exact, C09_split); for sums and products the loss is exactly the sum or product of the dropped operands (C09_plus_exact, C09_times_exact), so a sum is right exactly if they add up to 0 or an operand has no value (C09_plus_iff). Hence the claim for distinct operands without same-operator nesting (C09_partial) and for nested Plus/Times with distinct flattened operands."},
{"property": "C10", "status": "proved", "theorems": ["Pddl.Props.C10_rshift", "Pddl.Props.C10_invert"], "note": "For all formulas and interpretations."},
{"property": "C11", "status": "partial", "theorems": ["Pddl.Props.C11_exact", "Pddl.Props.C11_value_exact", "Pddl.Props.C11_shadow_fails", "Pddl.Props.C11_collision_fails", "Pddl.Props.C11_tags_fails", "Pddl.Props.C11_partial"], "note": "False as stated (three counterexamples C11_shadow_fails, C11_collision_fails, C11_tags_fails: a quantifier binding a mapped variable; numeric operands becoming equal; variables with other type tags). C11_exact (and C11_value_exact for values) says what instances mean in every case, for all formulas, states and mappings, also to variables: each mapped variable is replaced in every atom, also where a quantifier binds it, only where it has the types of the key, and operands that become equal count once. C11_partial proves the claim itself outside the three cases."},
{"property": "C12", "status": "proved", "theorems": ["Pddl.Props.C12_instantiate_terms"], "note": "Atoms of the result are exactly the substituted atoms of the formula; no mapped variable remains."},
{"property": "C13", "status": "partial", "theorems": ["Pddl.Props.C13_exact", "Pddl.Props.C13_differ", "Pddl.Props.C13_fails", "Pddl.Props.C13_fails_other", "Pddl.Props.C13_partial", "Pddl.Props.C13_partial_typed"], "note": "False as stated (C13_fails, C13_fails_other: one way raises ValueError where the other does not). C13_partial: when stage one and the one-shot instantiation return, stage two returns the same formula. C13_exact: both return exactly if types clash in no atom, neither after the first mapping nor after both; C13_differ: they never return different formulas, and exactly when only the one-shot way returns. C13_partial_typed: full equality when every name has one set of types. Missing: nothing of the claim that is true of the code."},
{"property": "C14", "status": "partial", "theorems": ["Pddl.Props.C14_fails", "Pddl.Props.C14_partial", "Pddl.Props.C14_effects_raise"], "note": "False for conditional and universal effects, which have no instantiate method (C14_fails, C14_effects_raise); C14_partial proves identity for every other constructible formula."},
{"property": "C15", "status": "proved", "theorems": ["Pddl.Props.C15_formula", "Pddl.Props.C15_exact", "Pddl.Props.C15_arity", "Pddl.Props.C15_result", "Pddl.Props.C15_mapping", "Pddl.Props.C15_errors"], "note": "Outcome of Action.instantiate in both directions, the mapping used, and the possible errors. C15_formula, C15_exact: exactly when formulas and actions can be instantiated."},
{"property": "C16", "status": "proved", "theorems": ["Pddl.Props.C16_terminates", "Pddl.Props.C16_exact", "Pddl.Props.C16_path"], "note": "For every finite graph given as an association list with set-valued adjacency, in every iteration order."},
{"property": "C17", "status": "proved", "theorems": ["Pddl.Props.C17_accepted", "Pddl.Props.C17_wellfounded", "Pddl.Props.C17_rejected"], "note": "Both directions, and every supertype chain of an accepted hierarchy is finite."},
{"property": "C18", "status": "proved", "theorems": ["Pddl.Props.C18_formula", "Pddl.Props.C18_collections", "Pddl.Props.C18_action", "Pddl.Props.C18_derived", "Pddl.Props.C18_error"], "note": "For every formula, effect, derived predicate, collection and action with both parts; the only error is a validation error."},
{"property": "C19", "status": "proved", "theorems": ["Pddl.Props.C19_closure", "Pddl.Props.C19_contains", "Pddl.Props.C19_monotone", "Pddl.Props.C19_idempotent"], "note": "Requirement closure characterised; monotone and idempotent."},
{"property": "C20", "status": "partial", "theorems": ["Pddl.Props.C20_fails", "Pddl.Props.C20_partial"], "note": "False: C20_fails (:adl without :typing rejects a hierarchy). C20_partial: exact condition under which acceptance depends on the effective set."},
{"property": "C21", "status": "partial", "theorems": ["Pddl.Props.C21_fails", "Pddl.Props.C21_partial", "Pddl.Props.C21_contents"], "note": "False in one respect: derived heads may carry types without any typing requirement (C21_fails), and actions without precondition or effect raise NotImplementedError. C21_partial gives the exact acceptance condition."},
{"property": "C22", "status": "proved", "theorems": ["Pddl.Props.C22_functions", "Pddl.Props.C22_domain", "Pddl.Props.C22_none"], "note": "Both directions for every function dictionary."},
{"property": "C23", "status": "partial", "theorems": ["Pddl.Props.C23_fails", "Pddl.Props.C23_never"], "note": "False: C23_fails, C23_never (an action with an omitted part is never accepted; NotImplementedError)."},
{"property": "C24", "status": "proved", "theorems": ["Pddl.Props.C24_literals", "Pddl.Props.C24_rejected"], "note": "Literals only, in the stored and in the given collection; anything else is rejected."},
{"property": "C25", "status": "proved", "theorems": ["Pddl.Props.C25_check", "Pddl.Props.C25_error"], "note": "Both directions, with the error kind, for every domain that can be constructed."},
{"property": "C26", "status": "partial", "theorems": ["Pddl.Props.C26_fails", "Pddl.Props.C26_constructed", "Pddl.Props.C26_partial", "Pddl.Props.C26_attributes", "Pddl.Props.C26_accepted"], "note": "False: the setter assigns before checking, so a rejected domain stays attached (C26_fails). Proved: constructed problems and problems after a non-raising assignment are consistent, whatever the history, and assignments change nothing but the domain."},
{"property": "C27", "status": "proved", "theorems": ["Pddl.Props.C27_check", "Pddl.Props.C27_error"], "note": "Both directions, with the error kind."},
{"property": "C28", "status": "partial", "theorems": ["Pddl.Props.C28_exact", "Pddl.Props.C28_untyped", "Pddl.Props.C28_fails", "Pddl.Props.C28_fails_untyped", "Pddl.Props.C28_partial_result", "Pddl.Props.C28_partial"], "note": "False: conditional effects raise AttributeError (C28_fails) and the untyped constants of parsed plans clash with typed domain constants, ValueError (C28_fails_untyped). C28_exact: a checked plan can be instantiated exactly if the actions of its steps have no conditional or universal effect and in no atom do terms of one name get different types; C28_untyped: for untyped arguments. C28_partial: one type set per name. The shape of the result is proved whenever it returns (C28_partial_result)."},
{"property": "C29", "status": "proved", "theorems": ["Pddl.Props.C29_roundtrip", "Pddl.Props.C29_steps"], "note": "For every plan whose action names have the shape of names and whose arguments are constants with valid names, parsing str(plan) gives an equal plan; C29_steps says exactly which plan."},
{"property": "C30", "status": "proved", "theorems": ["Pddl.Props.C30_variables", "Pddl.Props.C30_names"], "note": "Typed lists of variables and of names: the index built by the parser denotes exactly the assignment the text gives."},
{"property": "C31", "status": "proved", "theorems": ["Pddl.Props.C31_variables", "Pddl.Props.C31_variables_accepted", "Pddl.Props.C31_names"], "note": "Typed lists with repeated items: rejected exactly when the code says so, both for variables and for names."},
{"property": "C32", "status": "proved", "theorems": ["Pddl.Props.C32_scope", "Pddl.Props.C32_atoms", "Pddl.Props.C32_meaning", "Pddl.Props.C32_succeeds", "Pddl.Props.C32_derived", "Pddl.Props.C32_derived_undeclared"], "note": "update_type_tags on every formula and mapping (exact when all occurrences of a name had the same types before, which holds for conditions read from text), and derived_predicates for heads with different variables."},
{"property": "C33", "status": "partial", "theorems": ["Pddl.Props.C33_fails", "Pddl.Props.C33_reject_fails", "Pddl.Props.C33_partial", "Pddl.Props.C33_accepts_partial", "Pddl.Props.C33_returns_partial"], "note": "False as stated: the loop never moves up the hierarchy, so it does not return for a grandchild of the declared type, nor for an unrelated type that has a supertype (C33_fails, C33_reject_fails). Proved: whenever it returns the answer is right, and exactly when it accepts."},
{"property": "C34", "status": "proved", "theorems": ["Pddl.Props.C34_or", "Pddl.Props.C34_imply", "Pddl.Props.C34_exists", "Pddl.Props.C34_equality", "Pddl.Props.C34_oneof", "Pddl.Props.C34_forall"], "note": "If a domain parses and its text contains, where a condition is meant, or/imply/exists/forall/(= of terms) at any depth (oneof in an effect), a requirement that allows it is in force for the declared requirements. One theorem per feature."},
{"property": "C35", "status": "partial", "theorems": ["Pddl.Props.C35_fails", "Pddl.Props.C35_fails_after_failure", "Pddl.Props.C35_partial", "Pddl.Props.C35_failures_partial", "Pddl.Props.C35_after_failure", "Pddl.Props.C35_stale_parameters", "Pddl.Props.C35_any_partial", "Pddl.Props.C35_stuck", "Pddl.Props.C35_problem_fails", "Pddl.Props.C35_problem_partial"], "note": "False of the code: C35_fails (a domain without requirements inherits those of an earlier domain), C35_fails_after_failure and C35_stuck (after a call that fails behind its section :types every text with that section is rejected), C35_stale_parameters (the parameters of a failed action reach the next text), C35_problem_fails. Proved: C35_partial (any history of successful calls, texts that have the sections :requirements, :constants, :predicates and no derived predicate before the first action), C35_failures_partial (the same after calls that failed, if they left no types: no section :types, or only Domain(...) failed), C35_any_partial (any state whatever, if the text also has neither types nor derived predicates), C35_problem_partial (problem texts with objects, any state). C35_after_failure separates the two kinds of failure. The state left by a failing call is modelled exactly only for texts that follow the grammar."},
{"property": "C36", "status": "partial", "theorems": ["Pddl.Props.C36_fails", "Pddl.Props.C36_partial", "Pddl.Props.C36_success_partial", "Pddl.Props.C36_exact_partial", "Pddl.Props.C36_result"], "note": "False as stated: with the limit unset or None a failing parse leaves it at 0 and a successful one at None (C36_fails). A numeric limit is restored by every history; the exact result of every history is given."},
{"property": "C37", "status": "proved", "theorems": ["Pddl.Props.C37_layout", "Pddl.Props.C37_tokens", "Pddl.Props.C37_every_text", "Pddl.Props.C37_example_a", "Pddl.Props.C37_example_b"], "note": "Two texts with the same chunks, whatever white space and comments separate them, give the same result of the domain, problem and plan parser; also texts with the same tokens divided differently into chunks; every text is a sequence of chunks and gaps."},
{"property": "C38", "status": "proved", "theorems": ["Pddl.Props.C38_action_parameters"], "note": "For every state a parser object can be in (fresh or after any number of successful parses) and every accepted domain text, the parameters of each action are those written in the text, in order, with the types written, and every occurrence of a parameter in the action is that parameter."},
{"property": "C39", "status": "partial", "theorems": ["Pddl.Props.C39_domain_partial", "Pddl.Props.C39_problem_partial", "Pddl.Props.C39_predicates", "Pddl.Props.C39_tags_fails", "Pddl.Props.C39_variables_fails"], "note": "C39_domain_partial, C39_problem_partial: the text is the same for every reordering (requirements, type and function dictionaries, constants, objects, predicates, derived predicates, actions, initial facts, type tags, quantified variables), if no quantifier binds two variables or a variable with two types and no action parameter has two types. C39_predicates discharges the side condition on predicates for constructed domains. Without the restriction it is false: C39_tags_fails (types of an action parameter), C39_variables_fails (variables of a quantifier)."},
{"property": "C40", "status": "partial", "theorems": ["Pddl.Props.C40_partial", "Pddl.Props.C40_object_fails", "Pddl.Props.C40_object_only_fails"], "note": "C40_partial: for every accepted hierarchy printing succeeds (the loop never runs out of candidates, the model fuel never runs out) and the printed text is a table that lists every type other than object exactly once, under its supertype, with the supertype listed on an earlier line. Not listed: a declared object (C40_object_fails); if object is the only declared type the printed line has no subtypes (C40_object_only_fails)."},
{"property": "C41", "status": "partial", "theorems": ["Pddl.Props.C41_partial", "Pddl.Props.C41_effects_partial", "Pddl.Props.C41_read_partial", "Pddl.Props.C41_fails", "Pddl.Props.C41_full_fails", "Pddl.Props.C41_order_fails"], "note": "Every condition (and effect) that the grammar can write is read back equal, at any depth (C41_partial, C41_effects_partial); every condition the parser itself returned is too, up to three obstacles (C41_read_partial). False beyond: several types on a quantified variable, repeated numeric operands, nested division, untyped before typed variables (C41_fails, C41_order_fails)."},
{"property": "C42", "status": "partial", "theorems": ["Pddl.Props.C42_partial", "Pddl.Props.C42_fails", "Pddl.Props.C42_full_fails", "Pddl.Props.C42_read_partial", "Pddl.Props.C42_read_fails"], "note": "Proved for every domain in the class PrintDomain (the parts that the grammar can write and the parser reads as the same thing), for a new parser: str succeeds, parsing succeeds, and the result equals the original (C42_partial); and for every domain that a new parser reads from any text, unless it has one of the obstacles listed in DomainNoObstacle or a derived predicate follows an action (C42_read_partial). False in general: undeclared supertypes, object as supertype, types without :typing, :object-fluents, constants in declarations, function types, two types for parameters or function variables, undeclared constants, empty disjunctions, negative numbers (C42_fails, C42_full_fails). C42_read_fails has a text for each kind of obstacle."},
{"property": "C43", "status": "partial", "theorems": ["Pddl.Props.C43_partial", "Pddl.Props.C43_read_partial", "Pddl.Props.C43_parser_state", "Pddl.Props.C43_fails", "Pddl.Props.C43_full_fails", "Pddl.Props.C43_read_fails", "Pddl.Props.C43_domain_fails"], "note": "Proved for every problem whose parts have a text in the grammar of problems (PrintProblem), for every parser state, and for every problem returned by the parser except numbers with another spelling and merged operands. False in general: an attached domain, disjunctive, quantified or equality goals, typed goal variables, numbers in metrics, :object-fluents (C43_fails, C43_domain_fails, C43_full_fails), and even for some parsed problems (C43_read_fails)."},
{"property": "C44", "status": "proved", "theorems": ["Pddl.Props.C44_predicate", "Pddl.Props.C44_equal_to", "Pddl.Props.C44_function"], "note": "Predicate and EqualTo raise ValueError iff two terms share a name and differ in types."},
{"property": "C45", "status": "partial", "theorems": ["Pddl.Props.C45_fails", "Pddl.Props.C45_removeEmptyLines_partial", "Pddl.Props.C45_indent", "Pddl.Props.C45_layout", "Pddl.Props.C45_lines", "Pddl.Props.C45_no_blank_line"], "note": "indent keeps the tokens of every text and no blank line is left. remove_empty_lines keeps the tokens of every text without \";\" or with newline as only line boundary; C45_fails shows that a comment containing a vertical tab loses its protection. Printed texts contain no \";\"."},
{"property": "C46", "status": "partial", "theorems": ["Pddl.Props.C46_precondition_never_holds", "Pddl.Props.C46_precondition_fails", "Pddl.Props.C46_effect_partial"], "note": "False for preconditions: in every accepted domain a precondition written () is the empty disjunction, which holds in no state (C46_precondition_never_holds, C46_precondition_fails). Proved for effects: an effect written () changes nothing."},
{"property": "C47", "status": "partial", "theorems": ["Pddl.Props.C47_exact", "Pddl.Props.C47_partial", "Pddl.Props.C47_fails", "Pddl.Props.C47_division_fails", "Pddl.Props.C47_difference_rejected"], "note": "False as stated: (+ 1 1) is read with value 1, (/ 8 (/ 4 2)) with value 1, and (- a b) is never accepted. C47_partial: proved for every numeric expression text in which the operands of +, *, / are pairwise different and no quotient is nested in a quotient. C47_exact: for every accepted text, the value is that of the text as it is read (Spec.readNum: nested operators spread out, repeated operands dropped), without any condition."},
{"property": "C48", "status": "partial", "theorems": ["Pddl.Props.C48_never", "Pddl.Props.C48_fails", "Pddl.Props.C48_partial"], "note": "False: no accepted problem has or, imply, forall, exists or = between terms in its goal, whatever its requirements (C48_never, C48_fails). Proved: goals made of and, not, atoms and comparisons are accepted whatever the requirements."},
{"property": "C49", "status": "partial", "theorems": ["Pddl.Props.C49_fails", "Pddl.Props.C49_partial", "Pddl.Props.C49_never", "Pddl.Props.C49_types"], "note": "First half false of the code: no accepted domain has any term of type object (C49_never, every text; witness C49_fails). Second half proved: with typing in force a supertype object anywhere in the list of types can be added or left out, the domain and the parser state are the same (C49_types; C49_partial is the case of the last group)."},
{"property": "C50", "status": "proved", "theorems": ["Pddl.Props.C50_stages", "Pddl.Props.C50_success", "Pddl.Props.C50_quiet"], "note": "The command line as a function of the file texts equals running the stages in order until the first failure; success iff all stages succeed; --quiet prints nothing."},
{"property": "C51", "status": "proved", "theorems": ["Pddl.Props.C51_duplicate_tags", "Pddl.Props.C51_set_tags"], "note": "Duplicate detection in list arguments; sets always pass the duplicate check."},
{"property": "C52", "status": "partial", "theorems": ["Pddl.Props.C52_fails", "Pddl.Props.C52_partial", "Pddl.Props.C52_interleaved_partial"], "note": "False as stated (C52_fails): a variable that is free in the condition, or an untyped head variable, gets the type of a parameter of that name of an earlier action. C52_partial: the derived predicates of two accepted texts with the same declarations and the same derived sections, and any actions before, between and after them, are equal, if each variable free in a condition is typed by the head or its declaration or is no parameter name, and no variable of a condition has the name of a constant. C52_interleaved_partial: under the same conditions the other way of putting the same derived predicates and actions together is accepted as the same domain."},
{"property": "C53", "status": "proved", "theorems": ["Pddl.Props.C53_exact", "Pddl.Props.C53_goal_exact", "Pddl.Props.C53_condition", "Pddl.Props.C53_precondition", "Pddl.Props.C53_goal"], "note": "Callback level for all conditions in which no arithmetic operand is lost; action level for preconditions other than () in which the operands of each sum, product, quotient and equation are written differently (KeepsOperands (textEnv F)); goal level. The texts excluded are those of C46 and C47; for all texts, C53_exact and C53_goal_exact give the meaning of the text as it is read (Spec.readPre, Spec.readCond), without any condition."},
{"property": "C54", "status": "proved", "theorems": ["Pddl.Props.C54_exact", "Pddl.Props.C54_effect", "Pddl.Props.C54_arithmetic"], "note": "For all parsed actions without oneof in which the operands of each sum, product, quotient and equation are written differently (KeepsOperands (textEnv F), see C47); C54_arithmetic is the same at the level of callbacks; C54_exact drops the condition on operands by giving the changes of the text as it is read (Spec.readEff)."},
{"property": "C55", "status": "partial", "theorems": ["Pddl.Props.C55_accepted_domain", "Pddl.Props.C55_accepted_problem", "Pddl.Props.C55_accepted_plan", "Pddl.Props.C55_fails", "Pddl.Props.C55_fails_metric", "Pddl.Props.C55_fails_function", "Pddl.Props.C55_derivable_partial", "Pddl.Props.C55_accepted_partial"], "note": "Accepted texts are derivable (any parser state). The converse fails: differences and comparisons starting with a bare function name are derivable but refused (C55_fails*). Proved for the grammar without these alternatives, which still contains every accepted text; complete for plans."},
{"property": "C56", "status": "partial", "theorems": ["Pddl.Props.C56_fails", "Pddl.Props.C56_fails_runtime", "Pddl.Props.C56_fails_loop", "Pddl.Props.C56_fails_value", "Pddl.Props.C56_fails_functions", "Pddl.Props.C56_domain_partial", "Pddl.Props.C56_problem_partial", "Pddl.Props.C56_plan", "Pddl.Props.C56_reached_domain", "Pddl.Props.C56_reached_problem", "Pddl.Props.C56_reached_plan"], "note": "False as stated (TypeError, ValueError, RuntimeError, endless loop): C56_fails*. The exact set of outcomes is proved for domains and problems, every member is reached; for plans the claim holds."},
{"property": "C57", "status": "partial", "theorems": ["Pddl.Props.C57_partial", "Pddl.Props.C57_fails"], "note": "C57_partial: every accepted domain text splits into sections and the parsed domain declares exactly what they say, from any parser that has parsed other texts before. Missing: variables written for the function total-cost are dropped (C57_fails is the counterexample), and the meaning of preconditions and effects is stated only without () as precondition, without oneof and where operands of arithmetic are written differently (see C46, C47, C54)."},
{"property": "C58", "status": "partial", "theorems": ["Pddl.Props.C58_exact", "Pddl.Props.C58_partial", "Pddl.Props.C58_parser", "Pddl.Props.C58_fails", "Pddl.Props.C58_typed_parser", "Pddl.Props.C58_fails_types"], "note": "C58_partial: every accepted problem text splits into sections and the problem contains exactly what they say. Missing: constants of a text without :objects get the types of an earlier text if the parser was used before (C58_fails_types), and metrics with numbers have no value because the literals stay strings (C58_fails); goals and metrics with merged operands are excluded by KeepsOperands (see C09, C53). C58_exact covers them: the goal says what the written one says as it is read, and the metric has the value of the written one as it is read. C58_parser shows that parsers satisfy the hypothesis on the state."},
{"property": "C59", "status": "proved", "theorems": ["Pddl.Props.C59_steps"], "note": "C59_steps is an equivalence: acceptance, the steps, their arguments and their order."},
{"property": "C60", "status": "partial", "theorems": ["Pddl.Props.C60_partial", "Pddl.Props.C60_total_partial", "Pddl.Props.C60_comparable", "Pddl.Props.C60_atoms", "Pddl.Props.C60_fails_sets", "Pddl.Props.C60_fails_kinds", "Pddl.Props.C60_fails", "Pddl.Props.C60_raises", "Pddl.Props.C60_derived_fails", "Pddl.Props.C60_derived_fails_self", "Pddl.Props.C60_derived_partial"], "note": "False for quantified formulas and universal effects over incomparable sets of variables, for forall/exists of the same body, and for derived predicates (x < x can hold): C60_fails, C60_fails_sets, C60_fails_kinds, C60_derived_fails, C60_derived_fails_self. Proved for all: asymmetry, transitivity, agreement with ==, symmetric definedness (C60_partial); trichotomy with <=, >, >= for everything without sets of variables (C60_total_partial, C60_atoms); which pairs raise TypeError (C60_raises, C60_comparable)."},
{"property": "C61", "status": "proved", "theorems": ["Pddl.Props.C61_constructed", "Pddl.Props.C61_parsed", "Pddl.Props.C61_cli", "Pddl.Props.C61_cycle"], "note": "C61_constructed, C61_parsed, C61_cli. C61_cycle shows that the claim is not true of unchecked type dictionaries."},
{"property": "C62", "status": "partial", "theorems": ["Pddl.Props.C62_denotes", "Pddl.Props.C62_partial", "Pddl.Props.C62_fails"], "note": "False for negative integers (C62_fails: the sign is a token of its own). Proved: the text of every integer denotes it (C62_denotes), and non-negative ones are read back (C62_partial). The text of a float is its repr, which is data in the model."},
{"property": "C63", "status": "proved", "theorems": ["Pddl.Props.C63_accepts", "Pddl.Props.C63_variables", "Pddl.Props.C63_constants"], "note": "C63_accepts (exactly when variables() succeeds), C63_variables, C63_constants (if and only if)."},
{"property": "C64", "status": "proved", "theorems": ["Pddl.Props.C64_construct", "Pddl.Props.C64_text"], "note": "C64_construct for the constructor (types a dictionary, as in Python); C64_text for texts. A reused parser keeps the requirements of the previous text when a text has no section (C35), so for that case the theorem asks that none are in force."},
{"property": "C65", "status": "proved", "theorems": ["Pddl.Props.C65_accepted", "Pddl.Props.C65_contents", "Pddl.Props.C65_error"], "note": "C65_accepted (which arguments), C65_contents (what the problem holds; of equal objects or facts the first is kept and only that one is checked), C65_error (the exceptions). The domain is one that Domain(...) made."},
{"property": "C66", "status": "partial", "theorems": ["Pddl.Props.C66_result", "Pddl.Props.C66_fails", "Pddl.Props.C66_partial", "Pddl.Props.C66_exact", "Pddl.Props.C66_ground_partial"], "note": "C66_result is the exact outcome. The truth of instances is false as stated (C66_fails: a quantifier that binds a mapped variable); C66_partial has the hypotheses of C11_partial and one value per variable name. C66_exact: for every mapping, what the instance says. C66_ground_partial: for constants of the types of the variables, the head is derived exactly if the condition of the ground instance is true."},
{"property": "C67", "status": "proved", "theorems": ["Pddl.Props.C67_predicate", "Pddl.Props.C67_function", "Pddl.Props.C67_errors", "Pddl.Props.C67_self", "Pddl.Props.C67_instance", "Pddl.Props.C67_function_instance"], "note": "Exact success conditions, results and exceptions; a function call requires identical types of the terms, a predicate call ignores the types of the schema. C67_instance: agreement with instantiate."},
{"property": "C68", "status": "proved", "theorems": ["Pddl.Props.C68_metric", "Pddl.Props.C68_default"], "note": "The constructor of metrics and ensure_formula."},
{"property": "C69", "status": "proved", "theorems": ["Pddl.Props.C69_domain", "Pddl.Props.C69_problem", "Pddl.Props.C69_formula", "Pddl.Props.C69_action"], "note": "Domains, problems, actions, formulas (remake is the call of the class with the parts of the object)."},
{"property": "C70", "status": "partial", "theorems": ["Pddl.Props.C70_domain_partial", "Pddl.Props.C70_domain_result", "Pddl.Props.C70_fails", "Pddl.Props.C70_problem_partial", "Pddl.Props.C70_problem_result"], "note": "Results are equal whenever both calls succeed (C70_domain_result, C70_problem_result). Success of both or none is false as stated, because constants are equal whatever their types (C70_fails), and proved if equal constants of the two calls have the same types (C70_domain_partial, C70_problem_partial)."},
{"property": "C71", "status": "partial", "theorems": ["Pddl.Props.C71_interleaved_partial", "Pddl.Props.C71_partial", "Pddl.Props.C71_accepted", "Pddl.Props.C71_fails", "Pddl.Props.C71_fails_heads"], "note": "Full statement C71_full is false of the code: C71_fails (derived predicate before or after an action), C71_fails_heads (two predicates of one name and a derived predicate: one order accepted, the other rejected). Proved for every text, permutation and reachable parser state when derived predicates come before actions and predicates have distinct names if there are derived ones (C71_partial, C71_accepted). Proved for any order of derived predicates and actions, for a new parser, when the variables of derived conditions are typed by their heads or are no parameter names and are no names of constants (C71_interleaved_partial)."},
{"property": "C72", "status": "proved", "theorems": ["Pddl.Props.C72_equal", "Pddl.Props.C72_accepted"], "note": "C72_equal: equal problems and the same known objects afterwards. C72_accepted: one text is accepted exactly if the other is. The goal and the metric are the same in both texts."},
{"property": "C73", "status": "partial", "theorems": ["Pddl.Props.C73_formula", "Pddl.Props.C73_action", "Pddl.Props.C73_derived", "Pddl.Props.C73_partial", "Pddl.Props.C73_parsed", "Pddl.Props.C73_fails"], "note": "Proved for formulas, actions and derived predicates with well-typed arguments, for checked plans whose arguments have declared types (C73_partial) and for parsed plans (C73_parsed). The claim for all checked plans is false of the code: C73_fails."},
{"property": "C74", "status": "partial", "theorems": ["Pddl.Props.C74_exact", "Pddl.Props.C74_partial", "Pddl.Props.C74_plan", "Pddl.Props.C74_binds", "Pddl.Props.C74_fails", "Pddl.Props.C74_empty_fails", "Pddl.Props.C74_operands", "Pddl.Props.C74_operands_plain", "Pddl.Props.C74_operands_fails"], "note": "Full statement C74_full is false of the code: C74_fails (quantifier rebinding a parameter), C74_empty_fails (precondition `()`), C74_operands_fails (equal arguments make two operands of a sum equal, and one is dropped). C74_operands proves it for preconditions other than `()` that do not rebind a parameter and for all effects without oneof, provided the operands of sums, products, quotients and equations stay different with the arguments written in; C74_exact drops the conditions on operands and on `()`: the ground action says what the text with the arguments written in says as it is read (Spec.readPre, Spec.readEff). C74_partial is the case without arithmetic, for which C74_operands_plain shows the proviso; C74_plan lifts it to plans; C74_binds shows the binding of arguments always exists."},
{"property": "C75", "status": "partial", "theorems": ["Pddl.Props.C75_constants", "Pddl.Props.C75_partial", "Pddl.Props.C75_fails", "Pddl.Props.C75_arity_fails", "Pddl.Props.C75_function_fails", "Pddl.Props.C75_variable_fails", "Pddl.Props.C75_used_fails", "Pddl.Props.C75_ground"], "note": "False of the code for predicates, functions and variables (C75_fails, C75_arity_fails, C75_function_fails, C75_variable_fails) and, on a parser that was used before, for constants (C75_used_fails). Proved: constants used are declared with the same types for a new parser or a text with :constants (C75_partial, C75_constants); constants of ground actions of a checked plan are objects or domain constants, and closed actions have closed instances (C75_ground). Missing: nothing of the claim that is true of the code."},
{"property": "C76", "status": "partial", "theorems": ["Pddl.Props.C76_partial", "Pddl.Props.C76_read_partial", "Pddl.Props.C76_cli_partial", "Pddl.Props.C76_problem_partial", "Pddl.Props.C76_problem_read_partial", "Pddl.Props.C76_fails", "Pddl.Props.C76_full_fails", "Pddl.Props.C76_problem_fails", "Pddl.Props.C76_order_fails"], "note": "False in full: some printed texts are rejected by the parser (C76_fails, C76_problem_fails), and the text of quantified variables depends on the iteration order (C76_order_fails). Proved for all domains and problems without these obstacles, made by constructors or read from texts, in every iteration order, and for the command line tool."},
{"property": "C77", "status": "partial", "theorems": ["Pddl.Props.C77_terms", "Pddl.Props.C77_atoms", "Pddl.Props.C77_functions", "Pddl.Props.C77_plans", "Pddl.Props.C77_partial", "Pddl.Props.C77_actions_partial", "Pddl.Props.C77_domains_partial", "Pddl.Props.C77_problems_partial", "Pddl.Props.C77_fails", "Pddl.Props.C77_full_fails", "Pddl.Props.C77_constants_fails"], "note": "False in full (C77_fails, C77_constants_fails). Proved without conditions for terms, predicates, functions and plans; for formulas, actions, domains and problems if quantifiers bind at most one variable with at most one type, equal numbers are written alike, and equal constants have the same type."},
{"property": "C78", "status": "partial", "theorems": ["Pddl.Props.C78_partial", "Pddl.Props.C78_effects_partial", "Pddl.Props.C78_domains_partial", "Pddl.Props.C78_texts_partial", "Pddl.Props.C78_problems_partial", "Pddl.Props.C78_plans", "Pddl.Props.C78_fails", "Pddl.Props.C78_full_fails", "Pddl.Props.C78_domains_fails"], "note": "False in full (C78_fails, C78_domains_fails). Proved for conditions and effects that the grammar can write in one scope, for domains and problems that the grammar can write, for texts without obstacles, and for all plans with valid names."},
{"property": "C79", "status": "proved", "theorems": ["Pddl.Props.C79_accepted"], "note": "parseDomain succeeds on a fresh parser iff DomainIn holds; which error is raised otherwise is not part of it (C56-C58 treat that)"},
{"property": "C80", "status": "proved", "theorems": ["Pddl.Props.C80_problem", "Pddl.Props.C80_used", "Pddl.Props.C80_names", "Pddl.Props.C80_plan", "Pddl.Props.C80_no_or"], "note": "Exact for all texts. Parser states are restricted to those in which objects are known under their own names, which is shown to hold for a fresh parser and to be kept by reading (C80_names)."},
{"property": "C81", "status": "partial", "theorems": ["Pddl.Props.C81_partial", "Pddl.Props.C81_runs", "Pddl.Props.C81_noArithmetic", "Pddl.Props.C81_fails", "Pddl.Props.C81_exact", "Pddl.Props.C81_exact_plain"], "note": "Full statement C81_full is false (C81_fails: precondition `()`). Proved (C81_partial) when actions have different names and different parameters, no `()` precondition, no `oneof` and no quantifier that binds a parameter again, and the operands of arithmetic stay different with the arguments of each step written in (always so without arithmetic: C81_noArithmetic). C81_exact drops the conditions on operands and on `()`: a plan solves what was read exactly if the written plan, with the arguments written in and all texts taken as they are read (Spec.ReadSolves), leads to the goal. Derived predicates are not evaluated here; they are in C92."},
{"property": "C82", "status": "proved", "theorems": ["Pddl.Props.C82_replace"], "note": "Two texts are compared: what instantiate computes from the first is equal to what is read from the second. The second text must be accepted (its constants must be declared); C79 says when."},
{"property": "C83", "status": "partial", "theorems": ["Pddl.Props.C83_local_partial", "Pddl.Props.C83_local_plan", "Pddl.Props.C83_domain_partial", "Pddl.Props.C83_problem_partial", "Pddl.Props.C83_plan", "Pddl.Props.C83_use", "Pddl.Props.C83_fails"], "note": "False of texts in which a keyword is glued to the next name (C83_fails: `(define (domainfoo))`). Proved for all other domain and problem texts, for all plan texts, and for checking and instantiating; also for a renaming that is one to one on the names of the text only (C83_local_partial, C83_local_plan). The check of a problem against a domain compares the two domain names without regard to case, so the renaming must respect that comparison."},
{"property": "C84", "status": "proved", "theorems": ["Pddl.Props.C84_text", "Pddl.Props.C84_problem", "Pddl.Props.C84_plan"], "note": "For texts read by a fresh parser. The new names are required to be new: an action with an old name would replace the old one in plan lookup."},
{"property": "C85", "status": "partial", "theorems": ["Pddl.Props.C85_step", "Pddl.Props.C85_domain_partial", "Pddl.Props.C85_functions_partial", "Pddl.Props.C85_problem_partial", "Pddl.Props.C85_parsed_plan_partial", "Pddl.Props.C85_plan", "Pddl.Props.C85_consistent_partial", "Pddl.Props.C85_fails_types", "Pddl.Props.C85_fails_functions", "Pddl.Props.C85_fails_requirements", "Pddl.Props.C85_fails_plan", "Pddl.Props.C85_domain_value", "Pddl.Props.C85_parsed_domain_value", "Pddl.Props.C85_problem_value", "Pddl.Props.C85_parsed_problem_value", "Pddl.Props.C85_domain_read", "Pddl.Props.C85_problem_read", "Pddl.Props.C85_assign", "Pddl.Props.C85_domain_stays", "Pddl.Props.C85_problem_stays"], "note": "The full statement (C85_full) is false: four counterexamples. Proved for all client programs of any length: a new domain or problem has the value the constructor gives to the contents of the collections passed (C85_domain_value, C85_problem_value, C85_parsed_domain_value, C85_parsed_problem_value), the properties return that value (C85_domain_read, C85_problem_read), and an assigned domain changes only the domain of the problem (C85_assign). Whatever a client does, of a domain only the types and functions can change, and of a problem only the domain and the requirements (C85_domain_stays, C85_problem_stays). A domain changes only by a write to its dictionary of types or functions (C85_step), so a domain made without functions keeps its value unless these are asked for, one made with functions unless the passed dictionary is written or types are asked for; problems and parsed plans likewise; a Plan always has the contents of the list passed to it; programs that ask for none of the shared collections have only acceptable domains and fitting problems. Missing: isolation itself, which the code does not have."},
{"property": "C86", "status": "partial", "theorems": ["Pddl.Props.C86_exponential", "Pddl.Props.C86_fails", "Pddl.Props.C86_partial", "Pddl.Props.C86_hierarchy", "Pddl.Props.C86_quadratic"], "note": "False of find_cycle in general: for every n a graph with n+1 nodes and no cycle takes more than 2^n iterations (C86_exponential), hence no polynomial bound (C86_fails). Proved where each node has at most one successor (C86_partial), in particular for every dictionary of types (C86_hierarchy); the quadratic bound has the right order (C86_quadratic)."},
{"property": "C87", "status": "partial", "theorems": ["Pddl.Props.C87_fails", "Pddl.Props.C87_fails_types", "Pddl.Props.C87_check", "Pddl.Props.C87_inst", "Pddl.Props.C87_solves", "Pddl.Props.C87_metric", "Pddl.Props.C87_partial", "Pddl.Props.C87_partial_typed"], "note": "The full statement (C87_full) is false: C87_fails (two actions of one name; the order of the set decides) and C87_fails_types (constants equal but of different types; one side raises). Proved: when only equal actions share a name, check has the same outcome (C87_check); when both calls of instantiate return, the ground actions are equal (C87_inst, C87_partial); they solve the same problems from every state (C87_solves); the metrics agree (C87_metric). C87_partial_typed: both calls do return when each name has one set of types and there are no conditional or universal effects."},
{"property": "C88", "status": "partial", "theorems": ["Pddl.Props.C88_fails", "Pddl.Props.C88_partial", "Pddl.Props.C88_newlines", "Pddl.Props.C88_no_cr", "Pddl.Props.C88_unreadable", "Pddl.Props.C88_cli"], "note": "The full statement (C88_full) is false: C88_fails (a lone carriage return inside a comment). Proved: it holds for every text whose comments contain no lone carriage return (C88_partial), also for the command line tool (C88_cli); in general the file is parsed as its text with newlines translated (C88_newlines, C88_no_cr); unreadable files raise before any parsing (C88_unreadable). The decoding of bytes is a parameter."},
{"property": "C89", "status": "partial", "theorems": ["Pddl.Props.C89_fails", "Pddl.Props.C89_find", "Pddl.Props.C89_index", "Pddl.Props.C89_get_partial", "Pddl.Props.C89_ensure", "Pddl.Props.C89_partial"], "note": "The full statement (C89_full) is false: C89_fails (safe_get with an index below -len raises IndexError). Proved: find (C89_find), safe_index with all bounds (C89_index), safe_get with the exact set of indices for which it raises (C89_get_partial, C89_partial), ensure and ensure_sequence (C89_ensure)."},
{"property": "C90", "status": "partial", "theorems": ["Pddl.Props.C90_fails", "Pddl.Props.C90_fails_names", "Pddl.Props.C90_partial"], "note": "Full statement C90_full is false (C90_fails, C90_fails_names). C90_partial: without the obstacles of C42/C43 and with distinct action names everything is kept exactly."},
{"property": "C91", "status": "partial", "theorems": ["Pddl.Props.C91_partial", "Pddl.Props.C91_effects_partial", "Pddl.Props.C91_actions_partial", "Pddl.Props.C91_derived_partial", "Pddl.Props.C91_metrics_partial", "Pddl.Props.C91_fails_types", "Pddl.Props.C91_fails_numbers", "Pddl.Props.C91_fails_actions", "Pddl.Props.C91_fails_derived", "Pddl.Props.C91_fails"], "note": "Full statement C91_full is false (C91_fails, C91_fails_types, C91_fails_numbers, C91_fails_actions, C91_fails_derived). C91_partial, C91_effects_partial: formulas of the same scope with the same repr are equal if no outermost quantifier has typed variables and no number is shown by its address. C91_actions_partial: actions with untyped parameters. C91_derived_partial: derived predicates whose heads and conditions are in one scope. C91_metrics_partial: metrics that the grammar can write, numbers included."},
{"property": "C92", "status": "partial", "theorems": ["Pddl.Props.C92_partial", "Pddl.Props.C92_solves", "Pddl.Props.C92_none", "Pddl.Props.C92_runs_none", "Pddl.Props.C92_fails", "Pddl.Props.C92_fails_reused", "Pddl.Props.C92_exact", "Pddl.Props.C92_exact_plain"], "note": "Full statement C92_full is false (C92_fails: a variable written twice after the name of the derived predicate; C92_fails_reused: declared only in a text read before). C92_partial: each derived predicate is declared once in the text, with different variables, and the operands of arithmetic in its conditions are written differently. C92_solves: with C81, plans solve the problem that was read exactly if they solve the written one, for every way to complete states by rules (LeastClosed is one). C92_exact: the same without conditions on operands and on `()`, with all texts taken as they are read. C92_none, C92_runs_none: without rules this is C81."},
{"property": "C93", "status": "proved", "theorems": ["Pddl.Props.C93_text", "Pddl.Props.C93_check", "Pddl.Props.C93_plan"], "note": "C93_text: the second text is accepted and its problem contains the other one; facts are compared with ==, since of several equal facts only the first is kept. C93_check: exact condition for the check. C93_plan: plans stay plans."},
{"property": "C94", "status": "proved", "theorems": ["Pddl.Props.C94_domain", "Pddl.Props.C94_domain_depth", "Pddl.Props.C94_problem", "Pddl.Props.C94_plan", "Pddl.Props.C94_instance", "Pddl.Props.C94_action", "Pddl.Props.C94_derived", "Pddl.Props.C94_plan_actions"], "note": "C94_domain, C94_domain_depth, C94_problem, C94_plan: bounds by tokens, characters and bracket depth, for every parser state. C94_instance, C94_action, C94_derived, C94_plan_actions: instances."},
{"property": "C95", "status": "partial", "theorems": ["Pddl.Props.C95_fails", "Pddl.Props.C95_fails_derived", "Pddl.Props.C95_domain_partial", "Pddl.Props.C95_plan_partial", "Pddl.Props.C95_solves_partial"], "note": "C95_fails: renaming a parameter to the name of a constant makes the text rejected. C95_fails_derived: a derived predicate after the action changes. C95_domain_partial, C95_plan_partial, C95_solves_partial: for renamings that move no name of a constant (or of an argument of the plan), derived predicates before actions and actions of different names, everything that is claimed holds; the last one needs actions without undeclared variables."},
{"property": "C96", "status": "proved", "theorems": ["Pddl.Props.C96_text", "Pddl.Props.C96_text_last", "Pddl.Props.C96_str", "Pddl.Props.C96_check", "Pddl.Props.C96_accepted", "Pddl.Props.C96_instantiate", "Pddl.Props.C96_runs", "Pddl.Props.C96_solves"], "note": "C96_text, C96_text_last: reading, with all error outcomes. C96_str, C96_check, C96_accepted, C96_instantiate: printing, checking, instantiating. C96_runs, C96_solves: carrying out."},
{"property": "C97", "status": "proved", "theorems": ["Pddl.Props.C97_frame", "Pddl.Props.C97_static", "Pddl.Props.C97_goal"], "note": "C97_frame: growing, shrinking and constant parts of states along every run. C97_static: predicates in no effect. C97_goal: goals no plan reaches. Derived predicates are not evaluated between the steps (see C92 for them)."},
{"property": "C98", "status": "proved", "theorems": ["Pddl.Props.C98_runs", "Pddl.Props.C98_solves"], "note": "C98_runs: carrying out plans. C98_solves: solving problems, for texts with more facts in the sense of C93. Derived predicates are not evaluated between the steps."},
{"property": "C99", "status": "proved", "theorems": ["Pddl.Props.C99_check", "Pddl.Props.C99_reordered"], "note": "C99_reordered: the whole statement. C99_check: the outcome of the check does not depend on the order at all. Independence is read off the words of the text, so it also asks that changed names are not used as variable or constant names. Derived predicates are not evaluated between the steps."},
{"property": "C100", "status": "partial", "theorems": ["Pddl.Props.C100_domain_partial", "Pddl.Props.C100_problem_partial", "Pddl.Props.C100_plan_partial", "Pddl.Props.C100_fails", "Pddl.Props.C100_fails_names"], "note": "False of the code: C100_fails (keywords), C100_fails_names (two spellings of one type). Proved for domain, problem and plan texts of which only names are respelt, each spelt in one way in each text, and no name is glued to a keyword: same outcome, same errors, and the objects are the same up to letter case (C100_domain_partial, C100_problem_partial, C100_plan_partial)."},
{"property": "C101", "status": "partial", "theorems": ["Pddl.Props.C101_effect_partial", "Pddl.Props.C101_deterministic", "Pddl.Props.C101_equal", "Pddl.Props.C101_fails", "Pddl.Props.C101_exact"], "note": "False of the code: And merges equal choices (C101_fails). Proved in general: every outcome of the parsed effect is written; and the outcomes are exactly those written if no choice is written twice among the operands of an and (C101_effect_partial). C101_exact says the same, without the condition on lost operands, of the effect as it is read. Effects without choices have exactly one outcome, the changes of C54 (C101_deterministic); equal effects have equal outcomes (C101_equal)."},
{"property": "C102", "status": "partial", "theorems": ["Pddl.Props.C102_ground_partial", "Pddl.Props.C102_fails", "Pddl.Props.C102_exact"], "note": "False of the code: choices that become equal by the arguments are merged (C102_fails). Proved: every outcome of the ground effect is written, and the outcomes are exactly those written if no choice is written twice in an and once the arguments are written in (C102_ground_partial). C102_exact says the same, without the condition on lost operands, of the effect as it is read with the arguments written in."},
{"property": "C103", "status": "partial", "theorems": ["Pddl.Props.C103_partial", "Pddl.Props.C103_surely_partial", "Pddl.Props.C103_deterministic", "Pddl.Props.C103_fails", "Pddl.Props.C103_exact"], "note": "False of the code: equal choices are merged (C103_fails). Proved (C103_partial): a ground plan that may reach the goal may reach the written goal, a written plan that never ends outside the goal is so as read, and both are equivalences if no choice is written twice in an and once the arguments are written in. The same for plans that surely apply and reach the goal whatever the outcomes (C103_surely_partial). C103_exact says all of this, without the conditions on lost operands and on () as a precondition, of the texts as they are read. Without choices the executions are those of C81 (C103_deterministic)."},
{"property": "C104", "status": "partial", "theorems": ["Pddl.Props.C104_metric_partial", "Pddl.Props.C104_partial", "Pddl.Props.C104_best_partial", "Pddl.Props.C104_fails_order", "Pddl.Props.C104_fails", "Pddl.Props.C104_metric_exact", "Pddl.Props.C104_exact", "Pddl.Props.C104_best_exact"], "note": "False of the code: a repeated operand of the metric is lost, and with it the order of plans (C104_fails, C104_fails_order). Proved (C104_partial, C104_best_partial): with the conditions of C81 and metrics whose operands are pairwise different, plans have the written values and the best plans are the same. C104_metric_partial: the value of the metric alone, numbers included (which C58 leaves out). C104_metric_exact, C104_exact and C104_best_exact: for every metric, without conditions on operands, values and best plans are those of the text as it is read (Spec.readMetric)."},
{"property": "C105", "status": "partial", "theorems": ["Pddl.Props.C105_print", "Pddl.Props.C105_distinct", "Pddl.Props.C105_lookup", "Pddl.Props.C105_unknown", "Pddl.Props.C105_fails", "Pddl.Props.C105_partial"], "note": "False of the code: `:object-fluents` cannot be declared (C105_fails). Proved: printing, lookup and its ValueError for all strings (C105_print, C105_distinct, C105_lookup, C105_unknown), and acceptance of any list of the other flags (C105_partial)."},
{"property": "C106", "status": "partial", "theorems": ["Pddl.Props.C106_partial", "Pddl.Props.C106_check", "Pddl.Props.C106_fails", "Pddl.Props.C106_types_fails", "Pddl.Props.C106_more_fails"], "note": "False of the code (C106_fails, C106_more_fails, C106_types_fails). Proved: facts contain no variables, an argument with the name of an object is this object with its types, all other terms are untyped (C106_partial); the check passes exactly if the domain names, requirements and types of the objects agree (C106_check)."},
{"property": "C107", "status": "partial", "theorems": ["Pddl.Props.C107_blind", "Pddl.Props.C107_partial", "Pddl.Props.C107_fails"], "note": "False of the code (C107_fails, for texts). Proved: the outcome of the check is the same whatever types parameters, objects and constants have (C107_blind); the claim holds if every object suits every parameter, in particular without types (C107_partial)."},
{"property": "C108", "status": "proved", "theorems": ["Pddl.Props.C108_keeps", "Pddl.Props.C108_start", "Pddl.Props.C108_safe", "Pddl.Props.C108_needed"], "note": "C108_safe for what was read, from C108_keeps (any plan with constants) and C108_start (the listed facts). C108_needed: without the condition on the plan it fails for texts that pass both checks, since Plan.check does not look at types (C107)."},
{"property": "C109", "status": "proved", "theorems": ["Pddl.Props.C109_runs", "Pddl.Props.C109_solves"], "note": "C109_runs for any two states that agree on R, C109_solves for problems. Actions with conditional effects have no instances (C74), so their clause in the specification is never used for plans."},
{"property": "C110", "status": "proved", "theorems": ["Pddl.Props.C110_unique", "Pddl.Props.C110_rounds", "Pddl.Props.C110_cycle", "Pddl.Props.C110_accepted", "Pddl.Props.C110_quadratic"], "note": "C110_rounds (bound, outcome), C110_unique (the rounds are determined), C110_cycle (when it raises), C110_accepted (accepted hierarchies), C110_quadratic (the bound is reached for every k)."},
{"property": "C111", "status": "proved", "theorems": ["Pddl.Props.C111_solves", "Pddl.Props.C111_texts", "Pddl.Props.C111_objects"], "note": "C111_solves (objects), C111_texts (texts), C111_objects (symmetric problems; also the outcome of Plan.check). Example: two lamps switched on in the other order."},
{"property": "C112", "status": "proved", "theorems": ["Pddl.Props.C112_runs", "Pddl.Props.C112_solves", "Pddl.Props.C112_easier", "Pddl.Props.C112_deletions", "Pddl.Props.C112_negative"], "note": "C112_runs, C112_solves; C112_easier and C112_deletions for the text without deletions; C112_negative shows that negative conditions cannot be allowed. That the plan can be instantiated in both domains is a hypothesis."},
{"property": "C113", "status": "proved", "theorems": ["Pddl.Props.C113_reordered", "Pddl.Props.C113_any_order", "Pddl.Props.C113_order_matters", "Pddl.Props.C113_names_matter"], "note": "C113_reordered, C113_any_order. C113_order_matters: the order of interfering steps can matter. C113_names_matter: different names for one object cannot be allowed. Finer than C99, which compares names of predicates in the text."},
{"property": "C114", "status": "proved", "theorems": ["Pddl.Props.C114_shorter", "Pddl.Props.C114_solves", "Pddl.Props.C114_bound", "Pddl.Props.C114_numbers_matter"], "note": "C114_shorter, C114_solves, C114_bound. C114_numbers_matter: with numeric updates there is no such bound."},
{"property": "C115", "status": "partial", "theorems": ["Pddl.Props.C115_partial", "Pddl.Props.C115_number_partial", "Pddl.Props.C115_effect_partial", "Pddl.Props.C115_order_fails", "Pddl.Props.C115_fails", "Pddl.Props.C115_types_fails", "Pddl.Props.C115_number_fails"], "note": "C115_fails with C115_order_fails, C115_types_fails, C115_number_fails: untyped before typed quantified variables, several types of a variable, negative numbers. C115_partial, C115_number_partial and C115_effect_partial: everything else, with repeated operands (which the parser drops, but the text keeps) and with choices."},
{"property": "C116", "status": "partial", "theorems": ["Pddl.Props.C116_partial", "Pddl.Props.C116_fails"], "note": "C116_fails: a negative initial value. C116_partial: for formulas as in C115, parameters with at most one type in a readable order, and ground initial facts, the texts have the same solutions, the same possible solutions and the same costs, also when operands are repeated (the case that C102 to C105 exclude)."},
{"property": "C117", "status": "partial", "theorems": ["Pddl.Props.C117_may_partial", "Pddl.Props.C117_may_text_partial", "Pddl.Props.C117_may_fails", "Pddl.Props.C117_partial", "Pddl.Props.C117_cost_partial", "Pddl.Props.C117_derived_partial", "Pddl.Props.C117_sound_partial", "Pddl.Props.C117_text_partial", "Pddl.Props.C117_fails"], "note": "C117_fails: two actions of the same name. C117_partial: equivalence for actions with different names and steps that can be instantiated (no capture by quantifiers, operands of arithmetic stay different, no choices); C117_cost_partial and C117_derived_partial: the same for costs and with derived predicates; C117_sound_partial: one direction also for actions of the same name; C117_may_partial: with choices, one direction, and equivalence if no two choices are made one by the arguments; C117_may_fails: otherwise the plan may solve what its ground actions cannot; C117_text_partial: the same for the printed texts."},
{"property": "C118", "status": "partial", "theorems": ["Pddl.Props.C118_read_partial", "Pddl.Props.C118_partial", "Pddl.Props.C118_cost_partial", "Pddl.Props.C118_exact", "Pddl.Props.C118_exact_plain", "Pddl.Props.C118_best_exact", "Pddl.Props.C118_may_exact", "Pddl.Props.C118_fails"], "note": "C118_fails: a repeated operand is lost. C118_partial: equivalence for texts without the obstacles of C42 and C43 whose actions have different parameters, no precondition () and no choices and whose operands the parser keeps; C118_cost_partial: the same for costs; C118_best_exact: formatting keeps the best plans; C118_read_partial: reading alone, by parsers in any state, with conditional effects and repeated action names; C118_exact: whatever operands are lost, the formatted task has the solutions and costs of the task as it is read; C118_may_exact: with choices, one direction, and equivalence if no choice is written twice in an and."},
{"property": "C119", "status": "partial", "theorems": ["Pddl.Props.C119_partial", "Pddl.Props.C119_ground_partial", "Pddl.Props.C119_read", "Pddl.Props.C119_format", "Pddl.Props.C119_read_exact", "Pddl.Props.C119_format_exact", "Pddl.Props.C119_fails"], "note": "C119_fails: a derived predicate without the types of its declaration. C119_partial: equivalence, for rules and for plans, if texts say what the objects say (as in C116) and derived predicates are declared, with types wherever the declaration has some; C119_ground_partial: the same for the ground actions of the plan, as in C117; C119_read: reading alone; C119_format: texts before and after formatting derive the same and have the same solutions; C119_read_exact and C119_format_exact: whatever operands are lost, in terms of the texts as they are read."},
{"property": "C120", "status": "proved", "theorems": ["Pddl.Props.C120_completed", "Pddl.Props.C120_runs", "Pddl.Props.C120_solves", "Pddl.Props.C120_negative", "Pddl.Props.C120_text", "Pddl.Props.C120_between"], "note": "C120_completed, C120_runs, C120_solves; C120_between: facts that are derived anyway change nothing; C120_text says the same of the rules as written in the text; C120_negative shows that negation in rules cannot be allowed."},
{"property": "C121", "status": "proved", "theorems": ["Pddl.Props.C121_derives", "Pddl.Props.C121_runs", "Pddl.Props.C121_solves", "Pddl.Props.C121_task", "Pddl.Props.C121_deletions", "Pddl.Props.C121_negative"], "note": "C121_derives, C121_runs, C121_solves; C121_task also for problems with more facts; C121_deletions is the case in which all deletions are left out; C121_negative shows that negation in conditions cannot be allowed."}
]}
