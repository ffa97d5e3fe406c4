/-
The axioms on which each property theorem depends. Building this file prints them.
-/
import Verif.Props.Accepted
import Verif.Props.AcceptedProblem
import Verif.Props.ArgTypes
import Verif.Props.Args
import Verif.Props.AsRead
import Verif.Props.CacheHash
import Verif.Props.Call
import Verif.Props.Cli
import Verif.Props.Cone
import Verif.Props.Cost
import Verif.Props.DerivedMore
import Verif.Props.DerivedMoreText
import Verif.Props.DerivedOrder
import Verif.Props.DerivedSem
import Verif.Props.DomainRoundTrip
import Verif.Props.Easier
import Verif.Props.EasierDerived
import Verif.Props.Equality
import Verif.Props.Execute
import Verif.Props.Files
import Verif.Props.FormatTask
import Verif.Props.Formula
import Verif.Props.FormulaRoundTrip
import Verif.Props.Frame
import Verif.Props.Grammar
import Verif.Props.Ground
import Verif.Props.GroundMay
import Verif.Props.GroundOperands
import Verif.Props.GroundPlan
import Verif.Props.Grounding
import Verif.Props.Grow
import Verif.Props.GrowProblem
import Verif.Props.Helpers
import Verif.Props.History
import Verif.Props.Instance
import Verif.Props.Instantiable
import Verif.Props.Instantiate
import Verif.Props.Interfere
import Verif.Props.Interleaved
import Verif.Props.JoinPlans
import Verif.Props.LetterCase
import Verif.Props.MayRun
import Verif.Props.Meaning
import Verif.Props.Monotone
import Verif.Props.MoreRequirements
import Verif.Props.Names
import Verif.Props.ObjectType
import Verif.Props.Operands
import Verif.Props.Order
import Verif.Props.OrderFormula
import Verif.Props.Outcome
import Verif.Props.Parser
import Verif.Props.Printer
import Verif.Props.Problem
import Verif.Props.ProblemArgs
import Verif.Props.ProblemRoundTrip
import Verif.Props.Raises
import Verif.Props.ReadExecute
import Verif.Props.ReadMayRun
import Verif.Props.ReadMetric
import Verif.Props.Rearranged
import Verif.Props.RearrangedProblem
import Verif.Props.Reformat
import Verif.Props.Rename
import Verif.Props.RenameVars
import Verif.Props.Replace
import Verif.Props.Repr
import Verif.Props.ReqNames
import Verif.Props.RoundTrip
import Verif.Props.RuleInstance
import Verif.Props.Said
import Verif.Props.SaidDerived
import Verif.Props.SaidTask
import Verif.Props.SameMeaning
import Verif.Props.SameText
import Verif.Props.Sequences
import Verif.Props.Share
import Verif.Props.ShareValue
import Verif.Props.Short
import Verif.Props.Size
import Verif.Props.Steps
import Verif.Props.Swap
import Verif.Props.Symmetry
import Verif.Props.Tags
import Verif.Props.Text
import Verif.Props.TypeRounds
import Verif.Props.TypeSafe
import Verif.Props.TypedList
import Verif.Props.Undeclared
import Verif.Props.UndeclaredProblem
import Verif.Props.Validation
import Verif.Props.WriteBack
import Verif.Props.Written
import Verif.Props.WrittenProblem

#print axioms Pddl.Props.C01_constructors
#print axioms Pddl.Props.C01_idempotent
#print axioms Pddl.Props.C01_name_accepted
#print axioms Pddl.Props.C01_rejected
#print axioms Pddl.Props.C02_exceptions
#print axioms Pddl.Props.C02_function_accepted
#print axioms Pddl.Props.C02_type_accepted
#print axioms Pddl.Props.C03_domain
#print axioms Pddl.Props.C03_expr
#print axioms Pddl.Props.C03_expr_meaning
#print axioms Pddl.Props.C03_others
#print axioms Pddl.Props.C03_problem
#print axioms Pddl.Props.C03_term_meaning
#print axioms Pddl.Props.C03_terms
#print axioms Pddl.Props.C04_expr
#print axioms Pddl.Props.C04_others
#print axioms Pddl.Props.C04_terms
#print axioms Pddl.Props.C05_hash_fresh
#print axioms Pddl.Props.C05_pickle_content
#print axioms Pddl.Props.C06_fails
#print axioms Pddl.Props.C06_predicates
#print axioms Pddl.Props.C06_requirements_fails
#print axioms Pddl.Props.C06_sorted_predicates
#print axioms Pddl.Props.C06_sorted_terms
#print axioms Pddl.Props.C06_terms_partial
#print axioms Pddl.Props.C07_amp
#print axioms Pddl.Props.C07_and
#print axioms Pddl.Props.C07_bar
#print axioms Pddl.Props.C07_eq
#print axioms Pddl.Props.C07_or
#print axioms Pddl.Props.C08_and
#print axioms Pddl.Props.C08_and_canonical
#print axioms Pddl.Props.C08_or
#print axioms Pddl.Props.C08_or_canonical
#print axioms Pddl.Props.C08_same
#print axioms Pddl.Props.C09_divide_fails
#print axioms Pddl.Props.C09_exact
#print axioms Pddl.Props.C09_minus_fails
#print axioms Pddl.Props.C09_minus_nested_fails
#print axioms Pddl.Props.C09_partial
#print axioms Pddl.Props.C09_plus_exact
#print axioms Pddl.Props.C09_plus_fails
#print axioms Pddl.Props.C09_plus_iff
#print axioms Pddl.Props.C09_plus_nested_partial
#print axioms Pddl.Props.C09_split
#print axioms Pddl.Props.C09_times_exact
#print axioms Pddl.Props.C09_times_fails
#print axioms Pddl.Props.C09_times_nested_partial
#print axioms Pddl.Props.C100_domain_partial
#print axioms Pddl.Props.C100_fails
#print axioms Pddl.Props.C100_fails_names
#print axioms Pddl.Props.C100_plan_partial
#print axioms Pddl.Props.C100_problem_partial
#print axioms Pddl.Props.C101_deterministic
#print axioms Pddl.Props.C101_effect_partial
#print axioms Pddl.Props.C101_equal
#print axioms Pddl.Props.C101_exact
#print axioms Pddl.Props.C101_fails
#print axioms Pddl.Props.C102_exact
#print axioms Pddl.Props.C102_fails
#print axioms Pddl.Props.C102_ground_partial
#print axioms Pddl.Props.C103_deterministic
#print axioms Pddl.Props.C103_exact
#print axioms Pddl.Props.C103_fails
#print axioms Pddl.Props.C103_partial
#print axioms Pddl.Props.C103_surely_partial
#print axioms Pddl.Props.C104_best_exact
#print axioms Pddl.Props.C104_best_partial
#print axioms Pddl.Props.C104_exact
#print axioms Pddl.Props.C104_fails
#print axioms Pddl.Props.C104_fails_order
#print axioms Pddl.Props.C104_metric_exact
#print axioms Pddl.Props.C104_metric_partial
#print axioms Pddl.Props.C104_partial
#print axioms Pddl.Props.C105_distinct
#print axioms Pddl.Props.C105_fails
#print axioms Pddl.Props.C105_lookup
#print axioms Pddl.Props.C105_partial
#print axioms Pddl.Props.C105_print
#print axioms Pddl.Props.C105_unknown
#print axioms Pddl.Props.C106_check
#print axioms Pddl.Props.C106_fails
#print axioms Pddl.Props.C106_more_fails
#print axioms Pddl.Props.C106_partial
#print axioms Pddl.Props.C106_types_fails
#print axioms Pddl.Props.C107_blind
#print axioms Pddl.Props.C107_fails
#print axioms Pddl.Props.C107_partial
#print axioms Pddl.Props.C108_keeps
#print axioms Pddl.Props.C108_needed
#print axioms Pddl.Props.C108_safe
#print axioms Pddl.Props.C108_start
#print axioms Pddl.Props.C109_runs
#print axioms Pddl.Props.C109_solves
#print axioms Pddl.Props.C10_invert
#print axioms Pddl.Props.C10_rshift
#print axioms Pddl.Props.C110_accepted
#print axioms Pddl.Props.C110_cycle
#print axioms Pddl.Props.C110_quadratic
#print axioms Pddl.Props.C110_rounds
#print axioms Pddl.Props.C110_unique
#print axioms Pddl.Props.C111_objects
#print axioms Pddl.Props.C111_solves
#print axioms Pddl.Props.C111_texts
#print axioms Pddl.Props.C112_deletions
#print axioms Pddl.Props.C112_easier
#print axioms Pddl.Props.C112_negative
#print axioms Pddl.Props.C112_runs
#print axioms Pddl.Props.C112_solves
#print axioms Pddl.Props.C113_any_order
#print axioms Pddl.Props.C113_names_matter
#print axioms Pddl.Props.C113_order_matters
#print axioms Pddl.Props.C113_reordered
#print axioms Pddl.Props.C114_bound
#print axioms Pddl.Props.C114_numbers_matter
#print axioms Pddl.Props.C114_shorter
#print axioms Pddl.Props.C114_solves
#print axioms Pddl.Props.C115_effect_partial
#print axioms Pddl.Props.C115_fails
#print axioms Pddl.Props.C115_number_fails
#print axioms Pddl.Props.C115_number_partial
#print axioms Pddl.Props.C115_order_fails
#print axioms Pddl.Props.C115_partial
#print axioms Pddl.Props.C115_types_fails
#print axioms Pddl.Props.C116_fails
#print axioms Pddl.Props.C116_partial
#print axioms Pddl.Props.C117_cost_partial
#print axioms Pddl.Props.C117_derived_partial
#print axioms Pddl.Props.C117_fails
#print axioms Pddl.Props.C117_may_fails
#print axioms Pddl.Props.C117_may_partial
#print axioms Pddl.Props.C117_may_text_partial
#print axioms Pddl.Props.C117_partial
#print axioms Pddl.Props.C117_sound_partial
#print axioms Pddl.Props.C117_text_partial
#print axioms Pddl.Props.C118_best_exact
#print axioms Pddl.Props.C118_cost_partial
#print axioms Pddl.Props.C118_exact
#print axioms Pddl.Props.C118_exact_plain
#print axioms Pddl.Props.C118_fails
#print axioms Pddl.Props.C118_may_exact
#print axioms Pddl.Props.C118_partial
#print axioms Pddl.Props.C118_read_partial
#print axioms Pddl.Props.C119_fails
#print axioms Pddl.Props.C119_format
#print axioms Pddl.Props.C119_format_exact
#print axioms Pddl.Props.C119_ground_partial
#print axioms Pddl.Props.C119_partial
#print axioms Pddl.Props.C119_read
#print axioms Pddl.Props.C119_read_exact
#print axioms Pddl.Props.C11_collision_fails
#print axioms Pddl.Props.C11_exact
#print axioms Pddl.Props.C11_partial
#print axioms Pddl.Props.C11_shadow_fails
#print axioms Pddl.Props.C11_tags_fails
#print axioms Pddl.Props.C11_value_exact
#print axioms Pddl.Props.C120_between
#print axioms Pddl.Props.C120_completed
#print axioms Pddl.Props.C120_negative
#print axioms Pddl.Props.C120_runs
#print axioms Pddl.Props.C120_solves
#print axioms Pddl.Props.C120_text
#print axioms Pddl.Props.C121_deletions
#print axioms Pddl.Props.C121_derives
#print axioms Pddl.Props.C121_negative
#print axioms Pddl.Props.C121_runs
#print axioms Pddl.Props.C121_solves
#print axioms Pddl.Props.C121_task
#print axioms Pddl.Props.C12_instantiate_terms
#print axioms Pddl.Props.C13_differ
#print axioms Pddl.Props.C13_exact
#print axioms Pddl.Props.C13_fails
#print axioms Pddl.Props.C13_fails_other
#print axioms Pddl.Props.C13_partial
#print axioms Pddl.Props.C13_partial_typed
#print axioms Pddl.Props.C14_effects_raise
#print axioms Pddl.Props.C14_fails
#print axioms Pddl.Props.C14_partial
#print axioms Pddl.Props.C15_arity
#print axioms Pddl.Props.C15_errors
#print axioms Pddl.Props.C15_exact
#print axioms Pddl.Props.C15_formula
#print axioms Pddl.Props.C15_mapping
#print axioms Pddl.Props.C15_result
#print axioms Pddl.Props.C16_exact
#print axioms Pddl.Props.C16_path
#print axioms Pddl.Props.C16_terminates
#print axioms Pddl.Props.C17_accepted
#print axioms Pddl.Props.C17_rejected
#print axioms Pddl.Props.C17_wellfounded
#print axioms Pddl.Props.C18_action
#print axioms Pddl.Props.C18_collections
#print axioms Pddl.Props.C18_derived
#print axioms Pddl.Props.C18_error
#print axioms Pddl.Props.C18_formula
#print axioms Pddl.Props.C19_closure
#print axioms Pddl.Props.C19_contains
#print axioms Pddl.Props.C19_idempotent
#print axioms Pddl.Props.C19_monotone
#print axioms Pddl.Props.C20_fails
#print axioms Pddl.Props.C20_partial
#print axioms Pddl.Props.C21_contents
#print axioms Pddl.Props.C21_fails
#print axioms Pddl.Props.C21_partial
#print axioms Pddl.Props.C22_domain
#print axioms Pddl.Props.C22_functions
#print axioms Pddl.Props.C22_none
#print axioms Pddl.Props.C23_fails
#print axioms Pddl.Props.C23_never
#print axioms Pddl.Props.C24_literals
#print axioms Pddl.Props.C24_rejected
#print axioms Pddl.Props.C25_check
#print axioms Pddl.Props.C25_error
#print axioms Pddl.Props.C26_accepted
#print axioms Pddl.Props.C26_attributes
#print axioms Pddl.Props.C26_constructed
#print axioms Pddl.Props.C26_fails
#print axioms Pddl.Props.C26_partial
#print axioms Pddl.Props.C27_check
#print axioms Pddl.Props.C27_error
#print axioms Pddl.Props.C28_exact
#print axioms Pddl.Props.C28_fails
#print axioms Pddl.Props.C28_fails_untyped
#print axioms Pddl.Props.C28_partial
#print axioms Pddl.Props.C28_partial_result
#print axioms Pddl.Props.C28_untyped
#print axioms Pddl.Props.C29_roundtrip
#print axioms Pddl.Props.C29_steps
#print axioms Pddl.Props.C30_names
#print axioms Pddl.Props.C30_variables
#print axioms Pddl.Props.C31_names
#print axioms Pddl.Props.C31_variables
#print axioms Pddl.Props.C31_variables_accepted
#print axioms Pddl.Props.C32_atoms
#print axioms Pddl.Props.C32_derived
#print axioms Pddl.Props.C32_derived_undeclared
#print axioms Pddl.Props.C32_meaning
#print axioms Pddl.Props.C32_scope
#print axioms Pddl.Props.C32_succeeds
#print axioms Pddl.Props.C33_accepts_partial
#print axioms Pddl.Props.C33_fails
#print axioms Pddl.Props.C33_partial
#print axioms Pddl.Props.C33_reject_fails
#print axioms Pddl.Props.C33_returns_partial
#print axioms Pddl.Props.C34_equality
#print axioms Pddl.Props.C34_exists
#print axioms Pddl.Props.C34_forall
#print axioms Pddl.Props.C34_imply
#print axioms Pddl.Props.C34_oneof
#print axioms Pddl.Props.C34_or
#print axioms Pddl.Props.C35_after_failure
#print axioms Pddl.Props.C35_any_partial
#print axioms Pddl.Props.C35_fails
#print axioms Pddl.Props.C35_fails_after_failure
#print axioms Pddl.Props.C35_failures_partial
#print axioms Pddl.Props.C35_partial
#print axioms Pddl.Props.C35_problem_fails
#print axioms Pddl.Props.C35_problem_partial
#print axioms Pddl.Props.C35_stale_parameters
#print axioms Pddl.Props.C35_stuck
#print axioms Pddl.Props.C36_exact_partial
#print axioms Pddl.Props.C36_fails
#print axioms Pddl.Props.C36_partial
#print axioms Pddl.Props.C36_result
#print axioms Pddl.Props.C36_success_partial
#print axioms Pddl.Props.C37_every_text
#print axioms Pddl.Props.C37_example_a
#print axioms Pddl.Props.C37_example_b
#print axioms Pddl.Props.C37_layout
#print axioms Pddl.Props.C37_tokens
#print axioms Pddl.Props.C38_action_parameters
#print axioms Pddl.Props.C39_domain_partial
#print axioms Pddl.Props.C39_predicates
#print axioms Pddl.Props.C39_problem_partial
#print axioms Pddl.Props.C39_tags_fails
#print axioms Pddl.Props.C39_variables_fails
#print axioms Pddl.Props.C40_object_fails
#print axioms Pddl.Props.C40_object_only_fails
#print axioms Pddl.Props.C40_partial
#print axioms Pddl.Props.C41_effects_partial
#print axioms Pddl.Props.C41_fails
#print axioms Pddl.Props.C41_full_fails
#print axioms Pddl.Props.C41_order_fails
#print axioms Pddl.Props.C41_partial
#print axioms Pddl.Props.C41_read_partial
#print axioms Pddl.Props.C42_fails
#print axioms Pddl.Props.C42_full_fails
#print axioms Pddl.Props.C42_partial
#print axioms Pddl.Props.C42_read_fails
#print axioms Pddl.Props.C42_read_partial
#print axioms Pddl.Props.C43_domain_fails
#print axioms Pddl.Props.C43_fails
#print axioms Pddl.Props.C43_full_fails
#print axioms Pddl.Props.C43_parser_state
#print axioms Pddl.Props.C43_partial
#print axioms Pddl.Props.C43_read_fails
#print axioms Pddl.Props.C43_read_partial
#print axioms Pddl.Props.C44_equal_to
#print axioms Pddl.Props.C44_function
#print axioms Pddl.Props.C44_predicate
#print axioms Pddl.Props.C45_fails
#print axioms Pddl.Props.C45_indent
#print axioms Pddl.Props.C45_layout
#print axioms Pddl.Props.C45_lines
#print axioms Pddl.Props.C45_no_blank_line
#print axioms Pddl.Props.C45_removeEmptyLines_partial
#print axioms Pddl.Props.C46_effect_partial
#print axioms Pddl.Props.C46_precondition_fails
#print axioms Pddl.Props.C46_precondition_never_holds
#print axioms Pddl.Props.C47_difference_rejected
#print axioms Pddl.Props.C47_division_fails
#print axioms Pddl.Props.C47_exact
#print axioms Pddl.Props.C47_fails
#print axioms Pddl.Props.C47_partial
#print axioms Pddl.Props.C48_fails
#print axioms Pddl.Props.C48_never
#print axioms Pddl.Props.C48_partial
#print axioms Pddl.Props.C49_fails
#print axioms Pddl.Props.C49_never
#print axioms Pddl.Props.C49_partial
#print axioms Pddl.Props.C49_types
#print axioms Pddl.Props.C50_quiet
#print axioms Pddl.Props.C50_stages
#print axioms Pddl.Props.C50_success
#print axioms Pddl.Props.C51_duplicate_tags
#print axioms Pddl.Props.C51_set_tags
#print axioms Pddl.Props.C52_fails
#print axioms Pddl.Props.C52_interleaved_partial
#print axioms Pddl.Props.C52_partial
#print axioms Pddl.Props.C53_condition
#print axioms Pddl.Props.C53_exact
#print axioms Pddl.Props.C53_goal
#print axioms Pddl.Props.C53_goal_exact
#print axioms Pddl.Props.C53_precondition
#print axioms Pddl.Props.C54_arithmetic
#print axioms Pddl.Props.C54_effect
#print axioms Pddl.Props.C54_exact
#print axioms Pddl.Props.C55_accepted_domain
#print axioms Pddl.Props.C55_accepted_partial
#print axioms Pddl.Props.C55_accepted_plan
#print axioms Pddl.Props.C55_accepted_problem
#print axioms Pddl.Props.C55_derivable_partial
#print axioms Pddl.Props.C55_fails
#print axioms Pddl.Props.C55_fails_function
#print axioms Pddl.Props.C55_fails_metric
#print axioms Pddl.Props.C56_domain_partial
#print axioms Pddl.Props.C56_fails
#print axioms Pddl.Props.C56_fails_functions
#print axioms Pddl.Props.C56_fails_loop
#print axioms Pddl.Props.C56_fails_runtime
#print axioms Pddl.Props.C56_fails_value
#print axioms Pddl.Props.C56_plan
#print axioms Pddl.Props.C56_problem_partial
#print axioms Pddl.Props.C56_reached_domain
#print axioms Pddl.Props.C56_reached_plan
#print axioms Pddl.Props.C56_reached_problem
#print axioms Pddl.Props.C57_fails
#print axioms Pddl.Props.C57_partial
#print axioms Pddl.Props.C58_exact
#print axioms Pddl.Props.C58_fails
#print axioms Pddl.Props.C58_fails_types
#print axioms Pddl.Props.C58_parser
#print axioms Pddl.Props.C58_partial
#print axioms Pddl.Props.C58_typed_parser
#print axioms Pddl.Props.C59_steps
#print axioms Pddl.Props.C60_atoms
#print axioms Pddl.Props.C60_comparable
#print axioms Pddl.Props.C60_derived_fails
#print axioms Pddl.Props.C60_derived_fails_self
#print axioms Pddl.Props.C60_derived_partial
#print axioms Pddl.Props.C60_fails
#print axioms Pddl.Props.C60_fails_kinds
#print axioms Pddl.Props.C60_fails_sets
#print axioms Pddl.Props.C60_partial
#print axioms Pddl.Props.C60_raises
#print axioms Pddl.Props.C60_total_partial
#print axioms Pddl.Props.C61_cli
#print axioms Pddl.Props.C61_constructed
#print axioms Pddl.Props.C61_cycle
#print axioms Pddl.Props.C61_parsed
#print axioms Pddl.Props.C62_denotes
#print axioms Pddl.Props.C62_fails
#print axioms Pddl.Props.C62_partial
#print axioms Pddl.Props.C63_accepts
#print axioms Pddl.Props.C63_constants
#print axioms Pddl.Props.C63_variables
#print axioms Pddl.Props.C64_construct
#print axioms Pddl.Props.C64_text
#print axioms Pddl.Props.C65_accepted
#print axioms Pddl.Props.C65_contents
#print axioms Pddl.Props.C65_error
#print axioms Pddl.Props.C66_exact
#print axioms Pddl.Props.C66_fails
#print axioms Pddl.Props.C66_ground_partial
#print axioms Pddl.Props.C66_partial
#print axioms Pddl.Props.C66_result
#print axioms Pddl.Props.C67_errors
#print axioms Pddl.Props.C67_function
#print axioms Pddl.Props.C67_function_instance
#print axioms Pddl.Props.C67_instance
#print axioms Pddl.Props.C67_predicate
#print axioms Pddl.Props.C67_self
#print axioms Pddl.Props.C68_default
#print axioms Pddl.Props.C68_metric
#print axioms Pddl.Props.C69_action
#print axioms Pddl.Props.C69_domain
#print axioms Pddl.Props.C69_formula
#print axioms Pddl.Props.C69_problem
#print axioms Pddl.Props.C70_domain_partial
#print axioms Pddl.Props.C70_domain_result
#print axioms Pddl.Props.C70_fails
#print axioms Pddl.Props.C70_problem_partial
#print axioms Pddl.Props.C70_problem_result
#print axioms Pddl.Props.C71_accepted
#print axioms Pddl.Props.C71_fails
#print axioms Pddl.Props.C71_fails_heads
#print axioms Pddl.Props.C71_interleaved_partial
#print axioms Pddl.Props.C71_partial
#print axioms Pddl.Props.C72_accepted
#print axioms Pddl.Props.C72_equal
#print axioms Pddl.Props.C73_action
#print axioms Pddl.Props.C73_derived
#print axioms Pddl.Props.C73_fails
#print axioms Pddl.Props.C73_formula
#print axioms Pddl.Props.C73_parsed
#print axioms Pddl.Props.C73_partial
#print axioms Pddl.Props.C74_binds
#print axioms Pddl.Props.C74_empty_fails
#print axioms Pddl.Props.C74_exact
#print axioms Pddl.Props.C74_fails
#print axioms Pddl.Props.C74_operands
#print axioms Pddl.Props.C74_operands_fails
#print axioms Pddl.Props.C74_operands_plain
#print axioms Pddl.Props.C74_partial
#print axioms Pddl.Props.C74_plan
#print axioms Pddl.Props.C75_arity_fails
#print axioms Pddl.Props.C75_constants
#print axioms Pddl.Props.C75_fails
#print axioms Pddl.Props.C75_function_fails
#print axioms Pddl.Props.C75_ground
#print axioms Pddl.Props.C75_partial
#print axioms Pddl.Props.C75_used_fails
#print axioms Pddl.Props.C75_variable_fails
#print axioms Pddl.Props.C76_cli_partial
#print axioms Pddl.Props.C76_fails
#print axioms Pddl.Props.C76_full_fails
#print axioms Pddl.Props.C76_order_fails
#print axioms Pddl.Props.C76_partial
#print axioms Pddl.Props.C76_problem_fails
#print axioms Pddl.Props.C76_problem_partial
#print axioms Pddl.Props.C76_problem_read_partial
#print axioms Pddl.Props.C76_read_partial
#print axioms Pddl.Props.C77_actions_partial
#print axioms Pddl.Props.C77_atoms
#print axioms Pddl.Props.C77_constants_fails
#print axioms Pddl.Props.C77_domains_partial
#print axioms Pddl.Props.C77_fails
#print axioms Pddl.Props.C77_full_fails
#print axioms Pddl.Props.C77_functions
#print axioms Pddl.Props.C77_partial
#print axioms Pddl.Props.C77_plans
#print axioms Pddl.Props.C77_problems_partial
#print axioms Pddl.Props.C77_terms
#print axioms Pddl.Props.C78_domains_fails
#print axioms Pddl.Props.C78_domains_partial
#print axioms Pddl.Props.C78_effects_partial
#print axioms Pddl.Props.C78_fails
#print axioms Pddl.Props.C78_full_fails
#print axioms Pddl.Props.C78_partial
#print axioms Pddl.Props.C78_plans
#print axioms Pddl.Props.C78_problems_partial
#print axioms Pddl.Props.C78_texts_partial
#print axioms Pddl.Props.C79_accepted
#print axioms Pddl.Props.C80_names
#print axioms Pddl.Props.C80_no_or
#print axioms Pddl.Props.C80_plan
#print axioms Pddl.Props.C80_problem
#print axioms Pddl.Props.C80_used
#print axioms Pddl.Props.C81_exact
#print axioms Pddl.Props.C81_exact_plain
#print axioms Pddl.Props.C81_fails
#print axioms Pddl.Props.C81_noArithmetic
#print axioms Pddl.Props.C81_partial
#print axioms Pddl.Props.C81_runs
#print axioms Pddl.Props.C82_replace
#print axioms Pddl.Props.C83_domain_partial
#print axioms Pddl.Props.C83_fails
#print axioms Pddl.Props.C83_local_partial
#print axioms Pddl.Props.C83_local_plan
#print axioms Pddl.Props.C83_plan
#print axioms Pddl.Props.C83_problem_partial
#print axioms Pddl.Props.C83_use
#print axioms Pddl.Props.C84_plan
#print axioms Pddl.Props.C84_problem
#print axioms Pddl.Props.C84_text
#print axioms Pddl.Props.C85_assign
#print axioms Pddl.Props.C85_consistent_partial
#print axioms Pddl.Props.C85_domain_partial
#print axioms Pddl.Props.C85_domain_read
#print axioms Pddl.Props.C85_domain_stays
#print axioms Pddl.Props.C85_domain_value
#print axioms Pddl.Props.C85_fails_functions
#print axioms Pddl.Props.C85_fails_plan
#print axioms Pddl.Props.C85_fails_requirements
#print axioms Pddl.Props.C85_fails_types
#print axioms Pddl.Props.C85_functions_partial
#print axioms Pddl.Props.C85_parsed_domain_value
#print axioms Pddl.Props.C85_parsed_plan_partial
#print axioms Pddl.Props.C85_parsed_problem_value
#print axioms Pddl.Props.C85_plan
#print axioms Pddl.Props.C85_problem_partial
#print axioms Pddl.Props.C85_problem_read
#print axioms Pddl.Props.C85_problem_stays
#print axioms Pddl.Props.C85_problem_value
#print axioms Pddl.Props.C85_step
#print axioms Pddl.Props.C86_exponential
#print axioms Pddl.Props.C86_fails
#print axioms Pddl.Props.C86_hierarchy
#print axioms Pddl.Props.C86_partial
#print axioms Pddl.Props.C86_quadratic
#print axioms Pddl.Props.C87_check
#print axioms Pddl.Props.C87_fails
#print axioms Pddl.Props.C87_fails_types
#print axioms Pddl.Props.C87_inst
#print axioms Pddl.Props.C87_metric
#print axioms Pddl.Props.C87_partial
#print axioms Pddl.Props.C87_partial_typed
#print axioms Pddl.Props.C87_solves
#print axioms Pddl.Props.C88_cli
#print axioms Pddl.Props.C88_fails
#print axioms Pddl.Props.C88_newlines
#print axioms Pddl.Props.C88_no_cr
#print axioms Pddl.Props.C88_partial
#print axioms Pddl.Props.C88_unreadable
#print axioms Pddl.Props.C89_ensure
#print axioms Pddl.Props.C89_fails
#print axioms Pddl.Props.C89_find
#print axioms Pddl.Props.C89_get_partial
#print axioms Pddl.Props.C89_index
#print axioms Pddl.Props.C89_partial
#print axioms Pddl.Props.C90_fails
#print axioms Pddl.Props.C90_fails_names
#print axioms Pddl.Props.C90_partial
#print axioms Pddl.Props.C91_actions_partial
#print axioms Pddl.Props.C91_derived_partial
#print axioms Pddl.Props.C91_effects_partial
#print axioms Pddl.Props.C91_fails
#print axioms Pddl.Props.C91_fails_actions
#print axioms Pddl.Props.C91_fails_derived
#print axioms Pddl.Props.C91_fails_numbers
#print axioms Pddl.Props.C91_fails_types
#print axioms Pddl.Props.C91_metrics_partial
#print axioms Pddl.Props.C91_partial
#print axioms Pddl.Props.C92_exact
#print axioms Pddl.Props.C92_exact_plain
#print axioms Pddl.Props.C92_fails
#print axioms Pddl.Props.C92_fails_reused
#print axioms Pddl.Props.C92_none
#print axioms Pddl.Props.C92_partial
#print axioms Pddl.Props.C92_runs_none
#print axioms Pddl.Props.C92_solves
#print axioms Pddl.Props.C93_check
#print axioms Pddl.Props.C93_plan
#print axioms Pddl.Props.C93_text
#print axioms Pddl.Props.C94_action
#print axioms Pddl.Props.C94_derived
#print axioms Pddl.Props.C94_domain
#print axioms Pddl.Props.C94_domain_depth
#print axioms Pddl.Props.C94_instance
#print axioms Pddl.Props.C94_plan
#print axioms Pddl.Props.C94_plan_actions
#print axioms Pddl.Props.C94_problem
#print axioms Pddl.Props.C95_domain_partial
#print axioms Pddl.Props.C95_fails
#print axioms Pddl.Props.C95_fails_derived
#print axioms Pddl.Props.C95_plan_partial
#print axioms Pddl.Props.C95_solves_partial
#print axioms Pddl.Props.C96_accepted
#print axioms Pddl.Props.C96_check
#print axioms Pddl.Props.C96_instantiate
#print axioms Pddl.Props.C96_runs
#print axioms Pddl.Props.C96_solves
#print axioms Pddl.Props.C96_str
#print axioms Pddl.Props.C96_text
#print axioms Pddl.Props.C96_text_last
#print axioms Pddl.Props.C97_frame
#print axioms Pddl.Props.C97_goal
#print axioms Pddl.Props.C97_static
#print axioms Pddl.Props.C98_runs
#print axioms Pddl.Props.C98_solves
#print axioms Pddl.Props.C99_check
#print axioms Pddl.Props.C99_reordered
