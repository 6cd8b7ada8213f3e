{
 "claims": [
  {
   "property": "C01",
   "status": "partial",
   "theorems": [
    "Lpx.Props.C01_active_constraints_hold_partial",
    "Lpx.Props.C01_propagate_partial",
    "Lpx.Props.C01_objective_value",
    "Lpx.Props.C01_watched",
    "Lpx.Props.C01_violation"
   ],
   "note": "Holds for every history in which each undo so far left the right limits (Intact; implied by the condition SafeEqs on the literals propagated, C06_harmless_equations_partial); C01_violation refutes the unrestricted statement on the code's own behaviour."
  },
  {
   "property": "C02",
   "status": "partial",
   "theorems": [
    "Lpx.Props.C02_clauses_exclude_no_model_partial",
    "Lpx.Props.C02_no_cuts_partial",
    "Lpx.Props.C02_exactly_partial",
    "Lpx.Props.C02_unmixed_exactly",
    "Lpx.Props.C02_violation"
   ],
   "note": "Holds under Intact; unrestricted statement refuted by C02_violation. C02_exactly_partial covers programs with arbitrary constraints without variables, as decided by the code (Finding 2)."
  },
  {
   "property": "C03",
   "status": "partial",
   "theorems": [
    "Lpx.Props.C03_conflict_clause_false_partial",
    "Lpx.Props.C03_violation"
   ],
   "note": "Under Intact; unrestricted refuted."
  },
  {
   "property": "C04",
   "status": "proved",
   "theorems": [
    "Lpx.Props.C04_propagate_terminates",
    "Lpx.Props.C04_pivots"
   ],
   "note": "For every reachable state and all literals, also after the corruption of Finding 1 (after an operation with undefined behaviour the model continues with an arbitrary value). With an explicit bound: at most 12^n pivots, n = number of variables plus number of constraints with at least two variables (plus 2 for an objective)."
  },
  {
   "property": "C05",
   "status": "partial",
   "theorems": [
    "Lpx.Props.C05_verdict_partial",
    "Lpx.Props.C05_verdict_iff_partial",
    "Lpx.Props.C05_exactly_partial",
    "Lpx.Props.C05_exactly_iff_partial",
    "Lpx.Props.C05_unmixed_exactly",
    "Lpx.Props.C05_history_irrelevant_partial",
    "Lpx.Props.C05_accepts_unsatisfiable_violation",
    "Lpx.Props.C05_rejects_satisfiable_violation"
   ],
   "note": "Under Intact; unrestricted refuted both ways. C05_exactly_*: for all options and cuts, also those with an epsilon part."
  },
  {
   "property": "C06",
   "status": "partial",
   "theorems": [
    "Lpx.Props.C06_limits_partial",
    "Lpx.Props.C06_all_variables_partial",
    "Lpx.Props.C06_history_irrelevant_partial",
    "Lpx.Props.C06_backtracking_restores_limits_partial",
    "Lpx.Props.C06_restored_iff",
    "Lpx.Props.C06_harmless_equations_partial",
    "Lpx.Props.C06_violation",
    "Lpx.Props.C06_other_variable_violation"
   ],
   "note": "Holds under SafeEqs; unrestricted statement refuted by the two violation theorems. C06_restored_iff: for a level entered with a single-variable equation, leaving it restores all limits if and only if the equation is harmless, so the restriction is exact."
  },
  {
   "property": "C07",
   "status": "partial",
   "theorems": [
    "Lpx.Props.C07_undo_restores_solution_partial",
    "Lpx.Props.C07_violation"
   ],
   "note": "Under Intact before the call: the assignment is right even if this undo loses limits; unrestricted refuted."
  },
  {
   "property": "C08",
   "status": "partial",
   "theorems": [
    "Lpx.Props.C08_check_keeps_feasible_partial",
    "Lpx.Props.C08_violation"
   ],
   "note": "Under Intact; unrestricted refuted."
  },
  {
   "property": "C09",
   "status": "partial",
   "theorems": [
    "Lpx.Props.C09_bounded_is_optimal_partial",
    "Lpx.Props.C09_violation"
   ],
   "note": "Under Intact; unrestricted refuted."
  },
  {
   "property": "C10",
   "status": "partial",
   "theorems": [
    "Lpx.Props.C10_unbounded_partial",
    "Lpx.Props.C10_violation"
   ],
   "note": "Under Intact; unrestricted refuted."
  },
  {
   "property": "C11",
   "status": "partial",
   "theorems": [
    "Lpx.Props.C11_check_terminates_partial",
    "Lpx.Props.C11_check_without_optimize_terminates_partial",
    "Lpx.Props.C11_pivots_partial",
    "Lpx.Props.C11_violation"
   ],
   "note": "C11_violation: the unrestricted statement is false (Finding 1: optimize started from values violating corrupted limits repeats six pivots forever). Proved under Intact, and for arbitrary histories when the assignment is not total or there is no objective; with an explicit bound on the number of pivots (C11_pivots_partial)."
  },
  {
   "property": "C12",
   "status": "partial",
   "theorems": [
    "Lpx.Props.C12_propagated_clauses_partial",
    "Lpx.Props.C12_violation"
   ],
   "note": "Under Intact; unrestricted refuted."
  },
  {
   "property": "C13",
   "status": "proved",
   "theorems": [
    "Lpx.Props.C13_clauses",
    "Lpx.Props.C13_complete",
    "Lpx.Props.C13_other_threads"
   ],
   "note": ""
  },
  {
   "property": "C14",
   "status": "proved",
   "theorems": [
    "Lpx.Props.C14_pivot_preserves_solutions",
    "Lpx.Props.C14_pivot_exact"
   ],
   "note": ""
  },
  {
   "property": "C15",
   "status": "proved",
   "theorems": [
    "Lpx.Props.C15_get_is_matrix",
    "Lpx.Props.C15_size",
    "Lpx.Props.C15_empty"
   ],
   "note": ""
  },
  {
   "property": "C16",
   "status": "proved",
   "theorems": [
    "Lpx.Props.C16_column_iteration",
    "Lpx.Props.C16_row_iteration"
   ],
   "note": ""
  },
  {
   "property": "C17",
   "status": "proved",
   "theorems": [
    "Lpx.Props.C17_lexicographic",
    "Lpx.Props.C17_total_order",
    "Lpx.Props.C17_ordered_vector_space",
    "Lpx.Props.C17_mixed"
   ],
   "note": ""
  },
  {
   "property": "C18",
   "status": "proved",
   "theorems": [
    "Lpx.Props.C18_bounds",
    "Lpx.Props.C18_small_epsilon",
    "Lpx.Props.C18_strict_exact"
   ],
   "note": ""
  },
  {
   "property": "C19",
   "status": "proved",
   "theorems": [
    "Lpx.Props.C19_division",
    "Lpx.Props.C19_bounds_equivalent"
   ],
   "note": ""
  },
  {
   "property": "C20",
   "status": "partial",
   "theorems": [
    "Lpx.Props.C20_false_constants_partial",
    "Lpx.Props.C20_only_false_constants_partial",
    "Lpx.Props.C20_sides_swapped",
    "Lpx.Props.C20_false_constant_accepted_violation",
    "Lpx.Props.C20_true_constant_rejected_violation"
   ],
   "note": "The code inverts the tests; refuted in general, proved for equations and comparisons with zero. C20_sides_swapped says exactly what is decided for every constraint without variables: the relation with its sides swapped."
  },
  {
   "property": "C21",
   "status": "proved",
   "theorems": [
    "Lpx.Props.C21_linear_terms_denote_their_value"
   ],
   "note": ""
  },
  {
   "property": "C22",
   "status": "proved",
   "theorems": [
    "Lpx.Props.C22_accepted_iff_linear",
    "Lpx.Props.C22_product_rejected",
    "Lpx.Props.C22_quotient_rejected",
    "Lpx.Props.C22_programs"
   ],
   "note": ""
  },
  {
   "property": "C23",
   "status": "proved",
   "theorems": [
    "Lpx.Props.C23_simplify"
   ],
   "note": ""
  },
  {
   "property": "C24",
   "status": "proved",
   "theorems": [
    "Lpx.Props.C24_atoms_mean_what_they_say"
   ],
   "note": ""
  },
  {
   "property": "C25",
   "status": "partial",
   "theorems": [
    "Lpx.Props.C25_exact",
    "Lpx.Props.C25_exact_solutions",
    "Lpx.Props.C25_no_solution_lost",
    "Lpx.Props.C25_constant_one",
    "Lpx.Props.C25_conditional_elements_partial",
    "Lpx.Props.C25_solutions_partial",
    "Lpx.Props.C25_auxiliary_unique",
    "Lpx.Props.C25_conditional_constants_violation"
   ],
   "note": "The exact meaning of the generated constraints is proved for all programs: constants in conditional elements are multiplied by a free factor. Hence refuted for non-zero constants; proved as stated if the constant parts of conditional elements are zero; no solution is lost in any program."
  },
  {
   "property": "C26",
   "status": "partial",
   "theorems": [
    "Lpx.Props.C26_objective_partial",
    "Lpx.Props.C26_no_constant_partial",
    "Lpx.Props.C26_conditional_constants_violation"
   ],
   "note": "Refuted for &maximize{ 3 : a } (Finding 3); C25_exact_solutions gives the value of the objective for all programs."
  },
  {
   "property": "C27",
   "status": "proved",
   "theorems": [
    "Lpx.Props.C27_decimal_strings",
    "Lpx.Props.C27_strings_in_terms"
   ],
   "note": ""
  },
  {
   "property": "C28",
   "status": "proved",
   "theorems": [
    "Lpx.Props.C28_shared_is_best",
    "Lpx.Props.C28_best_unique",
    "Lpx.Props.C28_monotone",
    "Lpx.Props.C28_reader_told",
    "Lpx.Props.C28_first_read",
    "Lpx.Props.C28_reported"
   ],
   "note": ""
  },
  {
   "property": "C29",
   "status": "partial",
   "theorems": [
    "Lpx.Props.C29_cut_values",
    "Lpx.Props.C29_cuts_enforced_partial",
    "Lpx.Props.C29_violation"
   ],
   "note": "The origin of cut values is proved for arbitrary histories; enforcement under Intact."
  },
  {
   "property": "C30",
   "status": "proved",
   "theorems": [
    "Lpx.Props.C30_only_sign",
    "Lpx.Props.C30_none",
    "Lpx.Props.C30_match",
    "Lpx.Props.C30_match_strict",
    "Lpx.Props.C30_conflict",
    "Lpx.Props.C30_conflict_strict"
   ],
   "note": "For non-strict constraints an exact characterisation of the sign chosen; for strict ones the implication that holds (values and bounds are Q-rationals). Arbitrary histories."
  },
  {
   "property": "C31",
   "status": "proved",
   "theorems": [
    "Lpx.Props.C31_lookup_inverse",
    "Lpx.Props.C31_lookup_injective",
    "Lpx.Props.C31_lookup_exactly_variables"
   ],
   "note": ""
  },
  {
   "property": "C32",
   "status": "proved",
   "theorems": [
    "Lpx.Props.C32_increasing",
    "Lpx.Props.C32_iteration",
    "Lpx.Props.C32_has_value",
    "Lpx.Props.C32_hidden",
    "Lpx.Props.C32_model"
   ],
   "note": ""
  },
  {
   "property": "C33",
   "status": "proved",
   "theorems": [
    "Lpx.Props.C33_indices_stable"
   ],
   "note": ""
  },
  {
   "property": "C34",
   "status": "proved",
   "theorems": [
    "Lpx.Props.C34_facts_asserted",
    "Lpx.Props.C34_facts_stay",
    "Lpx.Props.C34_check_mode"
   ],
   "note": ""
  },
  {
   "property": "C35",
   "status": "partial",
   "theorems": [
    "Lpx.Props.C35_configure_partial",
    "Lpx.Props.C35_rejected_unchanged",
    "Lpx.Props.C35_objective_violation",
    "Lpx.Props.C35_propagate_bounds_violation"
   ],
   "note": "The keys objective and propagate-bounds are mis-wired in the code (refuted); all other keys proved."
  },
  {
   "property": "C36",
   "status": "proved",
   "theorems": [
    "Lpx.Props.C36_bool",
    "Lpx.Props.C36_select",
    "Lpx.Props.C36_propagate",
    "Lpx.Props.C36_store",
    "Lpx.Props.C36_objective",
    "Lpx.Props.C36_objective_rejected",
    "Lpx.Props.C36_command_line"
   ],
   "note": ""
  },
  {
   "property": "C37",
   "status": "proved",
   "theorems": [
    "Lpx.Props.C37_validate",
    "Lpx.Props.C37_step_converts"
   ],
   "note": ""
  },
  {
   "property": "C38",
   "status": "partial",
   "theorems": [
    "Lpx.Props.C38_accumulated",
    "Lpx.Props.C38_step_partial",
    "Lpx.Props.C38_step_is_last_thread",
    "Lpx.Props.C38_violation",
    "Lpx.Props.C38_starts_at_zero",
    "Lpx.Props.C38_propagate_counts",
    "Lpx.Props.C38_check_counts",
    "Lpx.Props.C38_counted",
    "Lpx.Props.C38_bounds_propagated"
   ],
   "note": "Accumulated statistics are proved in full, including what is counted; the step statistics are those of the last thread (Finding 5), so exact for one thread."
  },
  {
   "property": "C39",
   "status": "partial",
   "theorems": [
    "Lpx.Props.C39_no_undefined_behaviour_partial",
    "Lpx.Props.C39_violation"
   ],
   "note": "Under Intact; unrestricted refuted."
  },
  {
   "property": "C40",
   "status": "proved",
   "theorems": [
    "Lpx.Props.C40_safe_cast"
   ],
   "note": ""
  },
  {
   "property": "C41",
   "status": "proved",
   "theorems": [
    "Lpx.Props.C41_print_rational",
    "Lpx.Props.C41_print_epsilon",
    "Lpx.Props.C41_rational_text",
    "Lpx.Props.C41_epsilon_text"
   ],
   "note": "The text of every value in both numeric modes, against a specification by reading it; printing is injective."
  },
  {
   "property": "C42",
   "status": "partial",
   "theorems": [
    "Lpx.Props.C42_threads_partial",
    "Lpx.Props.C42_isolated",
    "Lpx.Props.C42_overlapping_partial",
    "Lpx.Props.C42_violation"
   ],
   "note": "C42_isolated is unconditional; C42_threads_partial is under Intact."
  },
  {
   "property": "C43",
   "status": "partial",
   "theorems": [
    "Lpx.Props.C43_division_by_zero_not_accepted",
    "Lpx.Props.C43_division_by_zero_rejected_partial",
    "Lpx.Props.C43_programs",
    "Lpx.Props.C43_flint_aborts_only_at_division_by_zero",
    "Lpx.Props.C43_flint_violation"
   ],
   "note": "With FLINT, nested divisions by zero abort the process (refuted, Finding 6), and nothing else does; with IMath every division by zero is an exception."
  },
  {
   "property": "C44",
   "status": "partial",
   "theorems": [
    "Lpx.Props.C44_models_satisfy_the_constraints_partial",
    "Lpx.Props.C44_models_satisfy_the_program_partial",
    "Lpx.Props.C44_no_model_lost_partial",
    "Lpx.Props.C44_consistent_accepted_partial",
    "Lpx.Props.C44_bound_partial",
    "Lpx.Props.C44_optimal_partial",
    "Lpx.Props.C44_unbounded_partial",
    "Lpx.Props.C44_violation"
   ],
   "note": "Under Intact and where C20 holds. No solution is excluded and reported bounds are bounds for arbitrary conditional elements; soundness with respect to the atoms as written needs conditional elements without constants (C25)."
  },
  {
   "property": "C45",
   "status": "proved",
   "theorems": [
    "Lpx.Props.C45_assignments",
    "Lpx.Props.C45_clauses",
    "Lpx.Props.C45_verdict",
    "Lpx.Props.C45_backtracking",
    "Lpx.Props.C45_optimal",
    "Lpx.Props.C45_unbounded",
    "Lpx.Props.C45_terminates",
    "Lpx.Props.C45_defined",
    "Lpx.Props.C45_plain_programs",
    "Lpx.Props.C45_models_satisfy_the_program",
    "Lpx.Props.C45_no_model_lost",
    "Lpx.Props.C45_optimal_for_the_program",
    "Lpx.Props.C45_unbounded_for_the_program"
   ],
   "note": "Arbitrary histories; the condition is on the program only. Clauses and models: constraints without variables compare with zero (C20)."
  },
  {
   "property": "C46",
   "status": "partial",
   "theorems": [
    "Lpx.Props.C46_improves_partial",
    "Lpx.Props.C46_unbounded_kept_partial",
    "Lpx.Props.C46_better_not_lost_partial",
    "Lpx.Props.C46_unbounded_not_lost_partial",
    "Lpx.Props.C46_exhausted_partial",
    "Lpx.Props.C46_unmixed_improves",
    "Lpx.Props.C46_unmixed_not_lost",
    "Lpx.Props.C46_violation"
   ],
   "note": "Under Intact; the unmixed versions hold for arbitrary histories of programs without mixed equations. Not lost: constraints without variables compare with zero (C20)."
  },
  {
   "property": "C47",
   "status": "partial",
   "theorems": [
    "Lpx.Props.C47_optimum_unique_partial",
    "Lpx.Props.C47_unmixed_optimum_unique",
    "Lpx.Props.C47_violation"
   ],
   "note": "Under Intact; the unmixed version holds for arbitrary histories of programs without mixed equations."
  },
  {
   "property": "C48",
   "status": "partial",
   "theorems": [
    "Lpx.Props.C48_strict_mode_verdict_partial",
    "Lpx.Props.C48_strict_mode_optimum_partial",
    "Lpx.Props.C48_unmixed_strict_mode",
    "Lpx.Props.C48_violation"
   ],
   "note": "Under Intact; the unmixed version holds for arbitrary histories of programs without mixed equations."
  },
  {
   "property": "C49",
   "status": "proved",
   "theorems": [
    "Lpx.Props.C49_admitted_atoms_are_read",
    "Lpx.Props.C49_guards",
    "Lpx.Props.C49_supported",
    "Lpx.Props.C49_supported_strict",
    "Lpx.Props.C49_models_satisfy_the_program",
    "Lpx.Props.C49_places"
   ],
   "note": "Clingo's check of atoms against the definition is part of the model of the environment. The end-to-end theorem is for plain programs (C45), arbitrary histories."
  },
  {
   "property": "C50",
   "status": "proved",
   "theorems": [
    "Lpx.Props.C50_sum_terms",
    "Lpx.Props.C50_dom_terms"
   ],
   "note": "Clingo's operator precedence parser is modelled as part of the environment; the tables are those of the code."
  },
  {
   "property": "C51",
   "status": "proved",
   "theorems": [
    "Lpx.Props.C51_output",
    "Lpx.Props.mem_userVars"
   ],
   "note": "Arbitrary histories."
  },
  {
   "property": "C52",
   "status": "partial",
   "theorems": [
    "Lpx.Props.C52_assertions_hold",
    "Lpx.Props.C52_init_assertions_hold",
    "Lpx.Props.C52_init_admitted",
    "Lpx.Props.C52_init_strict",
    "Lpx.Props.C52_crosschecks_hold_partial",
    "Lpx.Props.C52_undo_crosscheck_partial",
    "Lpx.Props.C52_crosschecks_hold_unmixed",
    "Lpx.Props.C52_crosscheck_violation",
    "Lpx.Props.C52_crosscheck_build_partial",
    "Lpx.Props.C52_crosscheck_build_unmixed",
    "Lpx.Props.C52_crosscheck_aborts"
   ],
   "note": "Assertions of a debug build: proved for arbitrary histories (see also C71). Crosschecks: proved under Intact (propagate, check) and SafeEqs (undo) and for unmixed programs; C52_crosscheck_violation and C52_crosscheck_aborts refute the unrestricted statement (Finding 1)."
  },
  {
   "property": "C53",
   "status": "proved",
   "theorems": [
    "Lpx.Props.C53_propagate",
    "Lpx.Props.C53_check",
    "Lpx.Props.C53_init"
   ],
   "note": "For arbitrary states, no invariant is needed."
  },
  {
   "property": "C54",
   "status": "proved",
   "theorems": [
    "Lpx.Props.C54_overlapping_callbacks",
    "Lpx.Props.C54_quiescent",
    "Lpx.Props.C54_intact_histories",
    "Lpx.Props.C54_safe_histories",
    "Lpx.Props.C54_atomic_runs"
   ],
   "note": "Simulation in both directions."
  },
  {
   "property": "C55",
   "status": "partial",
   "theorems": [
    "Lpx.Props.C55_no_dangling_pointer_partial",
    "Lpx.Props.C55_violation"
   ],
   "note": "The full statement is false of the code (race on facts_); proved for one thread or without facts of earlier steps."
  },
  {
   "property": "C56",
   "status": "proved",
   "theorems": [
    "Lpx.Props.C56_accepted_is_wellformed",
    "Lpx.Props.C56_wellformed_is_accepted",
    "Lpx.Props.C56_accepted_iff",
    "Lpx.Props.condDiff_not_wellFormed"
   ],
   "note": ""
  },
  {
   "property": "C57",
   "status": "proved",
   "theorems": [
    "Lpx.Props.C57_string_variables",
    "Lpx.Props.C57_different_strings"
   ],
   "note": "quote is gringo's escaping of strings (environment)."
  },
  {
   "property": "C58",
   "status": "partial",
   "theorems": [
    "Lpx.Props.C58_imath_integers",
    "Lpx.Props.C58_imath_rationals",
    "Lpx.Props.C58_imath_compare",
    "Lpx.Props.C58_flint_integers",
    "Lpx.Props.C58_flint_rationals",
    "Lpx.Props.C58_flint_compare_partial",
    "Lpx.Props.C58_flint_compare_violation"
   ],
   "note": "Complete for IMath. For FLINT everything but the order comparisons of two Integers, which are wrong for large numbers (refuted by C58_flint_compare_violation)."
  },
  {
   "property": "C59",
   "status": "proved",
   "theorems": [
    "Lpx.Props.C59_programs",
    "Lpx.Props.C59_init",
    "Lpx.Props.C59_left",
    "Lpx.Props.C59_sessions",
    "Lpx.Props.C59_sessions_back"
   ],
   "note": ""
  },
  {
   "property": "C60",
   "status": "proved",
   "theorems": [
    "Lpx.Props.C60_symbols",
    "Lpx.Props.C60_output"
   ],
   "note": "clingo's printing of symbols is trusted library behaviour and modelled by showSym."
  },
  {
   "property": "C61",
   "status": "proved",
   "theorems": [
    "Lpx.Props.C61_settings",
    "Lpx.Props.C61_registered",
    "Lpx.Props.C61_unregistered",
    "Lpx.Props.C61_answers",
    "Lpx.Props.C61_defined_iff",
    "Lpx.Props.C61_decisions"
   ],
   "note": "C61_defined_iff: the calls of Finding 4 are undefined behaviour, all other sequences are covered."
  },
  {
   "property": "C62",
   "status": "partial",
   "theorems": [
    "Lpx.Props.C62_messages_partial",
    "Lpx.Props.C62_violation"
   ],
   "note": "False for the key store, whose message names select (refuted); proved for all other keys."
  },
  {
   "property": "C63",
   "status": "proved",
   "theorems": [
    "Lpx.Props.C63_python_output",
    "Lpx.Props.C63_raises_iff"
   ],
   "note": "With C51_output, which describes the text of clingo-lpx; C63_raises_iff tells when symbols of other theories raise an exception."
  },
  {
   "property": "C64",
   "status": "partial",
   "theorems": [
    "Lpx.Props.C64_propagate_partial",
    "Lpx.Props.C64_check_partial",
    "Lpx.Props.C64_violation"
   ],
   "note": "Partial: Intact (Finding 1), otherwise stale bounds are named in clauses (C64_violation)."
  },
  {
   "property": "C65",
   "status": "partial",
   "theorems": [
    "Lpx.Props.C65_new_sets_partial",
    "Lpx.Props.C65_finite_partial",
    "Lpx.Props.C65_unmixed",
    "Lpx.Props.C65_violation"
   ],
   "note": "Partial: Intact (Finding 1); unconditional for programs without equalities mixed with other constraints on a variable (C65_unmixed)."
  },
  {
   "property": "C66",
   "status": "partial",
   "theorems": [
    "Lpx.Props.C66_unsat_partial",
    "Lpx.Props.C66_unsat_program_partial",
    "Lpx.Props.C66_optimum_partial",
    "Lpx.Props.C66_optimum_program_partial",
    "Lpx.Props.C66_unmixed_unsat",
    "Lpx.Props.C66_unmixed_optimum",
    "Lpx.Props.C66_violation"
   ],
   "note": "Partial: Intact (Finding 1, C66_violation); unconditional for programs without equalities mixed with other constraints on a variable (C66_unmixed_*). In terms of the program also Covered (Finding 2). Which clauses clingo exchanges is part of the environment: clauses with literals of cuts stay in their thread."
  },
  {
   "property": "C67",
   "status": "partial",
   "theorems": [
    "Lpx.Props.C67_reasons_partial",
    "Lpx.Props.C67_rational_partial",
    "Lpx.Props.C67_no_redundant_literal_partial",
    "Lpx.Props.C67_unmixed",
    "Lpx.Props.C67_violation"
   ],
   "note": "Partial: Intact (Finding 1, C67_violation); unconditional for programs without equalities mixed with other constraints on a variable (C67_unmixed). C67_reasons_partial covers all options with values in V (strict constraints with a margin, cuts), C67_rational_partial is the version for rational values without cuts."
  },
  {
   "property": "C68",
   "status": "proved",
   "theorems": [
    "Lpx.Props.C68_full",
    "Lpx.Props.C68_changed",
    "Lpx.Props.C68_none",
    "Lpx.Props.C68_full_intact"
   ],
   "note": "For arbitrary histories; C68_full_intact drops the assumption that the limits of the non-basic unknowns are not contradictory for histories in which no limits are lost."
  },
  {
   "property": "C69",
   "status": "proved",
   "theorems": [
    "Lpx.Props.C69_numbers_bounded",
    "Lpx.Props.C69_numbers_bounded_by_program",
    "Lpx.Props.C69_lowest_terms"
   ],
   "note": "For arbitrary histories. The values of the unknowns and the bounds are not covered, only the tableau."
  },
  {
   "property": "C70",
   "status": "proved",
   "theorems": [
    "Lpx.Props.C70_imath",
    "Lpx.Props.C70_flint"
   ],
   "note": "On top of C58; objects are in memory, an object consists of two rationals."
  },
  {
   "property": "C71",
   "status": "proved",
   "theorems": [
    "Lpx.Props.C71_debug_build",
    "Lpx.Props.C71_debug_init",
    "Lpx.Props.C71_debug_strings"
   ],
   "note": "The callbacks with inline assertions are proved equal to those without assertions, guarded by the assertions collected for C52."
  },
  {
   "property": "C72",
   "status": "proved",
   "theorems": [
    "Lpx.Props.C72_atomic_calls",
    "Lpx.Props.C72_quiescent",
    "Lpx.Props.C72_no_race",
    "Lpx.Props.C72_no_deadlock",
    "Lpx.Props.C72_no_torn_values"
   ],
   "note": "The mutex and clingo (init runs when no thread does) are the environment. Justifies treating the methods as single steps in Conc (C54)."
  },
  {
   "property": "C73",
   "status": "proved",
   "theorems": [
    "Lpx.Props.C73_memory",
    "Lpx.Props.C73_bounds",
    "Lpx.Props.C73_trail",
    "Lpx.Props.C73_heap"
   ],
   "note": "Sizes are lengths of the lists that model the vectors and the queue; the heap may contain a variable more than once while solving, so the theorem is about its state between callbacks."
  },
  {
   "property": "C74",
   "status": "partial",
   "theorems": [
    "Lpx.Props.C74_constraints_partial",
    "Lpx.Props.C74_accepted_atoms_hold_partial",
    "Lpx.Props.C74_false_atoms_partial",
    "Lpx.Props.C74_objective_partial",
    "Lpx.Props.C74_models_partial",
    "Lpx.Props.C74_kept",
    "Lpx.Props.C74_dom_violation",
    "Lpx.Props.C74_objective_violation",
    "Lpx.Props.C74_acceptance_violation"
   ],
   "note": "Violated (Finding 9): atoms read before the rejected one, the upper bound of a rejected &dom and the objective stay in effect. Proved: exactly what remains, that it has no effect while the atoms of the rejected programs are false, that true atoms of accepted programs hold in all models reported afterwards, and that the failure itself changes no value, clause or symbol."
  },
  {
   "property": "C75",
   "status": "proved",
   "theorems": [
    "Lpx.Props.C75_indices"
   ],
   "note": "About the states between callbacks; the machine arithmetic itself is not modelled."
  },
  {
   "property": "C76",
   "status": "partial",
   "theorems": [
    "Lpx.Props.C76_readable",
    "Lpx.Props.C76_printed_solution_partial",
    "Lpx.Props.C76_printed_optimum_partial",
    "Lpx.Props.C76_printed_unbounded_partial",
    "Lpx.Props.C76_no_objective_partial",
    "Lpx.Props.C76_plain_programs_partial",
    "Lpx.Props.C76_printed_rationals_partial"
   ],
   "note": "Partial for the same reasons as C44: it is false without `Intact` (C06, C01_violation), for constants in conditional elements (C25) and some constraints without variables (C20). Reading is unique for all histories. For plain programs all histories are covered."
  },
  {
   "property": "C77",
   "status": "proved",
   "theorems": [
    "Lpx.Props.C77_clause_literals",
    "Lpx.Props.C77_fewer_constraints",
    "Lpx.Props.C77_no_constraint"
   ],
   "note": "For all histories, without restriction on backtracking. Literals of constraints are not zero (as always in clingo) in the two statements about assignments."
  },
  {
   "property": "C78",
   "status": "partial",
   "theorems": [
    "Lpx.Props.C78_same_solutions",
    "Lpx.Props.C78_same_acceptance",
    "Lpx.Props.C78_same_acceptance_plain",
    "Lpx.Props.C78_same_optimum_partial",
    "Lpx.Props.C78_same_supremum_partial",
    "Lpx.Props.C78_same_optimum_plain_partial"
   ],
   "note": "Solutions, objective values and acceptance are proved without restriction. The reported optimum has the restrictions of C44 (`Intact`, constraints without variables, constants in conditional elements: Findings 1-3); for plain programs it is proved for all histories. With `--strict` the reported values are shown to agree up to multiples of the infinitesimal."
  },
  {
   "property": "C79",
   "status": "proved",
   "theorems": [
    "Lpx.Props.C79_other_theories",
    "Lpx.Props.C79_filter"
   ],
   "note": "Equality of the states after `init`, including those after a rejected program."
  },
  {
   "property": "C80",
   "status": "partial",
   "theorems": [
    "Lpx.Props.C80_optimum_partial",
    "Lpx.Props.C80_optimum_exactly_partial",
    "Lpx.Props.C80_verdict_partial",
    "Lpx.Props.C80_unmixed_optimum",
    "Lpx.Props.C80_unmixed_verdict"
   ],
   "note": "Partial: `Intact` (Finding 1), as in C47 and C05; unconditional for programs without equalities mixed with other constraints on a variable (C80_unmixed_*). The verdict is stated for a first run without bound propagation and global objective, where no clause can be rejected for other reasons."
  },
  {
   "property": "C81",
   "status": "partial",
   "theorems": [
    "Lpx.Props.C81_assignment_kept_partial",
    "Lpx.Props.C81_rational_partial",
    "Lpx.Props.C81_again_partial",
    "Lpx.Props.C81_unmixed",
    "Lpx.Props.C81_initial",
    "Lpx.Props.C81_check"
   ],
   "note": "Partial: `Intact` (Finding 1) for propagate, where the bounds of the literals have to be the ones of their constraints; unconditional for programs without equalities mixed with other constraints on a variable (C81_unmixed). C81_check holds in all states. 'Satisfy' is the margin form of C45 (HoldsMargin); C81_rational_partial is the same for rational values in the usual sense."
  },
  {
   "property": "C82",
   "status": "partial",
   "theorems": [
    "Lpx.Props.C82_optimum_partial",
    "Lpx.Props.C82_optimum_monotone_partial",
    "Lpx.Props.C82_verdict_partial",
    "Lpx.Props.C82_verdict_monotone_partial",
    "Lpx.Props.C82_unmixed_optimum",
    "Lpx.Props.C82_unmixed_verdict",
    "Lpx.Props.C82_unmixed_optimum_monotone",
    "Lpx.Props.C82_unmixed_verdict_monotone",
    "Lpx.Props.C82_same_position",
    "Lpx.Props.C82_reformulated"
   ],
   "note": "Partial: `Intact` (Finding 1), as in C05 and C47; unconditional for programs without equalities mixed with other constraints on a variable (C82_unmixed_*). Strict relations need --strict. Verdicts are compared with runs without bound propagation and global objective, where no clause can be rejected and no cut be active. The infinitesimal parts of two optima may differ in size (the example: 3-epsilon and 3-epsilon/2 for scaled constraints); C82_same_position shows that they have the same sign. C82_reformulated: factors, names of variables and orders do not matter for the hypotheses."
  }
 ]
}