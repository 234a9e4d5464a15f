{
 "claims": [
  {
   "property": "C01",
   "status": "proved",
   "theorems": [
    "Printemps.C01.binary_operators_mean_arithmetic",
    "Printemps.C01.compound_assignments_mean_arithmetic",
    "Printemps.C01.binary_operators_no_duplicates",
    "Printemps.C01.compound_assignments_no_duplicates",
    "Printemps.C01.evaluation_order_irrelevant",
    "Printemps.C01.assign_like_drops_constant"
   ],
   "note": "Doubles are rationals. assign_like_drops_constant is a finding: assigning from a proxy loses the constant."
  },
  {
   "property": "C02",
   "status": "proved",
   "theorems": [
    "Printemps.C02.sideDiff_value",
    "Printemps.C02.violation_is_gap",
    "Printemps.C02.violation_zero_iff",
    "Printemps.C02.comparison_builds_constraint"
   ],
   "note": ""
  },
  {
   "property": "C03",
   "status": "proved",
   "theorems": [
    "Printemps.C03.bounds_enclose",
    "Printemps.C03.lower_bound_attained",
    "Printemps.C03.upper_bound_attained"
   ],
   "note": ""
  },
  {
   "property": "C04",
   "status": "proved",
   "theorems": [
    "Printemps.C04.incremental_eq_recomputation",
    "Printemps.C04.update_move_current",
    "Printemps.C04.incremental_order_irrelevant",
    "Printemps.C04.repeated_variable_breaks"
   ],
   "note": "repeated_variable_breaks shows that the distinct-variables hypothesis is needed."
  },
  {
   "property": "C05",
   "status": "proved",
   "theorems": [
    "Printemps.C05.full_update_semantics",
    "Printemps.C05.incremental_update_semantics",
    "Printemps.C05.incremental_eq_full",
    "Printemps.C05.margin_flag_incremental_imp_full",
    "Printemps.C05.margin_flag_differs"
   ],
   "note": "margin_flag_differs is a finding: the two updates use different tolerances for the margin flag."
  },
  {
   "property": "C06",
   "status": "proved",
   "theorems": [
    "Printemps.C06.full_score_describes_moved_assignment",
    "Printemps.C06.full_score_feasibility_improvable",
    "Printemps.C06.full_score_is_score_after_update",
    "Printemps.C06.score_flag_vs_model_flag"
   ],
   "note": "score_flag_vs_model_flag is a finding: score feasibility sums violations, model feasibility tests each."
  },
  {
   "property": "C07",
   "status": "proved",
   "theorems": [
    "Printemps.C07.single_score_within_tolerance",
    "Printemps.C07.single_score_eq_full",
    "Printemps.C07.setupSens_ok",
    "Printemps.C07.setup_maxAbs",
    "Printemps.C07.update_flagOK",
    "Printemps.C07.updateMove_flagOK",
    "Printemps.C07.updateMove_flag_exact",
    "Printemps.C07.stale_binary_flag_breaks"
   ],
   "note": "stale_binary_flag_breaks: the unit-step hypothesis fails if bounds are widened after constraint creation."
  },
  {
   "property": "C08",
   "status": "proved",
   "theorems": [
    "Printemps.C08.multi_score_within_tolerance",
    "Printemps.C08.multi_score_eq_full",
    "Printemps.C08.multi_score_improvable",
    "Printemps.C08.dispatched_score_eq_full"
   ],
   "note": ""
  },
  {
   "property": "C09",
   "status": "proved",
   "theorems": [
    "Printemps.C09.selection_score_within_tolerance",
    "Printemps.C09.selection_score_eq_full",
    "Printemps.C09.selection_disjoint_exact",
    "Printemps.C09.buildRelated_ok"
   ],
   "note": ""
  },
  {
   "property": "C10",
   "status": "proved",
   "theorems": [
    "Printemps.C10.values_never_drift",
    "Printemps.C10.feasibility_flag_exact",
    "Printemps.C10.full_update_starts"
   ],
   "note": ""
  },
  {
   "property": "C11",
   "status": "proved",
   "theorems": [
    "Printemps.C11.feasible_incumbent_is_best",
    "Printemps.C11.global_incumbent_is_best",
    "Printemps.C11.local_incumbent_is_best",
    "Printemps.C11.incumbents_never_worsen",
    "Printemps.C11.status_says_what_changed",
    "Printemps.C11.model_overload_agrees"
   ],
   "note": ""
  },
  {
   "property": "C12",
   "status": "proved",
   "theorems": [
    "Printemps.C12.archive_sorted",
    "Printemps.C12.archive_capacity",
    "Printemps.C12.archive_only_pushed",
    "Printemps.C12.archive_neighbours_differ",
    "Printemps.C12.archive_keeps_best",
    "Printemps.C12.archive_has_best",
    "Printemps.C12.archive_off_is_recent",
    "Printemps.C12.archive_may_hold_duplicates"
   ],
   "note": "archive_may_hold_duplicates: only neighbouring entries are guaranteed distinct."
  },
  {
   "property": "C13",
   "status": "proved",
   "theorems": [
    "Printemps.C13.flat_index_in_range",
    "Printemps.C13.multi_index_of_flat_index",
    "Printemps.C13.flat_index_unique",
    "Printemps.C13.flat_index_row_major"
   ],
   "note": ""
  },
  {
   "property": "C14",
   "status": "proved",
   "theorems": [
    "Printemps.C14.labels_unique",
    "Printemps.C14.scalar_label"
   ],
   "note": ""
  },
  {
   "property": "C15",
   "status": "proved",
   "theorems": [
    "Printemps.C15.lookup_agrees"
   ],
   "note": ""
  },
  {
   "property": "C16",
   "status": "proved",
   "theorems": [
    "Printemps.C16.is_same_iff_connected",
    "Printemps.C16.unite_reports_new"
   ],
   "note": ""
  },
  {
   "property": "C17",
   "status": "proved",
   "theorems": [
    "Printemps.C17.mst_minimum_spanning_forest"
   ],
   "note": ""
  },
  {
   "property": "C18",
   "status": "proved",
   "theorems": [
    "Printemps.C18.full_rank_gives_inverse",
    "Printemps.C18.dot_is_product",
    "Printemps.C18.solves_linear_system"
   ],
   "note": ""
  },
  {
   "property": "C19",
   "status": "proved",
   "theorems": [
    "Printemps.C19.full_rank_iff_invertible",
    "Printemps.C19.rank_le_size",
    "Printemps.C19.deficient_rank_has_kernel"
   ],
   "note": ""
  },
  {
   "property": "C20",
   "status": "proved",
   "theorems": [
    "Printemps.C20.reachability_iff_path"
   ],
   "note": ""
  },
  {
   "property": "C21",
   "status": "partial",
   "theorems": [
    "Printemps.C21.tightening_keeps_solutions_partial",
    "Printemps.C21.tightening_keeps_solutions_of_two_mutable",
    "Printemps.C21.reduction_terminates",
    "Printemps.C21.reduction_keeps_solutions",
    "Printemps.C21.reduction_exact",
    "Printemps.C21.fractional_fixed_terms_lose_a_solution",
    "Printemps.C21.zero_coefficient_is_undefined"
   ],
   "note": "Holds when contributions of fixed variables are integral and coefficients nonzero; both conditions shown necessary by counterexamples."
  },
  {
   "property": "C22",
   "status": "proved",
   "theorems": [
    "Printemps.C22.dropped_constraint_is_implied",
    "Printemps.C22.implied_inequality_is_dropped"
   ],
   "note": ""
  },
  {
   "property": "C23",
   "status": "partial",
   "theorems": [
    "Printemps.C23.singleton_absorbed_partial",
    "Printemps.C23.singleton_value_set_partial",
    "Printemps.C23.fractional_equality_is_lost",
    "Printemps.C23.equality_outside_bounds_is_accepted",
    "Printemps.C23.large_bound_is_lost"
   ],
   "note": "Exact for satisfiable singletons with bounds below 100000; counterexamples for the rest."
  },
  {
   "property": "C24",
   "status": "proved",
   "theorems": [
    "Printemps.C24.implicit_equalities_preserve_feasibility",
    "Printemps.C24.merged_pair_is_the_equality",
    "Printemps.C24.added_are_equalities"
   ],
   "note": ""
  },
  {
   "property": "C25",
   "status": "proved",
   "theorems": [
    "Printemps.C25.removing_duplicates_preserves_feasibility",
    "Printemps.C25.removing_duplicates_only_disables"
   ],
   "note": ""
  },
  {
   "property": "C26",
   "status": "partial",
   "theorems": [
    "Printemps.C26.no_solution_lost",
    "Printemps.C26.solutions_unchanged_partial",
    "Printemps.C26.fixed_variable_is_overwritten"
   ],
   "note": "No solution is lost; solutions can be gained only by overwriting a variable fixed at a nonzero value (counterexample)."
  },
  {
   "property": "C27",
   "status": "partial",
   "theorems": [
    "Printemps.C27.fixing_independent_keeps_optimum_partial",
    "Printemps.C27.fixed_value_within_bounds_partial",
    "Printemps.C27.reduction_keeps_optimum",
    "Printemps.C27.fixed_outside_bounds"
   ],
   "note": "Fails for variables without coefficients whose bounds exclude 0 (counterexample)."
  },
  {
   "property": "C28",
   "status": "partial",
   "theorems": [
    "Printemps.C28.dropping_dominated_keeps_optimum_partial",
    "Printemps.C28.negative_costs_lose_optimum",
    "Printemps.C28.fixed_variable_is_overwritten"
   ],
   "note": "Fails for negative costs in pure covering constraints and for variables fixed at 1 (counterexamples)."
  },
  {
   "property": "C29",
   "status": "partial",
   "theorems": [
    "Printemps.C29.solved_equality_is_equivalent",
    "Printemps.C29.substitution_keeps_value",
    "Printemps.C29.extraction_keeps_feasible_partial",
    "Printemps.C29.elimination_keeps_feasible_partial",
    "Printemps.C29.dependent_variables_preserve_problem_partial",
    "Printemps.C29.no_mutual_definitions",
    "Printemps.C29.two_candidates_are_acyclic",
    "Printemps.C29.cycle_of_three_loses_solutions"
   ],
   "note": "Proved for acyclic definitions, including termination of the substitution loop in three rounds; fails for cycles of three definitions (counterexample)."
  },
  {
   "property": "C30",
   "status": "partial",
   "theorems": [
    "Printemps.C30.selections_do_not_overlap",
    "Printemps.C30.selections_mean_exactly_one_partial",
    "Printemps.C30.choice_is_maximal",
    "Printemps.C30.extraction_effect",
    "Printemps.C30.selection_of_a_stale_constraint"
   ],
   "note": "Disjointness holds in every mode; that each group is a set-partitioning constraint fails after substitutions, because classification flags are stale (counterexample)."
  },
  {
   "property": "C31",
   "status": "proved",
   "theorems": [
    "Printemps.C31.one_variable_stays_selected",
    "Printemps.C31.moves_are_defined",
    "Printemps.C31.search_starts_in_order",
    "Printemps.C31.fixed_selected_variable_is_not_recorded"
   ],
   "note": "The record is missing (null pointer) if the variable with value 1 is fixed (counterexample to the start condition)."
  },
  {
   "property": "C32",
   "status": "partial",
   "theorems": [
    "Printemps.C32.binary_moves_flip_partial",
    "Printemps.C32.all_binary_moves_are_offered",
    "Printemps.C32.integer_moves_stay_inside",
    "Printemps.C32.unit_steps_are_offered",
    "Printemps.C32.bounds_are_kept",
    "Printemps.C32.binary_move_can_leave_bounds"
   ],
   "note": "Integer moves fully; 0/1 moves for variables with bounds [0,1]. False for 0/1 variables with bounds [0,0] or [1,1] that are not fixed: counterexample binary_move_can_leave_bounds."
  },
  {
   "property": "C33",
   "status": "proved",
   "theorems": [
    "Printemps.C33.moves_satisfy_their_constraint",
    "Printemps.C33.every_constraint_gets_moves",
    "Printemps.C33.trinomial_moves_satisfy_their_constraint"
   ],
   "note": "All four classes, both sign patterns, every state; moves are made from the classification of the model."
  },
  {
   "property": "C34",
   "status": "partial",
   "theorems": [
    "Printemps.C34.moves_satisfy_their_constraint_partial",
    "Printemps.C34.negative_sum_moves_always_violate",
    "Printemps.C34.difference_moves_can_violate",
    "Printemps.C34.ratio_moves_can_violate"
   ],
   "note": "Proved for x+y+k=0, for differences whose first variable has coefficient 1 and for integer ratios. False for the other forms: counterexamples, and for -x-y+k=0 every move violates the constraint."
  },
  {
   "property": "C35",
   "status": "proved",
   "theorems": [
    "Printemps.C35.precedence_moves_keep_the_constraint",
    "Printemps.C35.variable_bound_moves_satisfy_the_constraint",
    "Printemps.C35.aggregation_moves_are_nearest"
   ],
   "note": "Precedence: satisfied after exactly if before; variable bound: always satisfied after; aggregation: nearest integer value."
  },
  {
   "property": "C36",
   "status": "partial",
   "theorems": [
    "Printemps.C36.enabled_moves_respect_fixings_and_bounds",
    "Printemps.C36.enabled_user_moves_respect_fixings_and_bounds",
    "Printemps.C36.enabled_unchecked_moves_partial",
    "Printemps.C36.enabled_moves_change_something_partial",
    "Printemps.C36.ratio_move_can_change_nothing",
    "Printemps.C36.soft_selection_move_can_leave_bounds"
   ],
   "note": "Fixings always; bounds for all classes except soft selection, chain and two-flip moves with bounds [0,0]/[1,1] (counterexample); constant-ratio moves can change nothing (counterexample)."
  },
  {
   "property": "C37",
   "status": "proved",
   "theorems": [
    "Printemps.C37.adjusted_value",
    "Printemps.C37.adjusted_move",
    "Printemps.C37.adjusted_move_no_worse"
   ],
   "note": "int overflow of the step itself is not modelled (exact integers)"
  },
  {
   "property": "C38",
   "status": "proved",
   "theorems": [
    "Printemps.C38.bookkeeping",
    "Printemps.C38.intensities_in_range",
    "Printemps.C38.last_update_stamps"
   ],
   "note": ""
  },
  {
   "property": "C39",
   "status": "proved",
   "theorems": [
    "Printemps.C39.shrunken_penalty_exact",
    "Printemps.C39.setup_coefficient",
    "Printemps.C39.shrinking_only_to_exact",
    "Printemps.C39.small_initial_coefficient_not_exact"
   ],
   "note": "Exact whenever the initial coefficient exceeds the range of the objective; a smaller initial coefficient is kept unchanged and need not be exact (small_initial_coefficient_not_exact)."
  },
  {
   "property": "C40",
   "status": "proved",
   "theorems": [
    "Printemps.C40.naive_bound_is_bound",
    "Printemps.C40.naive_bound_attained",
    "Printemps.C40.naive_bound_below_feasible"
   ],
   "note": ""
  },
  {
   "property": "C41",
   "status": "partial",
   "theorems": [
    "Printemps.C41.lagrangian_is_dual_bound",
    "Printemps.C41.lagrangian_below_feasible_partial",
    "Printemps.C41.multipliers_in_region",
    "Printemps.C41.run_defined",
    "Printemps.C41.controller_bound",
    "Printemps.C41.incumbent_lagrangian_is_best",
    "Printemps.C41.setup_ready",
    "Printemps.C41.disabled_constraint_breaks_bound",
    "Printemps.C41.maximisation_bound_wrong"
   ],
   "note": "Proved for minimisation over assignments satisfying all constraints. Disabled constraints take part in the Lagrangian, so the bound fails when a disabled constraint is not implied (disabled_constraint_breaks_bound). For maximisation the value is wrong altogether (maximisation_bound_wrong)."
  },
  {
   "property": "C42",
   "status": "proved",
   "theorems": [
    "Printemps.C42.dual_objective_with_residual",
    "Printemps.C42.dual_objective_is_lower_bound",
    "Printemps.C42.reported_objective_is_lower_bound",
    "Printemps.C42.average_is_weighted_mean",
    "Printemps.C42.exported_bound_up_to_constant",
    "Printemps.C42.controller_bound_partial",
    "Printemps.C42.export_defined_iff",
    "Printemps.C42.export_exact",
    "Printemps.C42.unconstrained_export_is_undefined",
    "Printemps.C42.constant_is_ignored",
    "Printemps.C42.constant_breaks_the_bound",
    "Printemps.C42.small_residual_is_not_enough"
   ],
   "note": "Weak duality for the exported LP, its scaling and any run of the dual updates. The value handed to the solver omits the objective constant (constant_breaks_the_bound, controller_bound_partial), and a residual that is merely below the tolerance is not enough (small_residual_is_not_enough). The export of a model without enabled constraints is undefined behaviour (unconstrained_export_is_undefined)."
  },
  {
   "property": "C43",
   "status": "partial",
   "theorems": [
    "Printemps.C43.range_rows",
    "Printemps.C43.range_line",
    "Printemps.C43.range_frame",
    "Printemps.C43.installed_iff",
    "Printemps.C43.standard_contains_rhs",
    "Printemps.C43.zero_range_standard_partial",
    "Printemps.C43.nonzero_range_excludes_everything",
    "Printemps.C43.imported_row"
   ],
   "note": "The code adds the range row with the wrong sign: proved that every nonzero RANGES entry leaves no row value at all (although the standard interval contains the right-hand side). Only a zero range has the standard meaning."
  },
  {
   "property": "C44",
   "status": "partial",
   "theorems": [
    "Printemps.C44.toInt_spec",
    "Printemps.C44.record_effect",
    "Printemps.C44.record_exact_partial",
    "Printemps.C44.record_integer",
    "Printemps.C44.record_wrong_otherwise",
    "Printemps.C44.huge_numbers_are_undefined",
    "Printemps.C44.records_without_value",
    "Printemps.C44.default_bounds",
    "Printemps.C44.plus_infinity_resets_lower_bound"
   ],
   "note": "Exact iff the number is an integer or truncation goes in the right direction; proved wrong in all other cases. PL resets the lower bound; numbers outside int are undefined behaviour."
  },
  {
   "property": "C45",
   "status": "partial",
   "theorems": [
    "Printemps.C45.round_trip_partial",
    "Printemps.C45.round_trip_feasible",
    "Printemps.C45.small_integers_printed",
    "Printemps.C45.six_digits_printed",
    "Printemps.C45.coefficients_close",
    "Printemps.C45.nonnegative_becomes_binary",
    "Printemps.C45.free_becomes_binary",
    "Printemps.C45.lower_bound_lost",
    "Printemps.C45.coefficients_rounded",
    "Printemps.C45.unused_variable_unreadable",
    "Printemps.C45.name_unreadable",
    "Printemps.C45.two_coefficients_on_a_line",
    "Printemps.C45.two_right_hand_sides_on_a_line",
    "Printemps.C45.two_ranges_on_a_line"
   ],
   "note": "Round trip proved for all models whose names, coefficients and bounds the format can express (Writable); the objective constant is dropped. Counterexamples outside of that class are proved."
  },
  {
   "property": "C46",
   "status": "partial",
   "theorems": [
    "Printemps.C46.file_round_trip_object_partial",
    "Printemps.C46.file_round_trip_array_partial",
    "Printemps.C46.file_is_echo_object",
    "Printemps.C46.file_is_echo_array",
    "Printemps.C46.respell_plain",
    "Printemps.C46.echoV_plain",
    "Printemps.C46.real_read_back_close",
    "Printemps.C46.seven_digits_exact",
    "Printemps.C46.quote_in_string_throws",
    "Printemps.C46.text_determines_object",
    "Printemps.C46.text_parser_wrong",
    "Printemps.C46.boolean_in_array_lost",
    "Printemps.C46.comma_in_string_lost",
    "Printemps.C46.large_integer_throws",
    "Printemps.C46.real_rounded"
   ],
   "note": "Proved for every document in the fragment (and for real numbers of seven digits and Boolean members) that is written to a file and read from the file; for every other document without quotation marks in its strings, what is read is stated by a function (echo: respelled strings, numbers in seven digits, Booleans in arrays as strings). Missing: parsing the printed text directly, which reads another document (text_parser_wrong)."
  },
  {
   "property": "C47",
   "status": "proved",
   "theorems": [
    "Printemps.C47.construct_defined_iff",
    "Printemps.C47.product_is_product",
    "Printemps.C47.wrong_size_throws",
    "Printemps.C47.linear_combination_is_linear_combination",
    "Printemps.C47.transpose_is_transpose",
    "Printemps.C47.transpose_without_rows_is_undefined",
    "Printemps.C47.scaling_rows_and_columns",
    "Printemps.C47.scaling_is_recorded",
    "Printemps.C47.unsorted_entries_break_the_product",
    "Printemps.C47.second_setup_is_broken"
   ],
   "note": "Entries sorted by row is the precondition of the product (violated inputs are shown to give a wrong product); a second setup() call of the same object is shown to keep the old row pointers; a matrix without columns (and the transpose of one without rows) takes the maximum of an empty range."
  },
  {
   "property": "C48",
   "status": "proved",
   "theorems": [
    "Printemps.C48.check_accepts",
    "Printemps.C48.sparse_export_content",
    "Printemps.C48.sparse_roundtrip",
    "Printemps.C48.dense_roundtrip",
    "Printemps.C48.map_import",
    "Printemps.C48.to_sparse_agrees",
    "Printemps.C48.equal_names_lose_values"
   ],
   "note": "Round trips for values the search can produce and pairwise different names. With equal names the sparse form loses values (equal_names_lose_values)."
  },
  {
   "property": "C49",
   "status": "proved",
   "theorems": [
    "Printemps.C49.flags_agree",
    "Printemps.C49.value_within_bounds",
    "Printemps.C49.bounds_are_the_ones_set",
    "Printemps.C49.bounds_are_the_last_given",
    "Printemps.C49.bound_throws",
    "Printemps.C49.bound_clamps",
    "Printemps.C49.assignment_takes_effect",
    "Printemps.C49.fixed_assignment_throws",
    "Printemps.C49.fixed_unchanged",
    "Printemps.C49.set_bound_changes_fixed_variable",
    "Printemps.C49.dependent_update_stale_flags"
   ],
   "note": "last two are the proved exceptions: changing the bounds moves a fixed variable, and evaluating a dependent variable leaves its margin flags stale"
  },
  {
   "property": "C50",
   "status": "partial",
   "theorems": [
    "Printemps.C50.class_names_the_relation_partial",
    "Printemps.C50.class_names_the_relation_later_partial",
    "Printemps.C50.constant_is_ignored",
    "Printemps.C50.stale_flags_after_substitution",
    "Printemps.C50.small_classes_mutable"
   ],
   "note": "Fails for three-variable constraints with a constant and for constraints whose expression was changed by substitution (counterexamples)."
  },
  {
   "property": "C51",
   "status": "partial",
   "theorems": [
    "Printemps.C51.corrected_or_rejected_partial",
    "Printemps.C51.check_only_changes_nothing",
    "Printemps.C51.good_values_are_accepted",
    "Printemps.C51.bounds_of_binary_variables_are_ignored",
    "Printemps.C51.correction_ignores_bounds"
   ],
   "note": "Bounds [0,0] and [1,1] of 0/1 variables are ignored (counterexamples)."
  },
  {
   "property": "C52",
   "status": "partial",
   "theorems": [
    "Printemps.C52.any_rule_partial",
    "Printemps.C52.all_rule_partial",
    "Printemps.C52.rules_of_this_search_partial",
    "Printemps.C52.still_tabu_without_randomness",
    "Printemps.C52.fresh_variables_are_tabu_under_long_tenures",
    "Printemps.C52.tenure_stays_in_range",
    "Printemps.C52.tenure_step",
    "Printemps.C52.negative_tenure_divides_by_zero",
    "Printemps.C52.next_initial_tenure_in_range"
   ],
   "note": "Exact characterisation of permissibility over every recorded history, and the range of the tenure over every history of updates. Missing: variables never changed carry the stamp -1000 and count as tabu when the tenure exceeds the iteration by more than 1000; an initial tenure of -1 divides by zero."
  },
  {
   "property": "C53",
   "status": "proved",
   "theorems": [
    "Printemps.C53.argmin_spec",
    "Printemps.C53.selection_exists",
    "Printemps.C53.selected_move",
    "Printemps.C53.tabu_only_if_nothing_admissible",
    "Printemps.C53.useless_only_if_all_useless",
    "Printemps.C53.exact_rounding",
    "Printemps.C53.best_admissible",
    "Printemps.C53.frequency_penalty",
    "Printemps.C53.lagrangian_penalty",
    "Printemps.C53.first_tabu_move_is_taken"
   ],
   "note": "For every list of trials and every monotone rounding of the large constants. Among tabu moves only, floating point absorbs the scores and the first one is taken (first_tabu_move_is_taken)."
  },
  {
   "property": "C54",
   "status": "proved",
   "theorems": [
    "Printemps.C54.tabu_search_terminates",
    "Printemps.C54.local_search_terminates",
    "Printemps.C54.lagrange_dual_terminates",
    "Printemps.C54.tabu_status",
    "Printemps.C54.iteration_over_count",
    "Printemps.C54.controller_terminates",
    "Printemps.C54.controller_stops_for_a_reason",
    "Printemps.C54.adjusted_limit_exceeds_option",
    "Printemps.C54.adjusted_limit_within_option",
    "Printemps.C54.zero_limit_is_absorbing"
   ],
   "note": "The steps are arbitrary functions on an arbitrary world. The controller replaces the configured inner limit by an adjusted one, which can exceed it when the initial tenure does (adjusted_limit_exceeds_option)."
  },
  {
   "property": "C55",
   "status": "partial",
   "theorems": [
    "Printemps.C55.changes_add_up",
    "Printemps.C55.improvements_combine",
    "Printemps.C55.merged_parts",
    "Printemps.C55.merged_alterations",
    "Printemps.C55.accepted_improves",
    "Printemps.C55.merged_move_improves",
    "Printemps.C55.merged_move_covers",
    "Printemps.C55.merged_gain",
    "Printemps.C55.best_first",
    "Printemps.C55.unconstrained_variable_counted_twice",
    "Printemps.C55.tolerated_violations_add_up"
   ],
   "note": "Additivity is proved for all moves without common variables and enabled constraints; the loop is proved to build such merged moves when every moved variable occurs in an enabled constraint, and the merged move is then an improvement. Missing in the code: variables without constraints can be moved twice, and violations within the tolerance add up (both with witnesses). With step-size adjustment the augmented objective of the merged move is at most the sum."
  },
  {
   "property": "C56",
   "status": "partial",
   "theorems": [
    "Printemps.C56.no_move_verdict_right",
    "Printemps.C56.local_verdict_right",
    "Printemps.C56.bound_verdict_right",
    "Printemps.C56.naive_bound_verdict_right_partial",
    "Printemps.C56.maximisation_verdict_wrong",
    "Printemps.C56.off_mode_verdict_wrong"
   ],
   "note": "Proved for every history with screening on, and for a valid bound in minimised units. The solver passes the bound in user units, so the verdict is wrong for maximisation (witness), and mode Off with curtailed moves gives wrong verdicts (witness)."
  },
  {
   "property": "C57",
   "status": "partial",
   "theorems": [
    "Printemps.C57.computed_flag_exact",
    "Printemps.C57.objective_flags_exact",
    "Printemps.C57.local_objective_flags_exact",
    "Printemps.C57.objective_screening_hides_nothing",
    "Printemps.C57.discarded_move_does_not_improve",
    "Printemps.C57.soft_and_aggressive_hide_nothing",
    "Printemps.C57.local_search_hides_nothing",
    "Printemps.C57.total_violation_not_reduced",
    "Printemps.C57.intensive_partial",
    "Printemps.C57.intensive_hides_improving_moves",
    "Printemps.C57.improving_moves_kept"
   ],
   "note": "Objective screening proved exact over every history of moves; feasibility screening for the modes Soft and Aggressive and for local search. False in mode Intensive: concrete witness, and a partial theorem for the constraints it does cover."
  },
  {
   "property": "C58",
   "status": "proved",
   "theorems": [
    "Printemps.C58.holds_last_values",
    "Printemps.C58.statistics_of_last_values",
    "Printemps.C58.zero_size_push_undefined"
   ],
   "note": "zero_size_push_undefined: max_size 0 is undefined behaviour."
  },
  {
   "property": "C59",
   "status": "proved",
   "theorems": [
    "Printemps.C59.solve_only_once",
    "Printemps.C59.slot",
    "Printemps.C59.export_consistent",
    "Printemps.C59.reported_solution",
    "Printemps.C59.report_exists",
    "Printemps.C59.found_is_reported_feasible",
    "Printemps.C59.found_but_reported_infeasible"
   ],
   "note": "For every history of offers to the incumbent holder. A total violation of exactly 1e-5 counts as found but is reported infeasible (found_but_reported_infeasible)."
  },
  {
   "property": "C60",
   "status": "partial",
   "theorems": [
    "Printemps.C60.coefficients_in_range_partial",
    "Printemps.C60.coefficients_are_numbers",
    "Printemps.C60.limit_and_reset",
    "Printemps.C60.local_can_exceed_shrunken_global",
    "Printemps.C60.coefficient_can_become_nan"
   ],
   "note": "Range [0, initial coefficient] for every history; the controller bounds by the initial coefficient of the options, so a shrunken global coefficient can be exceeded, and a violated constraint never counted makes the coefficient NaN (both proved by witnesses). log and sqrt are parameters."
  },
  {
   "property": "C61",
   "status": "partial",
   "theorems": [
    "Printemps.C61.fixing_by_name",
    "Printemps.C61.unfixing_by_name_partial",
    "Printemps.C61.unfixing_overwrites_everything",
    "Printemps.C61.unfix_is_not_inverse"
   ],
   "note": "Fixing is right. Unfixing frees the named variables but fixes every other variable and sets all values to zero (counterexamples)."
  },
  {
   "property": "C62",
   "status": "proved",
   "theorems": [
    "Printemps.C62.dense_distance",
    "Printemps.C62.sparse_distance",
    "Printemps.C62.sparse_distance_l1",
    "Printemps.C62.distance_is_metric"
   ],
   "note": "Any number of variables with pairwise different names."
  },
  {
   "property": "C63",
   "status": "partial",
   "theorems": [
    "Printemps.C63.always_defined",
    "Printemps.C63.failure_changes_nothing",
    "Printemps.C63.solved_iff",
    "Printemps.C63.solved_fixes",
    "Printemps.C63.binary_values_are_forced",
    "Printemps.C63.no_solution_lost_partial",
    "Printemps.C63.no_solution_gained_partial",
    "Printemps.C63.negative_coefficient_loses_solutions",
    "Printemps.C63.bounds_are_ignored"
   ],
   "note": "Success is characterised exactly; forced values hold for all signs. Nothing lost: proved when all coefficients of the 0/1 variables are +1; the code ignores signs when it fixes the auxiliary variables (witness). Nothing gained: proved for 0/1 variables with bounds [0,1] that are not auxiliary variables; the code ignores tighter bounds (witness)."
  },
  {
   "property": "C64",
   "status": "partial",
   "theorems": [
    "Printemps.C64.registered_moves",
    "Printemps.C64.registered_distinct",
    "Printemps.C64.back_undoes",
    "Printemps.C64.combined_related",
    "Printemps.C64.combined_covers",
    "Printemps.C64.overlap_meaning",
    "Printemps.C64.overlap_range",
    "Printemps.C64.same_alterations",
    "Printemps.C64.hashOf_perm",
    "Printemps.C64.deduplicated",
    "Printemps.C64.maintain_bound",
    "Printemps.C64.maintained",
    "Printemps.C64.proposed_moves",
    "Printemps.C64.registered_not_available",
    "Printemps.C64.equal_names_spoil_scores",
    "Printemps.C64.far_addresses_unsortable",
    "Printemps.C64.near_rates_unsortable",
    "Printemps.C64.reset_makes_available"
   ],
   "note": "Combination, reverse, capacity and overlap are proved for all moves. No repetition of constraints: for constraints with different names; with equal names the score is wrong (witness). No duplicates in the store: for stores on which the comparison is an order (Regular); otherwise the comparison can run in a circle (witnesses), which is undefined behaviour."
  },
  {
   "property": "C65",
   "status": "proved",
   "theorems": [
    "Printemps.C65.fl53_exact",
    "Printemps.C65.fl53_error",
    "Printemps.C65.evaluation_exact",
    "Printemps.C65.move_exact",
    "Printemps.C65.history_exact",
    "Printemps.C65.full_violation_exact",
    "Printemps.C65.multi_violation_exact",
    "Printemps.C65.single_violation_exact",
    "Printemps.C65.sum_error",
    "Printemps.C65.history_error",
    "Printemps.C65.growth",
    "Printemps.C65.drift_hides_violation"
   ],
   "note": "Rounding to nearest with 53 digits; overflow, underflow and non-numbers are not modelled. Outside the grid condition the stored value drifts and can hide a violation until the next recomputation (drift_hides_violation). Penalties and products with penalty coefficients are not covered by the exactness theorems."
  },
  {
   "property": "C66",
   "status": "proved",
   "theorems": [
    "Printemps.C66.history",
    "Printemps.C66.reported_with_tolerance",
    "Printemps.C66.reported_is_best_visited",
    "Printemps.C66.never_throws"
   ],
   "note": "Any list of events (start, accepted move, relaxation, change of penalties). reported_is_best_visited holds for models whose numbers are multiples of some g > 1e-10 and has no error term; reported_with_tolerance holds for all models and adds 1e-10 per constraint and move since the last start to the total violation (the skip tolerance of the fast evaluation). Exact arithmetic (see C65 for rounding). What is assumed about the model after setup and about moves is stated in Setting and Legal; the properties of the setup itself are C07, C09, C12-C29."
  },
  {
   "property": "C67",
   "status": "partial",
   "theorems": [
    "Printemps.C67.reduction_keeps_optimum_partial",
    "Printemps.C67.preparation_keeps_optimum_partial",
    "Printemps.C67.substitution_leads_to_undefined_behaviour",
    "Printemps.C67.bound_of_one_is_overwritten",
    "Printemps.C67.disabled_constraint_removes_enabled_one"
   ],
   "note": "All stages of the setup in their order, any combination of options. Proved for models with integer coefficients, small bounds, no user-disabled constraint, 0/1 variables not fixed at 1, and (for removal of set variables) no profitable variable outside of packing or partitioning constraints; the restrictions are stated in Proper. Missing: extraction of dependent variables (must be off, or have no candidates); with it the setup can run into undefined behaviour (witness). The other restrictions are needed as well (witnesses here and in C26-C28)."
  },
  {
   "property": "C68",
   "status": "partial",
   "theorems": [
    "Printemps.C68.report_solves_user_model_partial"
   ],
   "note": "Setup, verification of the initial values, any list of search events, report. Missing: the restrictions of Ordinary and Proper (integral constraints, preprocessing without dependent variables, see C67), and models in which parity equations remain for the GF(2) stage (see C63)."
  },
  {
   "property": "C69",
   "status": "partial",
   "theorems": [
    "Printemps.C69.file_decides_partial",
    "Printemps.C69.good_file_accepted",
    "Printemps.C69.other_entries_ignored",
    "Printemps.C69.object_round_trip_partial",
    "Printemps.C69.file_round_trip_partial",
    "Printemps.C69.threads_are_ignored",
    "Printemps.C69.file_does_not_decide",
    "Printemps.C69.mode_of_wrong_type_ignored",
    "Printemps.C69.mode_out_of_range_accepted"
   ],
   "note": "Holds for all options but parallel.number_of_threads_move_update, whose key is misspelt in the code: it cannot be set in a file. For enumerations a value of a wrong type is ignored and a number out of range is accepted, after which the options cannot be written. The round trip through a file is for numbers that are printed exactly."
  },
  {
   "property": "C70",
   "status": "partial",
   "theorems": [
    "Printemps.C70.arguments",
    "Printemps.C70.undefined_arguments",
    "Printemps.C70.lines_of_file",
    "Printemps.C70.values_read",
    "Printemps.C70.setup_effect",
    "Printemps.C70.exclusive",
    "Printemps.C70.solution_file_read",
    "Printemps.C70.warm_start_partial",
    "Printemps.C70.large_objective_unreadable",
    "Printemps.C70.mutable_with_initial_throws",
    "Printemps.C70.mutable_ignores_bounds",
    "Printemps.C70.number_read",
    "Printemps.C70.two_flip_switched_on"
   ],
   "note": "Undefined behaviour when the value of the last flag is missing, and for numbers that are no int: so a feasible solution with a large objective cannot be read back. With a mutable-variable file the other variables are fixed at 0, not at their values in the initial solution, which makes the program throw, and whatever their bounds. The import of the MPS file is the subject of C43-C45."
  },
  {
   "property": "C71",
   "status": "partial",
   "theorems": [
    "Printemps.C71.pairs_exact",
    "Printemps.C71.pairs_once_and_sorted",
    "Printemps.C71.union_not_empty",
    "Printemps.C71.file_round_trip",
    "Printemps.C71.two_flip_exchanges_partial",
    "Printemps.C71.two_flip_leaves_bounds"
   ],
   "note": "The part on moves is for variables with the bounds 0 and 1: a pair file may list other variables, and the moves made for them set 0 and 1 whatever the bounds (witness). The number of common constraints includes disabled ones."
  },
  {
   "property": "C72",
   "status": "partial",
   "theorems": [
    "Printemps.C72.sum_over_slice",
    "Printemps.C72.sum_over_all",
    "Printemps.C72.dot_over_slice",
    "Printemps.C72.dot_along_line",
    "Printemps.C72.sum_refused_iff",
    "Printemps.C72.selection_is_exactly_one",
    "Printemps.C72.set_bound_on_all",
    "Printemps.C72.expression_sum_over_all",
    "Printemps.C72.expression_slice_partial",
    "Printemps.C72.elements_are_written",
    "Printemps.C72.tagged_kept",
    "Printemps.C72.assigned_elements_leave_their_slice",
    "Printemps.C72.out_of_range_index_not_refused"
   ],
   "note": "Arrays of variables: all shapes and patterns. Arrays of expressions: sums over the whole array always; over slices only as long as no element was assigned an expression, because the assignment also overwrites the index stored in the element: afterwards a row with number >= 1 sums to nothing and row 0 is the sum of the whole array (assigned_elements_leave_their_slice). An index out of range is not refused."
  },
  {
   "property": "C73",
   "status": "partial",
   "theorems": [
    "Printemps.C73.names_after_setup_partial",
    "Printemps.C73.names_unique_partial",
    "Printemps.C73.creation_refused_iff",
    "Printemps.C73.equal_array_names_accepted",
    "Printemps.C73.bracket_names_collide",
    "Printemps.C73.assigned_expressions_share_their_name"
   ],
   "note": "Uniqueness needs different names of arrays without opening bracket and elements that do not share their extension; the code checks none of this (witnesses)."
  },
  {
   "property": "C74",
   "status": "partial",
   "theorems": [
    "Printemps.C74.candidates_are_legal_partial",
    "Printemps.C74.runs_are_legal_partial",
    "Printemps.C74.reported_is_best_visited_partial",
    "Printemps.C74.Late.variables_fixed_late_are_moved"
   ],
   "note": "For every state reached. Assumed: no variable was fixed after the neighbourhood was set up (Fits.fixed) - the GF(2) stage of the setup does fix variables afterwards, and they are then moved: a call can start feasible and report values that violate the model (witness); and every free variable occurs in an enabled constraint (Constrained, used for merged moves only). Pairs for two-flip moves are pairs of free 0/1 variables (what the extractor gives, C71)."
  },
  {
   "property": "C75",
   "status": "partial",
   "theorems": [
    "Printemps.C75.incumbents_were_visited",
    "Printemps.C75.every_call_ends_with_a_result_partial",
    "Printemps.C75.selection_moves_are_defined_partial",
    "Printemps.C75.Doubled.two_swaps_of_one_selection_are_merged",
    "Printemps.C75.Twice.better_solution_is_visited_and_lost"
   ],
   "note": "Same assumptions on the model as C74; that every free variable occurs in an enabled constraint is needed: with the default options, local search otherwise merges two swaps of one selection, stores values better than the optimum as feasible incumbent, and the call throws (witness); and it merges two moves of a variable whose constraints are all redundant, stores a wrong objective and so loses a better solution visited later (witness). That starts take up values visited before follows from incumbents_were_visited and the sources of the starts (solver.h:146-192, tabu_search_controller_state_manager.h:1323-1342), which are assumed; Lagrange dual is not run with selections (lagrange_dual_controller.h:50-64)."
  },
  {
   "property": "C76",
   "status": "partial",
   "theorems": [
    "Printemps.C76.call_ends_with_right_report_partial"
   ],
   "note": "From the model of the user to the report: the conditions on the prepared model used by C74 and C75 are derived here from the setup. Remaining conditions: those of Ordinary (C68: integer coefficients, no extraction of dependent variables, default bounds of options), no parity equations (C74: Late), every free variable in an enabled constraint (C75: Doubled), the searches take moves of the neighbourhood (Follows) and start from values visited before. The bounding of variables during the search is left out (preprocess.is_enabled_online_bounding off); see C77 for what it can do."
  },
  {
   "property": "C77",
   "status": "partial",
   "theorems": [
    "Printemps.C77.bounding_keeps_what_is_as_good_partial",
    "Printemps.C77.bounding_keeps_the_optimum_partial",
    "Printemps.C77.bounding_only_when_asked",
    "Printemps.C77.Maximise.maximisation_throws",
    "Printemps.C77.Maximise.maximisation_loses_everything",
    "Printemps.C77.Fraction.fractional_objective_loses_the_incumbent",
    "Printemps.C77.Broken.bounding_can_break_a_selection"
   ],
   "note": "Proved for minimisation, and for maximisation as long as the best objective is not negative; nonzero coefficients; integral contributions of the fixed variables to the objective. Each condition is needed: maximising with a negative best objective throws or loses every solution, fractional fixed contributions can cut off the incumbent, and a variable of a selection fixed by the bounding lets later swaps choose a second one (with the default options; the call ends with an exception)."
  },
  {
   "property": "C78",
   "status": "partial",
   "theorems": [
    "Printemps.C78.restart_rules",
    "Printemps.C78.exact_rules",
    "Printemps.C78.call_ends_with_right_report_partial"
   ],
   "note": "The rules: all outcomes. The whole call: as C76, but the starts are computed by the call (no assumption on them is left) and Lagrange dual is skipped by the rule of the code. Left out: bounding of variables during the search (C77 shows that the guarantee fails with it), PDLP, and what is left out in C76."
  },
  {
   "property": "C79",
   "status": "proved",
   "theorems": [
    "Printemps.C79.target_in_the_users_direction",
    "Printemps.C79.ordinary_target",
    "Printemps.C79.default_target",
    "Printemps.C79.no_objective_stops_when_feasible",
    "Printemps.C79.nothing_after_limit",
    "Printemps.C79.searches_end",
    "Printemps.C79.no_late_steps",
    "Printemps.C79.target_stops_the_call"
   ],
   "note": "Steps are the steps of the loops of Lagrange dual, local search and tabu search. Setup, the construction of a search, and the initial modification of tabu search are not limited by the code and are not claimed to be. PDLP is not part of this (C80)."
  },
  {
   "property": "C80",
   "status": "partial",
   "theorems": [
    "Printemps.C80.run_ends",
    "Printemps.C80.points_within_bounds",
    "Printemps.C80.reported_objective_is_bound",
    "Printemps.C80.exact_bound",
    "Printemps.C80.optimal_verdict",
    "Printemps.C80.exact_optimum",
    "Printemps.C80.infeasible_verdict_partial",
    "Printemps.C80.controller_ends",
    "Printemps.C80.controller_bound",
    "Printemps.C80.controller_infeasible_partial",
    "Printemps.C80.infeasible_verdict_is_wrong",
    "Printemps.C80.optimal_reports_another_point",
    "Printemps.C80.zero_interval_is_undefined"
   ],
   "note": "Ending, bounds, the dual objective and OPTIMAL are proved for every LP, start, restart decision and clock. INFEASIBLE is false in general: the upper bound it uses leaves out the contribution of fixed variables (infeasible_verdict_is_wrong); infeasible_verdict_partial is for an offset below 1. The point that is kept with OPTIMAL can be another one than the verdict is about (optimal_reports_another_point). Intervals of 0 are undefined behaviour. The comparison of normalized gaps that decides about restarts is arbitrary in the model. Convergence is not claimed."
  },
  {
   "property": "C81",
   "status": "partial",
   "theorems": [
    "Printemps.C81.dependent_rounds_keep_problem_partial",
    "Printemps.C81.restored_values_are_feasible_partial",
    "Printemps.C81.pairs_form_no_cycle",
    "Printemps.C81.wrong_selection_accepts_infeasible"
   ],
   "note": "All rounds, all stages up to the selections. Conditions (ProperDep): those of C67, definitions of one round without cycle (always true if only equalities of two variables with coefficients 1 and -1 are used: pairs_form_no_cycle; needed: C29 cycle_of_three_loses_solutions), and set variables are not removed afterwards. That no undefined behaviour occurs is not claimed: see C67 substitution_leads_to_undefined_behaviour. The part on selections is false with the default options: the flags of a constraint are not computed anew after a substitution, so a cardinality constraint can become a selection, and the search then accepts assignments that violate the model (witness)."
  },
  {
   "property": "C82",
   "status": "partial",
   "theorems": [
    "Printemps.C82.report_solves_user_model_with_dependents_partial",
    "Printemps.C82.stale_margin_loses_feasible_solution"
   ],
   "note": "Setup with all rounds of dependent variables, verification of the initial values, any list of search events, report. Missing: exclusive or / nor pairs (with them, which is the default, the guarantee fails: stale_margin_loses_feasible_solution), models whose definitions form a cycle in a round (C29), the restrictions of Proper (C67), parity equations (C63); the objective is only claimed for feasible reports."
  },
  {
   "property": "C83",
   "status": "partial",
   "theorems": [
    "Printemps.C83.every_search_has_options",
    "Printemps.C83.options_are_allowed_partial",
    "Printemps.C83.iteration_limit_holds_partial",
    "Printemps.C83.tenure_stays_in_range",
    "Printemps.C83.improvement_makes_next_search_cautious",
    "Printemps.C83.stagnation_widens_next_search",
    "Printemps.C83.thread_counts_tried",
    "Printemps.C83.thread_counts_are_tried_in_turn",
    "Printemps.C83.thread_count_has_largest_confidence",
    "Printemps.C83.mean_lies_within_scores",
    "Printemps.C83.average_of_threads_is_right",
    "Printemps.C83.seed_and_number_of_modifications_are_ignored",
    "Printemps.C83.thread_setting_is_lost",
    "Printemps.C83.iteration_limit_is_exceeded"
   ],
   "note": "Proved for all options, machines and results of searches, except for what the code does otherwise: the limit for iterations is exceeded if it is below the initial tabu tenure (iteration_limit_is_exceeded; iteration_limit_holds_partial is for the other case), a number of threads set by the user holds for the first search only (thread_setting_is_lost), the seed and the number of initial modifications set by the user have no effect."
  },
  {
   "property": "C84",
   "status": "partial",
   "theorems": [
    "Printemps.C84.updates_are_reported_truly",
    "Printemps.C84.no_update_reported_iff",
    "Printemps.C84.ranges_are_right",
    "Printemps.C84.rate_is_right",
    "Printemps.C84.flags_are_right",
    "Printemps.C84.counts_are_right",
    "Printemps.C84.performance_is_a_share_partial",
    "Printemps.C84.early_stop_is_justified",
    "Printemps.C84.penalties_too_large_iff",
    "Printemps.C84.stored_solutions",
    "Printemps.C84.improved_feasible_incumbent_is_stored_partial",
    "Printemps.C84.performance_exceeds_one",
    "Printemps.C84.performance_undefined",
    "Printemps.C84.best_solution_is_not_stored"
   ],
   "note": "Proved for all searches, except for what the code does otherwise: solutions met at the start and in the initial modification are never stored, so the best feasible solution may be missing from the stored ones (best_solution_is_not_stored); the share of effective moves exceeds 1 with initial modifications (performance_exceeds_one) and is 0/0 without iterations (performance_undefined). The solutions a search visits are arbitrary."
  },
  {
   "property": "C85",
   "status": "partial",
   "theorems": [
    "Printemps.C85.arrays_show_values_partial",
    "Printemps.C85.document_by_array_partial",
    "Printemps.C85.file_by_array_partial",
    "Printemps.C85.document_by_name",
    "Printemps.C85.file_by_name_partial",
    "Printemps.C85.file_by_name",
    "Printemps.C85.value_at_index",
    "Printemps.C85.single_value",
    "Printemps.C85.small_numbers_are_lost",
    "Printemps.C85.names_are_merged",
    "Printemps.C85.index_outside_is_read",
    "Printemps.C85.empty_dimension_loses_shape",
    "Printemps.C85.section_keys"
   ],
   "note": "The file by names is proved for all values and for names without quotation marks that stay different in the spelling of the reader (file_by_name); the file by arrays for all shapes and values under plain and distinct names; exactness needs numbers that six decimals and seven digits can show. What the code does otherwise: numbers below half a millionth are written as zero by arrays (small_numbers_are_lost), names with commas are changed and merged (names_are_merged), an index outside of the shape may read another element (index_outside_is_read), an empty dimension loses the shape (empty_dimension_loses_shape)."
  },
  {
   "property": "C86",
   "status": "partial",
   "theorems": [
    "Printemps.C86.document_is_the_problem",
    "Printemps.C86.document_has_the_objective",
    "Printemps.C86.document_has_the_best_value",
    "Printemps.C86.file_echo",
    "Printemps.C86.file_echo_any",
    "Printemps.C86.file_is_the_problem_partial",
    "Printemps.C86.file_is_near_the_problem",
    "Printemps.C86.names_stay_different",
    "Printemps.C86.bestOn_iff",
    "Printemps.C86.file_after_a_call_partial",
    "Printemps.C86.objective_constant_is_lost",
    "Printemps.C86.no_name_is_null",
    "Printemps.C86.names_become_equal",
    "Printemps.C86.definitions_are_lost"
   ],
   "note": "The document is the problem for all models and names; through the file for names without quotation marks, exactly for coefficients of seven digits and up to seven digits for all others. Not so: the constant of the objective is not written (objective_constant_is_lost), an empty name is written as null (no_name_is_null), names that differ in a comma and a space become equal when read (names_become_equal), and the file that the command line tool writes after the solve lacks the definitions of replaced variables (definitions_are_lost)."
  },
  {
   "property": "C87",
   "status": "proved",
   "theorems": [
    "Printemps.C87.file_of_a_call",
    "Printemps.C87.solution_doc",
    "Printemps.C87.file_echo",
    "Printemps.C87.collect_eq"
   ],
   "note": "Entries may repeat (C12.archive_may_hold_duplicates), and which visited solutions the searches hand over is C84 (best_solution_is_not_stored)."
  },
  {
   "property": "C88",
   "status": "partial",
   "theorems": [
    "Printemps.C88.program_gets_its_problem_partial",
    "Printemps.C88.constraints_keep_their_meaning",
    "Printemps.C88.element_assigned_from_an_array",
    "Printemps.C88.slice_of_assigned_elements"
   ],
   "note": "False of the code for two forms, shown by programs: an element assigned by = from an array standing for its only element loses the constant of that array (element_assigned_from_an_array), and elements assigned a whole expression by = leave the sums over slices of their array (slice_of_assigned_elements). Proved for all programs without these two forms."
  },
  {
   "property": "C89",
   "status": "partial",
   "theorems": [
    "Printemps.C89.stated_problem_is_reported_rightly_partial"
   ],
   "note": "Composes C88 with C76; the restrictions are those of C76 (integral constraints, bounds below 100000, moves from the neighbourhood, no parity equations) and bounds are not changed after the first constraint (C07.stale_binary_flag_breaks)."
  },
  {
   "property": "C90",
   "status": "partial",
   "theorems": [
    "Printemps.C90.file_gets_its_problem_partial",
    "Printemps.C90.values_by_name",
    "Printemps.C90.constant_of_the_objective_is_lost",
    "Printemps.C90.second_free_row_is_refused",
    "Printemps.C90.comments_are_read",
    "Printemps.C90.direction_is_ignored",
    "Printemps.C90.binary_record_with_number_is_ignored"
   ],
   "note": "False of the code for files outside of Doc.OK, shown by files: the right-hand side of the free row is dropped, a second free row makes the file refused, comment lines are read as records, the direction of the objective is ignored, BV records with a number are ignored. Proved for all other files with the five sections; numbers in BOUNDS are integers (C44), ranges are C43."
  },
  {
   "property": "C91",
   "status": "partial",
   "theorems": [
    "Printemps.C91.file_is_reported_rightly_partial"
   ],
   "note": "Composes C90 with C76; the restrictions are those of C76 (integral constraints, bounds below 100000, moves from the neighbourhood, no parity equations)."
  },
  {
   "property": "C92",
   "status": "partial",
   "theorems": [
    "Printemps.C92.solution_file_is_right_partial"
   ],
   "note": "Composes C70 (command line and auxiliary files), C90 (MPS file), C78 (call with its phases) and the printing of numbers. Missing: the restrictions of C78 (integral constraints, bounds below 100000, no parity equations, no dependent variables, bounding during the search switched off, at least one constraint in force), 0/1 variables fixed at 1 when redundant set constraints or variables are removed, and setups that throw."
  },
  {
   "property": "C93",
   "status": "partial",
   "theorems": [
    "Printemps.C93.original_counts",
    "Printemps.C93.presolved_counts",
    "Printemps.C93.occurrences_counted",
    "Printemps.C93.occurrences_fit_partial",
    "Printemps.C93.setup_shrinks",
    "Printemps.C93.setup_adds",
    "Printemps.C93.call_keeps_outline",
    "Printemps.C93.status_of_call_partial",
    "Printemps.C93.density_above_one",
    "Printemps.C93.constraints_added",
    "Printemps.C93.original_not_original",
    "Printemps.C93.empty_ranges"
   ],
   "note": "Proved: all counts of variables and constraints by state, kind and type, the number of nonzeros, the figures of the constraints, and the flag for feasibility at the end of a call. False of the code, shown by models: with fixed variables the density exceeds 1 and the mean per variable exceeds the maximum; the number of constraints includes those added by the presolve; the nonzeros labelled original are those after the elimination of dependent variables; without constraints the range is reported as 2147483647 to -2147483648. Missing: what is missing in C78, times, option and penalty coefficients in the status."
  },
  {
   "property": "C94",
   "status": "partial",
   "theorems": [
    "Printemps.C94.call_with_bounding_reports_right_partial",
    "Printemps.C94.call_with_bounding_returns_partial",
    "Printemps.C94.call_with_bounding_from_neighbourhood_partial"
   ],
   "note": "Proved: searches that take their moves from the neighbourhood, whose generators are set up again when a bounding fixes variables, only accept moves within the bounds of the moment; with the restarts of the mode smart (the default) every call with bounding returns, whatever moves and penalty coefficients it uses: each search starts within the bounds of the moment, no bounding fails; in both modes, when the call returns, feasibility flag, objective and comparison with all solutions come across are right, and the ranges at the end contain every assignment at least as good as the reported one. Restricted to minimisation with integral coefficients and no selections (C77 shows that bounding goes wrong otherwise). Missing: that the call returns in the mode simple; variables in no enabled constraint; what is missing in C68."
  },
  {
   "property": "C95",
   "status": "partial",
   "theorems": [
    "Printemps.C95.lists_are_those_of_a_shortest_tree",
    "Printemps.C95.best_solution_is_listed_when_minimizing_partial",
    "Printemps.C95.best_solution_is_missing_when_maximizing",
    "Printemps.C95.best_solution_may_be_missing"
   ],
   "note": "Proved for all histories: no index out of range, content and order of the archive, the tree is a shortest one, frontier and locally optimal solutions as stored are exactly those of it. The last clause is proved for minimization and false of the code for maximization (the objective is stored without the sign of the sense, model.h:3241): with feasible solutions only, the incumbent is never listed."
  },
  {
   "property": "C96",
   "status": "partial",
   "theorems": [
    "Printemps.C96.stated_problem_is_reported_rightly_with_bounding_partial",
    "Printemps.C96.file_is_reported_rightly_with_bounding_partial",
    "Printemps.C96.solution_file_is_right_with_bounding_partial"
   ],
   "note": "Proved for all programs, files and command lines within the restrictions, all courses of the search taken from the neighbourhood, and any number of narrowings. Missing: the restrictions of a whole call (Restricted), selections, objectives with fractions or to be maximised (for these the property is false of the code, see C77), parity equations, and modes of restart other than the default for the claim that the call returns."
  },
  {
   "property": "C97",
   "status": "partial",
   "theorems": [
    "Printemps.C97.rows_show_what_was_met",
    "Printemps.C97.rows_show_the_truth_partial",
    "Printemps.C97.marks_are_right",
    "Printemps.C97.nothing_new_is_hidden",
    "Printemps.C97.rows_are_printed_in_time",
    "Printemps.C97.incumbent_violation_is_shown_negative",
    "Printemps.C97.announced_row_shows_infeasible_incumbent"
   ],
   "note": "Proved for all histories: numbers of the current solution, marks, completeness, times of printing. The violation of the incumbent is right in minimizations only: in maximizations it is printed with the opposite sign (incumbent_violation_is_shown_negative). A row announcing a new feasible solution may show an infeasible incumbent (announced_row_shows_infeasible_incumbent). Missing: numbers not on a grid, the mark ! of tabu search, the columns with numbers of neighborhoods, the Lagrangian and the step size, digits and colors."
  },
  {
   "property": "C98",
   "status": "proved",
   "theorems": [
    "Printemps.C98.counts_are_right",
    "Printemps.C98.update_counts_by_name",
    "Printemps.C98.violation_counts_by_name",
    "Printemps.C98.penalties_by_name",
    "Printemps.C98.equal_names_hide_counts"
   ],
   "note": "Proved for all histories in the setting of C66. equal_names_hide_counts shows why the names must differ."
  },
  {
   "property": "C99",
   "status": "partial",
   "theorems": [
    "Printemps.C99.seldom_updated",
    "Printemps.C99.often_updated",
    "Printemps.C99.constraints_listed",
    "Printemps.C99.frequency_is_right_partial",
    "Printemps.C99.frequency_is_not_understated",
    "Printemps.C99.current_solution",
    "Printemps.C99.violated_are_listed",
    "Printemps.C99.frequency_is_overstated",
    "Printemps.C99.six_lines_instead_of_five"
   ],
   "note": "Proved for all histories, except that the frequency shown for a constraint is the share of the moves only if every move alters one variable; in general it is too high (frequency_is_overstated) and never too low. The lists have six lines although five are meant (six_lines_instead_of_five)."
  },
  {
   "property": "C100",
   "status": "partial",
   "theorems": [
    "Printemps.C100.searches_end_for_a_reason",
    "Printemps.C100.called_once_after_each_search",
    "Printemps.C100.reading_changes_nothing",
    "Printemps.C100.truthful",
    "Printemps.C100.what_is_read_is_right_partial",
    "Printemps.C100.what_is_read_is_right_with_bounding_partial",
    "Printemps.C100.written_options_have_no_effect"
   ],
   "note": "Calls, order and truth of what is read are proved for functions that only read the incumbents, in the setting of C78 and, with the bounding of variables during the search that is on by default, in that of C94. The last sentence is refuted: the options given are a copy made for the search just finished, so writing to them has no effect at all (written_options_have_no_effect)."
  },
  {
   "property": "C101",
   "status": "partial",
   "theorems": [
    "Printemps.C101.solved_iff",
    "Printemps.C101.refused_iff",
    "Printemps.C101.element_names",
    "Printemps.C101.initialized_keeps",
    "Printemps.C101.initialized_undefined",
    "Printemps.C101.initialized_new_partial"
   ],
   "note": "The first two sentences are proved for all histories. The last one is refuted: initialize() reserves the lists of arrays without clearing them but clears the lists of their names, so the old problem stays (initialized_keeps), and a call after arrays have been created again reads behind the end of the list of names (initialized_undefined); it is proved only for objects with which nothing was built (initialized_new_partial)."
  },
  {
   "property": "C102",
   "status": "partial",
   "theorems": [
    "Printemps.C102.inside_right",
    "Printemps.C102.before_right_partial",
    "Printemps.C102.table_of_call",
    "Printemps.C102.comparisons_do_not_add_up"
   ],
   "note": "Proved but for one group: before the parentheses the comparisons count only the constraints that are switched on while the total and the types count all, so they add up exactly if none is switched off (before_right_partial; comparisons_do_not_add_up is a model where they do not)."
  },
  {
   "property": "C103",
   "status": "partial",
   "theorems": [
    "Printemps.C103.rows_right",
    "Printemps.C103.rows_show_the_truth_partial",
    "Printemps.C103.objective_is_written_negated"
   ],
   "note": "Proved for all histories, but in maximizations the objectives are written with the opposite sign (rows_right says exactly what is written; objective_is_written_negated is a case), unlike in the tables on the screen. As in C97 the coefficients of the constraints are multiples of a number above 1e-10 (sums of violations are exact)."
  },
  {
   "property": "C104",
   "status": "proved",
   "theorems": [
    "Printemps.C104.problem_as_built",
    "Printemps.C104.same_solutions"
   ],
   "note": "For every model and every setting of the other options. About the model the searches start with; the tightening of bounds during the searches, switched off with the presolve as well, is the subject of C96."
  },
  {
   "property": "C105",
   "status": "partial",
   "theorems": [
    "Printemps.C105.gap_eq",
    "Printemps.C105.gap_never_negative",
    "Printemps.C105.zero_at_solutions_partial",
    "Printemps.C105.zero_at_an_infeasible_point",
    "Printemps.C105.positive_at_a_solution"
   ],
   "note": "Proved: the gap is the rate of change of the Lagrangian along the directions of the code, never negative, and zero at solutions with no row above its right hand side. Refuted: the test of the rows uses the upper bound of the dual variable twice, so shortfalls are never counted (gap zero at an infeasible point) and rows that are not tight always are (gap positive at a solution). Results stay right: C80 holds for every way to decide about restarts."
  },
  {
   "property": "C106",
   "status": "partial",
   "theorems": [
    "Printemps.C106.report_tells_the_truth_partial",
    "Printemps.C106.report_with_any_numbers_partial",
    "Printemps.C106.report_solves_user_problem_partial",
    "Printemps.C106.setup_throws_iff",
    "Printemps.C106.call_reports"
   ],
   "note": "Proved for every problem with integer and 0/1 variables whose numbers in constraints are multiples of some g above 1e-10 (above 1e-5 for the exact statement). For finer numbers a tolerance of 1e-10 per constraint and move is proved (report_with_any_numbers_partial). Missing: 0/1 variables that are not fixed although only one value is left, whose bounds the setup ignores (C51). When a call throws is characterized exactly (setup_throws_iff, call_reports)."
  },
  {
   "property": "C107",
   "status": "partial",
   "theorems": [
    "Printemps.C107.restarts_again_and_again",
    "Printemps.C107.restart_where",
    "Printemps.C107.restart_why_partial",
    "Printemps.C107.second_loop_ends_at_once",
    "Printemps.C107.restart_without_progress"
   ],
   "note": "Proved for all gaps: restarts recur, at checks only, from the better point; the reasons of each restart are given exactly. Refuted: the gap is compared with that noted for the restart before the last one (setup_new_inner_loop moves current to previous, update_restart_information reads previous), so the second loop ends at its first check whatever the gap and a restart may come although the gap has grown a hundredfold."
  },
  {
   "property": "C108",
   "status": "proved",
   "theorems": [
    "Printemps.C108.run_gaps_ends",
    "Printemps.C108.run_is_planned",
    "Printemps.C108.decisions_by_gaps",
    "Printemps.C108.points_stay_within_bounds",
    "Printemps.C108.optimal_is_optimal",
    "Printemps.C108.restarts_of_a_run",
    "Printemps.C108.restart_from_better"
   ],
   "note": "The iterations of C80, the gaps of C105 and the decisions of C107 composed: each run is one of C80 and one of C107. If a point has not moved since the last restart, the radius is 0 and the code divides by it: the gap is then 0 in the model and not a finite number in the code, so that the two may decide differently. Termination, bounds and verdicts hold for all decisions (C80), the comparison of gaps (restart_from_better) is meant for positive radii."
  }
 ]
}
