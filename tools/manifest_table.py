c('C01', 'proved', 'binary_operators_mean_arithmetic compound_assignments_mean_arithmetic binary_operators_no_duplicates compound_assignments_no_duplicates evaluation_order_irrelevant assign_like_drops_constant',
  'Doubles are rationals. assign_like_drops_constant is a finding: assigning from a proxy loses the constant.')
c('C02', 'proved', 'sideDiff_value violation_is_gap violation_zero_iff comparison_builds_constraint')
c('C03', 'proved', 'bounds_enclose lower_bound_attained upper_bound_attained')
c('C04', 'proved', 'incremental_eq_recomputation update_move_current incremental_order_irrelevant repeated_variable_breaks',
  'repeated_variable_breaks shows that the distinct-variables hypothesis is needed.')
c('C05', 'proved', 'full_update_semantics incremental_update_semantics incremental_eq_full margin_flag_incremental_imp_full margin_flag_differs',
  'margin_flag_differs is a finding: the two updates use different tolerances for the margin flag.')
c('C06', 'proved', 'full_score_describes_moved_assignment full_score_feasibility_improvable full_score_is_score_after_update score_flag_vs_model_flag',
  'score_flag_vs_model_flag is a finding: score feasibility sums violations, model feasibility tests each.')
c('C07', 'proved', 'single_score_within_tolerance single_score_eq_full setupSens_ok setup_maxAbs update_flagOK updateMove_flagOK updateMove_flag_exact stale_binary_flag_breaks',
  'stale_binary_flag_breaks: the unit-step hypothesis fails if bounds are widened after constraint creation.')
c('C08', 'proved', 'multi_score_within_tolerance multi_score_eq_full multi_score_improvable dispatched_score_eq_full')
c('C10', 'proved', 'values_never_drift feasibility_flag_exact full_update_starts')
c('C09', 'proved', 'selection_score_within_tolerance selection_score_eq_full selection_disjoint_exact buildRelated_ok')
c('C11', 'proved', 'feasible_incumbent_is_best global_incumbent_is_best local_incumbent_is_best incumbents_never_worsen status_says_what_changed model_overload_agrees')
c('C12', 'proved', 'archive_sorted archive_capacity archive_only_pushed archive_neighbours_differ archive_keeps_best archive_has_best archive_off_is_recent archive_may_hold_duplicates',
  'archive_may_hold_duplicates: only neighbouring entries are guaranteed distinct.')
c('C13', 'proved', 'flat_index_in_range multi_index_of_flat_index flat_index_unique flat_index_row_major')
c('C14', 'proved', 'labels_unique scalar_label')
c('C15', 'proved', 'lookup_agrees')
c('C16', 'proved', 'is_same_iff_connected unite_reports_new')
c('C17', 'proved', 'mst_minimum_spanning_forest')
c('C18', 'proved', 'full_rank_gives_inverse dot_is_product solves_linear_system')
c('C19', 'proved', 'full_rank_iff_invertible rank_le_size deficient_rank_has_kernel')
c('C20', 'proved', 'reachability_iff_path')
c('C58', 'proved', 'holds_last_values statistics_of_last_values zero_size_push_undefined',
  'zero_size_push_undefined: max_size 0 is undefined behaviour.')
c('C21', 'partial', 'tightening_keeps_solutions_partial tightening_keeps_solutions_of_two_mutable reduction_terminates reduction_keeps_solutions reduction_exact fractional_fixed_terms_lose_a_solution zero_coefficient_is_undefined',
  'Holds when contributions of fixed variables are integral and coefficients nonzero; both conditions shown necessary by counterexamples.')
c('C22', 'proved', 'dropped_constraint_is_implied implied_inequality_is_dropped')
c('C23', 'partial', 'singleton_absorbed_partial singleton_value_set_partial fractional_equality_is_lost equality_outside_bounds_is_accepted large_bound_is_lost',
  'Exact for satisfiable singletons with bounds below 100000; counterexamples for the rest.')
c('C24', 'proved', 'implicit_equalities_preserve_feasibility merged_pair_is_the_equality added_are_equalities')
c('C25', 'proved', 'removing_duplicates_preserves_feasibility removing_duplicates_only_disables')
c('C26', 'partial', 'no_solution_lost solutions_unchanged_partial fixed_variable_is_overwritten',
  'No solution is lost; solutions can be gained only by overwriting a variable fixed at a nonzero value (counterexample).')
c('C27', 'partial', 'fixing_independent_keeps_optimum_partial fixed_value_within_bounds_partial reduction_keeps_optimum fixed_outside_bounds',
  'Fails for variables without coefficients whose bounds exclude 0 (counterexample).')
c('C28', 'partial', 'dropping_dominated_keeps_optimum_partial negative_costs_lose_optimum fixed_variable_is_overwritten',
  'Fails for negative costs in pure covering constraints and for variables fixed at 1 (counterexamples).')
c('C29', 'partial', 'solved_equality_is_equivalent substitution_keeps_value extraction_keeps_feasible_partial elimination_keeps_feasible_partial dependent_variables_preserve_problem_partial no_mutual_definitions two_candidates_are_acyclic cycle_of_three_loses_solutions',
  'Proved for acyclic definitions, including termination of the substitution loop in three rounds; fails for cycles of three definitions (counterexample).')
c('C50', 'partial', 'class_names_the_relation_partial class_names_the_relation_later_partial constant_is_ignored stale_flags_after_substitution small_classes_mutable',
  'Fails for three-variable constraints with a constant and for constraints whose expression was changed by substitution (counterexamples).')
c('C30', 'partial', 'selections_do_not_overlap selections_mean_exactly_one_partial choice_is_maximal extraction_effect selection_of_a_stale_constraint',
  'Disjointness holds in every mode; that each group is a set-partitioning constraint fails after substitutions, because classification flags are stale (counterexample).')
c('C31', 'proved', 'one_variable_stays_selected moves_are_defined search_starts_in_order fixed_selected_variable_is_not_recorded',
  'The record is missing (null pointer) if the variable with value 1 is fixed (counterexample to the start condition).')
c('C51', 'partial', 'corrected_or_rejected_partial check_only_changes_nothing good_values_are_accepted bounds_of_binary_variables_are_ignored correction_ignores_bounds',
  'Bounds [0,0] and [1,1] of 0/1 variables are ignored (counterexamples).')
c('C32','partial','binary_moves_flip_partial all_binary_moves_are_offered integer_moves_stay_inside unit_steps_are_offered bounds_are_kept binary_move_can_leave_bounds','Integer moves fully; 0/1 moves for variables with bounds [0,1]. False for 0/1 variables with bounds [0,0] or [1,1] that are not fixed: counterexample binary_move_can_leave_bounds.')
c('C33','proved','moves_satisfy_their_constraint every_constraint_gets_moves trinomial_moves_satisfy_their_constraint','All four classes, both sign patterns, every state; moves are made from the classification of the model.')
c('C34','partial','moves_satisfy_their_constraint_partial negative_sum_moves_always_violate difference_moves_can_violate ratio_moves_can_violate','Proved for x+y+k=0, for differences whose first variable has coefficient 1 and for integer ratios. False for the other forms: counterexamples, and for -x-y+k=0 every move violates the constraint.')
c('C35','proved','precedence_moves_keep_the_constraint variable_bound_moves_satisfy_the_constraint aggregation_moves_are_nearest','Precedence: satisfied after exactly if before; variable bound: always satisfied after; aggregation: nearest integer value.')
c('C36','partial','enabled_moves_respect_fixings_and_bounds enabled_user_moves_respect_fixings_and_bounds enabled_unchecked_moves_partial enabled_moves_change_something_partial ratio_move_can_change_nothing soft_selection_move_can_leave_bounds','Fixings always; bounds for all classes except soft selection, chain and two-flip moves with bounds [0,0]/[1,1] (counterexample); constant-ratio moves can change nothing (counterexample).')
c('C37','proved','adjusted_value adjusted_move adjusted_move_no_worse','int overflow of the step itself is not modelled (exact integers)')
c('C38','proved','bookkeeping intensities_in_range last_update_stamps','')
c('C49','proved','flags_agree value_within_bounds bounds_are_the_ones_set bounds_are_the_last_given bound_throws bound_clamps assignment_takes_effect fixed_assignment_throws fixed_unchanged set_bound_changes_fixed_variable dependent_update_stale_flags','last two are the proved exceptions: changing the bounds moves a fixed variable, and evaluating a dependent variable leaves its margin flags stale')
c('C39','proved','shrunken_penalty_exact setup_coefficient shrinking_only_to_exact small_initial_coefficient_not_exact','Exact whenever the initial coefficient exceeds the range of the objective; a smaller initial coefficient is kept unchanged and need not be exact (small_initial_coefficient_not_exact).')
c('C40','proved','naive_bound_is_bound naive_bound_attained naive_bound_below_feasible','')
c('C41','partial','lagrangian_is_dual_bound lagrangian_below_feasible_partial multipliers_in_region run_defined controller_bound incumbent_lagrangian_is_best setup_ready disabled_constraint_breaks_bound maximisation_bound_wrong','Proved for minimisation over assignments satisfying all constraints. Disabled constraints take part in the Lagrangian, so the bound fails when a disabled constraint is not implied (disabled_constraint_breaks_bound). For maximisation the value is wrong altogether (maximisation_bound_wrong).')
c('C60','partial','coefficients_in_range_partial coefficients_are_numbers limit_and_reset local_can_exceed_shrunken_global coefficient_can_become_nan','Range [0, initial coefficient] for every history; the controller bounds by the initial coefficient of the options, so a shrunken global coefficient can be exceeded, and a violated constraint never counted makes the coefficient NaN (both proved by witnesses). log and sqrt are parameters.')
c('C47','proved','construct_defined_iff product_is_product wrong_size_throws linear_combination_is_linear_combination transpose_is_transpose transpose_without_rows_is_undefined scaling_rows_and_columns scaling_is_recorded unsorted_entries_break_the_product second_setup_is_broken','Entries sorted by row is the precondition of the product (violated inputs are shown to give a wrong product); a second setup() call of the same object is shown to keep the old row pointers; a matrix without columns (and the transpose of one without rows) takes the maximum of an empty range.')

c('C42','proved','dual_objective_with_residual dual_objective_is_lower_bound reported_objective_is_lower_bound average_is_weighted_mean exported_bound_up_to_constant controller_bound_partial export_defined_iff export_exact unconstrained_export_is_undefined constant_is_ignored constant_breaks_the_bound small_residual_is_not_enough','Weak duality for the exported LP, its scaling and any run of the dual updates. The value handed to the solver omits the objective constant (constant_breaks_the_bound, controller_bound_partial), and a residual that is merely below the tolerance is not enough (small_residual_is_not_enough). The export of a model without enabled constraints is undefined behaviour (unconstrained_export_is_undefined).')
c('C52','partial','any_rule_partial all_rule_partial rules_of_this_search_partial still_tabu_without_randomness fresh_variables_are_tabu_under_long_tenures tenure_stays_in_range tenure_step negative_tenure_divides_by_zero next_initial_tenure_in_range','Exact characterisation of permissibility over every recorded history, and the range of the tenure over every history of updates. Missing: variables never changed carry the stamp -1000 and count as tabu when the tenure exceeds the iteration by more than 1000; an initial tenure of -1 divides by zero.')
c('C53','proved','argmin_spec selection_exists selected_move tabu_only_if_nothing_admissible useless_only_if_all_useless exact_rounding best_admissible frequency_penalty lagrangian_penalty first_tabu_move_is_taken','For every list of trials and every monotone rounding of the large constants. Among tabu moves only, floating point absorbs the scores and the first one is taken (first_tabu_move_is_taken).')
c('C54','proved','tabu_search_terminates local_search_terminates lagrange_dual_terminates tabu_status iteration_over_count controller_terminates controller_stops_for_a_reason adjusted_limit_exceeds_option adjusted_limit_within_option zero_limit_is_absorbing','The steps are arbitrary functions on an arbitrary world. The controller replaces the configured inner limit by an adjusted one, which can exceed it when the initial tenure does (adjusted_limit_exceeds_option).')
c('C57','partial','computed_flag_exact objective_flags_exact local_objective_flags_exact objective_screening_hides_nothing discarded_move_does_not_improve soft_and_aggressive_hide_nothing local_search_hides_nothing total_violation_not_reduced intensive_partial intensive_hides_improving_moves improving_moves_kept','Objective screening proved exact over every history of moves; feasibility screening for the modes Soft and Aggressive and for local search. False in mode Intensive: concrete witness, and a partial theorem for the constraints it does cover.')
c('C56','partial','no_move_verdict_right local_verdict_right bound_verdict_right naive_bound_verdict_right_partial maximisation_verdict_wrong off_mode_verdict_wrong','Proved for every history with screening on, and for a valid bound in minimised units. The solver passes the bound in user units, so the verdict is wrong for maximisation (witness), and mode Off with curtailed moves gives wrong verdicts (witness).')
c('C48','proved','check_accepts sparse_export_content sparse_roundtrip dense_roundtrip map_import to_sparse_agrees equal_names_lose_values','Round trips for values the search can produce and pairwise different names. With equal names the sparse form loses values (equal_names_lose_values).')
c('C59','proved','solve_only_once slot export_consistent reported_solution report_exists found_is_reported_feasible found_but_reported_infeasible','For every history of offers to the incumbent holder. A total violation of exactly 1e-5 counts as found but is reported infeasible (found_but_reported_infeasible).')
c('C61','partial','fixing_by_name unfixing_by_name_partial unfixing_overwrites_everything unfix_is_not_inverse','Fixing is right. Unfixing frees the named variables but fixes every other variable and sets all values to zero (counterexamples).')
c('C62','proved','dense_distance sparse_distance sparse_distance_l1 distance_is_metric','Any number of variables with pairwise different names.')
c('C43','partial','range_rows range_line range_frame installed_iff standard_contains_rhs zero_range_standard_partial nonzero_range_excludes_everything imported_row','The code adds the range row with the wrong sign: proved that every nonzero RANGES entry leaves no row value at all (although the standard interval contains the right-hand side). Only a zero range has the standard meaning.')
c('C44','partial','toInt_spec record_effect record_exact_partial record_integer record_wrong_otherwise huge_numbers_are_undefined records_without_value default_bounds plus_infinity_resets_lower_bound','Exact iff the number is an integer or truncation goes in the right direction; proved wrong in all other cases. PL resets the lower bound; numbers outside int are undefined behaviour.')
c('C45','partial','round_trip_partial round_trip_feasible small_integers_printed six_digits_printed coefficients_close nonnegative_becomes_binary free_becomes_binary lower_bound_lost coefficients_rounded unused_variable_unreadable name_unreadable two_coefficients_on_a_line two_right_hand_sides_on_a_line two_ranges_on_a_line','Round trip proved for all models whose names, coefficients and bounds the format can express (Writable); the objective constant is dropped. Counterexamples outside of that class are proved.')
c('C46','partial','file_round_trip_object_partial file_round_trip_array_partial file_is_echo_object file_is_echo_array respell_plain echoV_plain real_read_back_close seven_digits_exact quote_in_string_throws text_determines_object text_parser_wrong boolean_in_array_lost comma_in_string_lost large_integer_throws real_rounded','Proved for every document in the fragment (and for real numbers of seven digits and Boolean members) that is written to a file and read from the file; for every other document without quotation marks in its strings, what is read is stated by a function (echo: respelled strings, numbers in seven digits, Booleans in arrays as strings). Missing: parsing the printed text directly, which reads another document (text_parser_wrong).')
c('C55','partial','changes_add_up improvements_combine merged_parts merged_alterations accepted_improves merged_move_improves merged_move_covers merged_gain best_first unconstrained_variable_counted_twice tolerated_violations_add_up','Additivity is proved for all moves without common variables and enabled constraints; the loop is proved to build such merged moves when every moved variable occurs in an enabled constraint, and the merged move is then an improvement. Missing in the code: variables without constraints can be moved twice, and violations within the tolerance add up (both with witnesses). With step-size adjustment the augmented objective of the merged move is at most the sum.')
c('C63','partial','always_defined failure_changes_nothing solved_iff solved_fixes binary_values_are_forced no_solution_lost_partial no_solution_gained_partial negative_coefficient_loses_solutions bounds_are_ignored','Success is characterised exactly; forced values hold for all signs. Nothing lost: proved when all coefficients of the 0/1 variables are +1; the code ignores signs when it fixes the auxiliary variables (witness). Nothing gained: proved for 0/1 variables with bounds [0,1] that are not auxiliary variables; the code ignores tighter bounds (witness).')
c('C64','partial','registered_moves registered_distinct back_undoes combined_related combined_covers overlap_meaning overlap_range same_alterations hashOf_perm deduplicated maintain_bound maintained proposed_moves registered_not_available equal_names_spoil_scores far_addresses_unsortable near_rates_unsortable reset_makes_available','Combination, reverse, capacity and overlap are proved for all moves. No repetition of constraints: for constraints with different names; with equal names the score is wrong (witness). No duplicates in the store: for stores on which the comparison is an order (Regular); otherwise the comparison can run in a circle (witnesses), which is undefined behaviour.')
c('C65','proved','fl53_exact fl53_error evaluation_exact move_exact history_exact full_violation_exact multi_violation_exact single_violation_exact sum_error history_error growth drift_hides_violation','Rounding to nearest with 53 digits; overflow, underflow and non-numbers are not modelled. Outside the grid condition the stored value drifts and can hide a violation until the next recomputation (drift_hides_violation). Penalties and products with penalty coefficients are not covered by the exactness theorems.')
c('C66','proved','history reported_with_tolerance reported_is_best_visited never_throws','Any list of events (start, accepted move, relaxation, change of penalties). reported_is_best_visited holds for models whose numbers are multiples of some g > 1e-10 and has no error term; reported_with_tolerance holds for all models and adds 1e-10 per constraint and move since the last start to the total violation (the skip tolerance of the fast evaluation). Exact arithmetic (see C65 for rounding). What is assumed about the model after setup and about moves is stated in Setting and Legal; the properties of the setup itself are C07, C09, C12-C29.')
c('C67','partial','reduction_keeps_optimum_partial preparation_keeps_optimum_partial substitution_leads_to_undefined_behaviour bound_of_one_is_overwritten disabled_constraint_removes_enabled_one','All stages of the setup in their order, any combination of options. Proved for models with integer coefficients, small bounds, no user-disabled constraint, 0/1 variables not fixed at 1, and (for removal of set variables) no profitable variable outside of packing or partitioning constraints; the restrictions are stated in Proper. Missing: extraction of dependent variables (must be off, or have no candidates); with it the setup can run into undefined behaviour (witness). The other restrictions are needed as well (witnesses here and in C26-C28).')
c('C68','partial','report_solves_user_model_partial','Setup, verification of the initial values, any list of search events, report. Missing: the restrictions of Ordinary and Proper (integral constraints, preprocessing without dependent variables, see C67), and models in which parity equations remain for the GF(2) stage (see C63).')
c('C69','partial','file_decides_partial good_file_accepted other_entries_ignored object_round_trip_partial file_round_trip_partial threads_are_ignored file_does_not_decide mode_of_wrong_type_ignored mode_out_of_range_accepted','Holds for all options but parallel.number_of_threads_move_update, whose key is misspelt in the code: it cannot be set in a file. For enumerations a value of a wrong type is ignored and a number out of range is accepted, after which the options cannot be written. The round trip through a file is for numbers that are printed exactly.')
c('C70','partial','arguments undefined_arguments lines_of_file values_read setup_effect exclusive solution_file_read warm_start_partial large_objective_unreadable mutable_with_initial_throws mutable_ignores_bounds number_read two_flip_switched_on','Undefined behaviour when the value of the last flag is missing, and for numbers that are no int: so a feasible solution with a large objective cannot be read back. With a mutable-variable file the other variables are fixed at 0, not at their values in the initial solution, which makes the program throw, and whatever their bounds. The import of the MPS file is the subject of C43-C45.')
c('C71','partial','pairs_exact pairs_once_and_sorted union_not_empty file_round_trip two_flip_exchanges_partial two_flip_leaves_bounds','The part on moves is for variables with the bounds 0 and 1: a pair file may list other variables, and the moves made for them set 0 and 1 whatever the bounds (witness). The number of common constraints includes disabled ones.')
c('C72','partial','sum_over_slice sum_over_all dot_over_slice dot_along_line sum_refused_iff selection_is_exactly_one set_bound_on_all expression_sum_over_all expression_slice_partial elements_are_written tagged_kept assigned_elements_leave_their_slice out_of_range_index_not_refused','Arrays of variables: all shapes and patterns. Arrays of expressions: sums over the whole array always; over slices only as long as no element was assigned an expression, because the assignment also overwrites the index stored in the element: afterwards a row with number >= 1 sums to nothing and row 0 is the sum of the whole array (assigned_elements_leave_their_slice). An index out of range is not refused.')
c('C73','partial','names_after_setup_partial names_unique_partial creation_refused_iff equal_array_names_accepted bracket_names_collide assigned_expressions_share_their_name','Uniqueness needs different names of arrays without opening bracket and elements that do not share their extension; the code checks none of this (witnesses).')
c('C74','partial','candidates_are_legal_partial runs_are_legal_partial reported_is_best_visited_partial Late.variables_fixed_late_are_moved','For every state reached. Assumed: no variable was fixed after the neighbourhood was set up (Fits.fixed) - the GF(2) stage of the setup does fix variables afterwards, and they are then moved: a call can start feasible and report values that violate the model (witness); and every free variable occurs in an enabled constraint (Constrained, used for merged moves only). Pairs for two-flip moves are pairs of free 0/1 variables (what the extractor gives, C71).')
c('C75','partial','incumbents_were_visited every_call_ends_with_a_result_partial selection_moves_are_defined_partial Doubled.two_swaps_of_one_selection_are_merged Twice.better_solution_is_visited_and_lost','Same assumptions on the model as C74; that every free variable occurs in an enabled constraint is needed: with the default options, local search otherwise merges two swaps of one selection, stores values better than the optimum as feasible incumbent, and the call throws (witness); and it merges two moves of a variable whose constraints are all redundant, stores a wrong objective and so loses a better solution visited later (witness). That starts take up values visited before follows from incumbents_were_visited and the sources of the starts (solver.h:146-192, tabu_search_controller_state_manager.h:1323-1342), which are assumed; Lagrange dual is not run with selections (lagrange_dual_controller.h:50-64).')
c('C76','partial','call_ends_with_right_report_partial','From the model of the user to the report: the conditions on the prepared model used by C74 and C75 are derived here from the setup. Remaining conditions: those of Ordinary (C68: integer coefficients, no extraction of dependent variables, default bounds of options), no parity equations (C74: Late), every free variable in an enabled constraint (C75: Doubled), the searches take moves of the neighbourhood (Follows) and start from values visited before. The bounding of variables during the search is left out (preprocess.is_enabled_online_bounding off); see C77 for what it can do.')
c('C77','partial','bounding_keeps_what_is_as_good_partial bounding_keeps_the_optimum_partial bounding_only_when_asked Maximise.maximisation_throws Maximise.maximisation_loses_everything Fraction.fractional_objective_loses_the_incumbent Broken.bounding_can_break_a_selection','Proved for minimisation, and for maximisation as long as the best objective is not negative; nonzero coefficients; integral contributions of the fixed variables to the objective. Each condition is needed: maximising with a negative best objective throws or loses every solution, fractional fixed contributions can cut off the incumbent, and a variable of a selection fixed by the bounding lets later swaps choose a second one (with the default options; the call ends with an exception).')
c('C78','partial','restart_rules exact_rules call_ends_with_right_report_partial','The rules: all outcomes. The whole call: as C76, but the starts are computed by the call (no assumption on them is left) and Lagrange dual is skipped by the rule of the code. Left out: bounding of variables during the search (C77 shows that the guarantee fails with it), PDLP, and what is left out in C76.')
c('C79','proved','target_in_the_users_direction ordinary_target default_target no_objective_stops_when_feasible nothing_after_limit searches_end no_late_steps target_stops_the_call','Steps are the steps of the loops of Lagrange dual, local search and tabu search. Setup, the construction of a search, and the initial modification of tabu search are not limited by the code and are not claimed to be. PDLP is not part of this (C80).')
c('C80','partial','run_ends points_within_bounds reported_objective_is_bound exact_bound optimal_verdict exact_optimum infeasible_verdict_partial controller_ends controller_bound controller_infeasible_partial infeasible_verdict_is_wrong optimal_reports_another_point zero_interval_is_undefined','Ending, bounds, the dual objective and OPTIMAL are proved for every LP, start, restart decision and clock. INFEASIBLE is false in general: the upper bound it uses leaves out the contribution of fixed variables (infeasible_verdict_is_wrong); infeasible_verdict_partial is for an offset below 1. The point that is kept with OPTIMAL can be another one than the verdict is about (optimal_reports_another_point). Intervals of 0 are undefined behaviour. The comparison of normalized gaps that decides about restarts is arbitrary in the model. Convergence is not claimed.')
c('C81','partial','dependent_rounds_keep_problem_partial restored_values_are_feasible_partial pairs_form_no_cycle wrong_selection_accepts_infeasible','All rounds, all stages up to the selections. Conditions (ProperDep): those of C67, definitions of one round without cycle (always true if only equalities of two variables with coefficients 1 and -1 are used: pairs_form_no_cycle; needed: C29 cycle_of_three_loses_solutions), and set variables are not removed afterwards. That no undefined behaviour occurs is not claimed: see C67 substitution_leads_to_undefined_behaviour. The part on selections is false with the default options: the flags of a constraint are not computed anew after a substitution, so a cardinality constraint can become a selection, and the search then accepts assignments that violate the model (witness).')
c('C82','partial','report_solves_user_model_with_dependents_partial stale_margin_loses_feasible_solution','Setup with all rounds of dependent variables, verification of the initial values, any list of search events, report. Missing: exclusive or / nor pairs (with them, which is the default, the guarantee fails: stale_margin_loses_feasible_solution), models whose definitions form a cycle in a round (C29), the restrictions of Proper (C67), parity equations (C63); the objective is only claimed for feasible reports.')
c('C83','partial','every_search_has_options options_are_allowed_partial iteration_limit_holds_partial tenure_stays_in_range improvement_makes_next_search_cautious stagnation_widens_next_search thread_counts_tried thread_counts_are_tried_in_turn thread_count_has_largest_confidence mean_lies_within_scores average_of_threads_is_right seed_and_number_of_modifications_are_ignored thread_setting_is_lost iteration_limit_is_exceeded','Proved for all options, machines and results of searches, except for what the code does otherwise: the limit for iterations is exceeded if it is below the initial tabu tenure (iteration_limit_is_exceeded; iteration_limit_holds_partial is for the other case), a number of threads set by the user holds for the first search only (thread_setting_is_lost), the seed and the number of initial modifications set by the user have no effect.')
c('C84','partial','updates_are_reported_truly no_update_reported_iff ranges_are_right rate_is_right flags_are_right counts_are_right performance_is_a_share_partial early_stop_is_justified penalties_too_large_iff stored_solutions improved_feasible_incumbent_is_stored_partial performance_exceeds_one performance_undefined best_solution_is_not_stored','Proved for all searches, except for what the code does otherwise: solutions met at the start and in the initial modification are never stored, so the best feasible solution may be missing from the stored ones (best_solution_is_not_stored); the share of effective moves exceeds 1 with initial modifications (performance_exceeds_one) and is 0/0 without iterations (performance_undefined). The solutions a search visits are arbitrary.')
c('C85','partial','arrays_show_values_partial document_by_array_partial file_by_array_partial document_by_name file_by_name_partial file_by_name value_at_index single_value small_numbers_are_lost names_are_merged index_outside_is_read empty_dimension_loses_shape section_keys','The file by names is proved for all values and for names without quotation marks that stay different in the spelling of the reader (file_by_name); the file by arrays for all shapes and values under plain and distinct names; exactness needs numbers that six decimals and seven digits can show. What the code does otherwise: numbers below half a millionth are written as zero by arrays (small_numbers_are_lost), names with commas are changed and merged (names_are_merged), an index outside of the shape may read another element (index_outside_is_read), an empty dimension loses the shape (empty_dimension_loses_shape).')
c('C86','partial','document_is_the_problem document_has_the_objective document_has_the_best_value file_echo file_echo_any file_is_the_problem_partial file_is_near_the_problem names_stay_different bestOn_iff file_after_a_call_partial objective_constant_is_lost no_name_is_null names_become_equal definitions_are_lost','The document is the problem for all models and names; through the file for names without quotation marks, exactly for coefficients of seven digits and up to seven digits for all others. Not so: the constant of the objective is not written (objective_constant_is_lost), an empty name is written as null (no_name_is_null), names that differ in a comma and a space become equal when read (names_become_equal), and the file that the command line tool writes after the solve lacks the definitions of replaced variables (definitions_are_lost).')
c('C87','proved','file_of_a_call solution_doc file_echo collect_eq','Entries may repeat (C12.archive_may_hold_duplicates), and which visited solutions the searches hand over is C84 (best_solution_is_not_stored).')
c('C88','partial','program_gets_its_problem_partial constraints_keep_their_meaning element_assigned_from_an_array slice_of_assigned_elements','False of the code for two forms, shown by programs: an element assigned by = from an array standing for its only element loses the constant of that array (element_assigned_from_an_array), and elements assigned a whole expression by = leave the sums over slices of their array (slice_of_assigned_elements). Proved for all programs without these two forms.')
c('C89','partial','stated_problem_is_reported_rightly_partial','Composes C88 with C76; the restrictions are those of C76 (integral constraints, bounds below 100000, moves from the neighbourhood, no parity equations) and bounds are not changed after the first constraint (C07.stale_binary_flag_breaks).')
c('C90','partial','file_gets_its_problem_partial values_by_name constant_of_the_objective_is_lost second_free_row_is_refused comments_are_read direction_is_ignored binary_record_with_number_is_ignored','False of the code for files outside of Doc.OK, shown by files: the right-hand side of the free row is dropped, a second free row makes the file refused, comment lines are read as records, the direction of the objective is ignored, BV records with a number are ignored. Proved for all other files with the five sections; numbers in BOUNDS are integers (C44), ranges are C43.')
c('C91','partial','file_is_reported_rightly_partial','Composes C90 with C76; the restrictions are those of C76 (integral constraints, bounds below 100000, moves from the neighbourhood, no parity equations).')
c('C92','partial','solution_file_is_right_partial','Composes C70 (command line and auxiliary files), C90 (MPS file), C78 (call with its phases) and the printing of numbers. Missing: the restrictions of C78 (integral constraints, bounds below 100000, no parity equations, no dependent variables, bounding during the search switched off, at least one constraint in force), 0/1 variables fixed at 1 when redundant set constraints or variables are removed, and setups that throw.')
c('C93','partial','original_counts presolved_counts occurrences_counted occurrences_fit_partial setup_shrinks setup_adds call_keeps_outline status_of_call_partial density_above_one constraints_added original_not_original empty_ranges','Proved: all counts of variables and constraints by state, kind and type, the number of nonzeros, the figures of the constraints, and the flag for feasibility at the end of a call. False of the code, shown by models: with fixed variables the density exceeds 1 and the mean per variable exceeds the maximum; the number of constraints includes those added by the presolve; the nonzeros labelled original are those after the elimination of dependent variables; without constraints the range is reported as 2147483647 to -2147483648. Missing: what is missing in C78, times, option and penalty coefficients in the status.')
c('C94','partial','call_with_bounding_reports_right_partial call_with_bounding_returns_partial call_with_bounding_from_neighbourhood_partial','Proved: searches that take their moves from the neighbourhood, whose generators are set up again when a bounding fixes variables, only accept moves within the bounds of the moment; with the restarts of the mode smart (the default) every call with bounding returns, whatever moves and penalty coefficients it uses: each search starts within the bounds of the moment, no bounding fails; in both modes, when the call returns, feasibility flag, objective and comparison with all solutions come across are right, and the ranges at the end contain every assignment at least as good as the reported one. Restricted to minimisation with integral coefficients and no selections (C77 shows that bounding goes wrong otherwise). Missing: that the call returns in the mode simple; variables in no enabled constraint; what is missing in C68.')
c('C95','partial','lists_are_those_of_a_shortest_tree best_solution_is_listed_when_minimizing_partial best_solution_is_missing_when_maximizing best_solution_may_be_missing','Proved for all histories: no index out of range, content and order of the archive, the tree is a shortest one, frontier and locally optimal solutions as stored are exactly those of it. The last clause is proved for minimization and false of the code for maximization (the objective is stored without the sign of the sense, model.h:3241): with feasible solutions only, the incumbent is never listed.')
c('C96','partial','stated_problem_is_reported_rightly_with_bounding_partial file_is_reported_rightly_with_bounding_partial solution_file_is_right_with_bounding_partial','Proved for all programs, files and command lines within the restrictions, all courses of the search taken from the neighbourhood, and any number of narrowings. Missing: the restrictions of a whole call (Restricted), selections, objectives with fractions or to be maximised (for these the property is false of the code, see C77), parity equations, and modes of restart other than the default for the claim that the call returns.')
c('C97','partial','rows_show_what_was_met rows_show_the_truth_partial marks_are_right nothing_new_is_hidden rows_are_printed_in_time incumbent_violation_is_shown_negative announced_row_shows_infeasible_incumbent','Proved for all histories: numbers of the current solution, marks, completeness, times of printing. The violation of the incumbent is right in minimizations only: in maximizations it is printed with the opposite sign (incumbent_violation_is_shown_negative). A row announcing a new feasible solution may show an infeasible incumbent (announced_row_shows_infeasible_incumbent). Missing: numbers not on a grid, the mark ! of tabu search, the columns with numbers of neighborhoods, the Lagrangian and the step size, digits and colors.')
c('C98','proved','counts_are_right update_counts_by_name violation_counts_by_name penalties_by_name equal_names_hide_counts','Proved for all histories in the setting of C66. equal_names_hide_counts shows why the names must differ.')
c('C99','partial','seldom_updated often_updated constraints_listed frequency_is_right_partial frequency_is_not_understated current_solution violated_are_listed frequency_is_overstated six_lines_instead_of_five','Proved for all histories, except that the frequency shown for a constraint is the share of the moves only if every move alters one variable; in general it is too high (frequency_is_overstated) and never too low. The lists have six lines although five are meant (six_lines_instead_of_five).')
c('C100','partial','searches_end_for_a_reason called_once_after_each_search reading_changes_nothing truthful what_is_read_is_right_partial what_is_read_is_right_with_bounding_partial written_options_have_no_effect','Calls, order and truth of what is read are proved for functions that only read the incumbents, in the setting of C78 and, with the bounding of variables during the search that is on by default, in that of C94. The last sentence is refuted: the options given are a copy made for the search just finished, so writing to them has no effect at all (written_options_have_no_effect).')
c('C101','partial','solved_iff refused_iff element_names initialized_keeps initialized_undefined initialized_new_partial','The first two sentences are proved for all histories. The last one is refuted: initialize() reserves the lists of arrays without clearing them but clears the lists of their names, so the old problem stays (initialized_keeps), and a call after arrays have been created again reads behind the end of the list of names (initialized_undefined); it is proved only for objects with which nothing was built (initialized_new_partial).')
c('C102','partial','inside_right before_right_partial table_of_call comparisons_do_not_add_up','Proved but for one group: before the parentheses the comparisons count only the constraints that are switched on while the total and the types count all, so they add up exactly if none is switched off (before_right_partial; comparisons_do_not_add_up is a model where they do not).')
c('C103','partial','rows_right rows_show_the_truth_partial objective_is_written_negated','Proved for all histories, but in maximizations the objectives are written with the opposite sign (rows_right says exactly what is written; objective_is_written_negated is a case), unlike in the tables on the screen. As in C97 the coefficients of the constraints are multiples of a number above 1e-10 (sums of violations are exact).')
c('C104','proved','problem_as_built same_solutions','For every model and every setting of the other options. About the model the searches start with; the tightening of bounds during the searches, switched off with the presolve as well, is the subject of C96.')
c('C105','partial','gap_eq gap_never_negative zero_at_solutions_partial zero_at_an_infeasible_point positive_at_a_solution','Proved: the gap is the rate of change of the Lagrangian along the directions of the code, never negative, and zero at solutions with no row above its right hand side. Refuted: the test of the rows uses the upper bound of the dual variable twice, so shortfalls are never counted (gap zero at an infeasible point) and rows that are not tight always are (gap positive at a solution). Results stay right: C80 holds for every way to decide about restarts.')
c('C106','partial','report_tells_the_truth_partial report_with_any_numbers_partial report_solves_user_problem_partial setup_throws_iff call_reports','Proved for every problem with integer and 0/1 variables whose numbers in constraints are multiples of some g above 1e-10 (above 1e-5 for the exact statement). For finer numbers a tolerance of 1e-10 per constraint and move is proved (report_with_any_numbers_partial). Missing: 0/1 variables that are not fixed although only one value is left, whose bounds the setup ignores (C51). When a call throws is characterized exactly (setup_throws_iff, call_reports).')
c('C107','partial','restarts_again_and_again restart_where restart_why_partial second_loop_ends_at_once restart_without_progress','Proved for all gaps: restarts recur, at checks only, from the better point; the reasons of each restart are given exactly. Refuted: the gap is compared with that noted for the restart before the last one (setup_new_inner_loop moves current to previous, update_restart_information reads previous), so the second loop ends at its first check whatever the gap and a restart may come although the gap has grown a hundredfold.')
c('C108','proved','run_gaps_ends run_is_planned decisions_by_gaps points_stay_within_bounds optimal_is_optimal restarts_of_a_run restart_from_better','The iterations of C80, the gaps of C105 and the decisions of C107 composed: each run is one of C80 and one of C107. If a point has not moved since the last restart, the radius is 0 and the code divides by it: the gap is then 0 in the model and not a finite number in the code, so that the two may decide differently. Termination, bounds and verdicts hold for all decisions (C80), the comparison of gaps (restart_from_better) is meant for positive radii.')
