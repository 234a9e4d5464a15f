'Printemps.C01.binary_operators_mean_arithmetic' depends on axioms: [propext, Classical.choice, Quot.sound]
'Printemps.C01.compound_assignments_mean_arithmetic' depends on axioms: [propext, Classical.choice, Quot.sound]
'Printemps.C01.binary_operators_no_duplicates' depends on axioms: [propext, Classical.choice, Quot.sound]
'Printemps.C01.compound_assignments_no_duplicates' depends on axioms: [propext, Classical.choice, Quot.sound]
'Printemps.C01.evaluation_order_irrelevant' depends on axioms: [propext, Classical.choice, Quot.sound]
'Printemps.C01.assign_like_drops_constant' depends on axioms: [propext, Classical.choice, Quot.sound]
'Printemps.C02.sideDiff_value' depends on axioms: [propext, Classical.choice, Quot.sound]
'Printemps.C02.violation_is_gap' depends on axioms: [propext, Classical.choice, Quot.sound]
'Printemps.C02.violation_zero_iff' depends on axioms: [propext, Classical.choice, Quot.sound]
'Printemps.C02.comparison_builds_constraint' depends on axioms: [propext, Classical.choice, Quot.sound]
'Printemps.C03.bounds_enclose' depends on axioms: [propext, Classical.choice, Quot.sound]
'Printemps.C03.lower_bound_attained' depends on axioms: [propext, Classical.choice, Quot.sound]
'Printemps.C03.upper_bound_attained' depends on axioms: [propext, Classical.choice, Quot.sound]
'Printemps.C04.incremental_eq_recomputation' depends on axioms: [propext, Classical.choice, Quot.sound]
'Printemps.C04.update_move_current' depends on axioms: [propext, Classical.choice, Quot.sound]
'Printemps.C04.incremental_order_irrelevant' depends on axioms: [propext, Classical.choice, Quot.sound]
'Printemps.C04.repeated_variable_breaks' depends on axioms: [propext, Classical.choice, Quot.sound]
'Printemps.C05.full_update_semantics' depends on axioms: [propext, Classical.choice, Quot.sound]
'Printemps.C05.incremental_update_semantics' depends on axioms: [propext, Classical.choice, Quot.sound]
'Printemps.C05.incremental_eq_full' depends on axioms: [propext, Classical.choice, Quot.sound]
'Printemps.C05.margin_flag_incremental_imp_full' depends on axioms: [propext, Classical.choice, Quot.sound]
'Printemps.C05.margin_flag_differs' depends on axioms: [propext, Classical.choice, Quot.sound]
'Printemps.C06.full_score_describes_moved_assignment' depends on axioms: [propext, Classical.choice, Quot.sound]
'Printemps.C06.full_score_feasibility_improvable' depends on axioms: [propext, Classical.choice, Quot.sound]
'Printemps.C06.full_score_is_score_after_update' depends on axioms: [propext, Classical.choice, Quot.sound]
'Printemps.C06.score_flag_vs_model_flag' depends on axioms: [propext, Classical.choice, Quot.sound]
'Printemps.C07.single_score_within_tolerance' depends on axioms: [propext, Classical.choice, Quot.sound]
'Printemps.C07.single_score_eq_full' depends on axioms: [propext, Classical.choice, Quot.sound]
'Printemps.C07.setupSens_ok' depends on axioms: [propext, Quot.sound]
'Printemps.C07.setup_maxAbs' depends on axioms: [propext, Classical.choice, Quot.sound]
'Printemps.C07.update_flagOK' depends on axioms: [propext, Classical.choice, Quot.sound]
'Printemps.C07.updateMove_flagOK' depends on axioms: [propext, Classical.choice, Quot.sound]
'Printemps.C07.updateMove_flag_exact' depends on axioms: [propext, Classical.choice, Quot.sound]
'Printemps.C07.stale_binary_flag_breaks' depends on axioms: [propext, Classical.choice, Quot.sound]
'Printemps.C08.multi_score_within_tolerance' depends on axioms: [propext, Classical.choice, Quot.sound]
'Printemps.C08.multi_score_eq_full' depends on axioms: [propext, Classical.choice, Quot.sound]
'Printemps.C08.multi_score_improvable' depends on axioms: [propext, Classical.choice, Quot.sound]
'Printemps.C08.dispatched_score_eq_full' depends on axioms: [propext, Classical.choice, Quot.sound]
'Printemps.C09.selection_score_within_tolerance' depends on axioms: [propext, Classical.choice, Quot.sound]
'Printemps.C09.selection_score_eq_full' depends on axioms: [propext, Classical.choice, Quot.sound]
'Printemps.C09.selection_disjoint_exact' depends on axioms: [propext, Classical.choice, Quot.sound]
'Printemps.C09.buildRelated_ok' depends on axioms: [propext, Classical.choice, Quot.sound]
'Printemps.C10.values_never_drift' depends on axioms: [propext, Classical.choice, Quot.sound]
'Printemps.C10.feasibility_flag_exact' depends on axioms: [propext, Classical.choice, Quot.sound]
'Printemps.C10.full_update_starts' depends on axioms: [propext, Classical.choice, Quot.sound]
'Printemps.C11.feasible_incumbent_is_best' depends on axioms: [propext, Classical.choice, Quot.sound]
'Printemps.C11.global_incumbent_is_best' depends on axioms: [propext, Classical.choice, Quot.sound]
'Printemps.C11.local_incumbent_is_best' depends on axioms: [propext, Classical.choice, Quot.sound]
'Printemps.C11.incumbents_never_worsen' depends on axioms: [propext, Classical.choice, Quot.sound]
'Printemps.C11.status_says_what_changed' depends on axioms: [propext, Classical.choice, Quot.sound]
'Printemps.C11.model_overload_agrees' depends on axioms: [propext, Classical.choice, Quot.sound]
'Printemps.C12.archive_sorted' depends on axioms: [propext, Classical.choice, Quot.sound]
'Printemps.C12.archive_capacity' depends on axioms: [propext, Quot.sound]
'Printemps.C12.archive_only_pushed' depends on axioms: [propext, Quot.sound]
'Printemps.C12.archive_neighbours_differ' depends on axioms: [propext, Classical.choice, Quot.sound]
'Printemps.C12.archive_keeps_best' depends on axioms: [propext, Classical.choice, Quot.sound]
'Printemps.C12.archive_has_best' depends on axioms: [propext, Classical.choice, Quot.sound]
'Printemps.C12.archive_off_is_recent' depends on axioms: [propext, Classical.choice, Quot.sound]
'Printemps.C12.archive_may_hold_duplicates' depends on axioms: [propext, Classical.choice, Quot.sound]
'Printemps.C13.flat_index_in_range' depends on axioms: [propext, Quot.sound]
'Printemps.C13.multi_index_of_flat_index' depends on axioms: [propext, Quot.sound]
'Printemps.C13.flat_index_unique' depends on axioms: [propext, Quot.sound]
'Printemps.C13.flat_index_row_major' depends on axioms: [propext]
'Printemps.C14.labels_unique' depends on axioms: [propext, Classical.choice, Quot.sound]
'Printemps.C14.scalar_label' depends on axioms: [propext, Quot.sound]
'Printemps.C15.lookup_agrees' depends on axioms: [propext, Classical.choice, Quot.sound]
'Printemps.C16.is_same_iff_connected' depends on axioms: [propext, Classical.choice, Quot.sound]
'Printemps.C16.unite_reports_new' depends on axioms: [propext, Classical.choice, Quot.sound]
'Printemps.C17.mst_minimum_spanning_forest' depends on axioms: [propext, Classical.choice, Quot.sound]
'Printemps.C18.full_rank_gives_inverse' depends on axioms: [propext, Classical.choice, Quot.sound]
'Printemps.C18.dot_is_product' depends on axioms: [propext, Classical.choice, Quot.sound]
'Printemps.C18.solves_linear_system' depends on axioms: [propext, Classical.choice, Quot.sound]
'Printemps.C19.full_rank_iff_invertible' depends on axioms: [propext, Classical.choice, Quot.sound]
'Printemps.C19.rank_le_size' depends on axioms: [propext, Classical.choice, Quot.sound]
'Printemps.C19.deficient_rank_has_kernel' depends on axioms: [propext, Classical.choice, Quot.sound]
'Printemps.C20.reachability_iff_path' depends on axioms: [propext, Classical.choice, Quot.sound]
'Printemps.C21.tightening_keeps_solutions_partial' depends on axioms: [propext, Classical.choice, Quot.sound]
'Printemps.C21.tightening_keeps_solutions_of_two_mutable' depends on axioms: [propext, Classical.choice, Quot.sound]
'Printemps.C21.reduction_terminates' depends on axioms: [propext, Classical.choice, Quot.sound]
'Printemps.C21.reduction_keeps_solutions' depends on axioms: [propext, Classical.choice, Quot.sound]
'Printemps.C21.reduction_exact' depends on axioms: [propext, Classical.choice, Quot.sound]
'Printemps.C21.fractional_fixed_terms_lose_a_solution' depends on axioms: [propext, Classical.choice, Quot.sound]
'Printemps.C21.zero_coefficient_is_undefined' depends on axioms: [propext, Classical.choice, Quot.sound]
'Printemps.C22.dropped_constraint_is_implied' depends on axioms: [propext, Classical.choice, Quot.sound]
'Printemps.C22.implied_inequality_is_dropped' depends on axioms: [propext, Classical.choice, Quot.sound]
'Printemps.C23.singleton_absorbed_partial' depends on axioms: [propext, Classical.choice, Quot.sound]
'Printemps.C23.singleton_value_set_partial' depends on axioms: [propext, Classical.choice, Quot.sound]
'Printemps.C23.fractional_equality_is_lost' depends on axioms: [propext, Classical.choice, Quot.sound]
'Printemps.C23.equality_outside_bounds_is_accepted' depends on axioms: [propext, Classical.choice, Quot.sound]
'Printemps.C23.large_bound_is_lost' depends on axioms: [propext, Classical.choice, Quot.sound]
'Printemps.C24.implicit_equalities_preserve_feasibility' depends on axioms: [propext, Classical.choice, Quot.sound]
'Printemps.C24.merged_pair_is_the_equality' depends on axioms: [propext, Classical.choice, Quot.sound]
'Printemps.C24.added_are_equalities' depends on axioms: [propext, Classical.choice, Quot.sound]
'Printemps.C25.removing_duplicates_preserves_feasibility' depends on axioms: [propext, Classical.choice, Quot.sound]
'Printemps.C25.removing_duplicates_only_disables' depends on axioms: [propext, Classical.choice, Quot.sound]
'Printemps.C26.no_solution_lost' depends on axioms: [propext, Classical.choice, Quot.sound]
'Printemps.C26.solutions_unchanged_partial' depends on axioms: [propext, Classical.choice, Quot.sound]
'Printemps.C26.fixed_variable_is_overwritten' depends on axioms: [propext, Classical.choice, Quot.sound]
'Printemps.C27.fixing_independent_keeps_optimum_partial' depends on axioms: [propext, Classical.choice, Quot.sound]
'Printemps.C27.fixed_value_within_bounds_partial' depends on axioms: [propext, Classical.choice, Quot.sound]
'Printemps.C27.reduction_keeps_optimum' depends on axioms: [propext, Classical.choice, Quot.sound]
'Printemps.C27.fixed_outside_bounds' depends on axioms: [propext, Classical.choice, Quot.sound]
'Printemps.C28.dropping_dominated_keeps_optimum_partial' depends on axioms: [propext, Classical.choice, Quot.sound]
'Printemps.C28.negative_costs_lose_optimum' depends on axioms: [propext, Classical.choice, Quot.sound]
'Printemps.C28.fixed_variable_is_overwritten' depends on axioms: [propext, Classical.choice, Quot.sound]
'Printemps.C29.solved_equality_is_equivalent' depends on axioms: [propext, Classical.choice, Quot.sound]
'Printemps.C29.substitution_keeps_value' depends on axioms: [propext, Classical.choice, Quot.sound]
'Printemps.C29.extraction_keeps_feasible_partial' depends on axioms: [propext, Classical.choice, Quot.sound]
'Printemps.C29.elimination_keeps_feasible_partial' depends on axioms: [propext, Classical.choice, Quot.sound]
'Printemps.C29.dependent_variables_preserve_problem_partial' depends on axioms: [propext, Classical.choice, Quot.sound]
'Printemps.C29.no_mutual_definitions' depends on axioms: [propext, Quot.sound]
'Printemps.C29.two_candidates_are_acyclic' depends on axioms: [propext, Classical.choice, Quot.sound]
'Printemps.C29.cycle_of_three_loses_solutions' depends on axioms: [propext, Classical.choice, Quot.sound]
'Printemps.C30.selections_do_not_overlap' depends on axioms: [propext, Classical.choice, Quot.sound]
'Printemps.C30.selections_mean_exactly_one_partial' depends on axioms: [propext, Classical.choice, Quot.sound]
'Printemps.C30.choice_is_maximal' depends on axioms: [propext, Classical.choice, Quot.sound]
'Printemps.C30.extraction_effect' depends on axioms: [propext, Classical.choice, Quot.sound]
'Printemps.C30.selection_of_a_stale_constraint' depends on axioms: [propext, Classical.choice, Quot.sound]
'Printemps.C31.one_variable_stays_selected' depends on axioms: [propext, Classical.choice, Quot.sound]
'Printemps.C31.moves_are_defined' depends on axioms: [propext, Classical.choice, Quot.sound]
'Printemps.C31.search_starts_in_order' depends on axioms: [propext, Classical.choice, Quot.sound]
'Printemps.C31.fixed_selected_variable_is_not_recorded' depends on axioms: [propext, Classical.choice, Quot.sound]
'Printemps.C32.binary_moves_flip_partial' depends on axioms: [propext, Quot.sound]
'Printemps.C32.all_binary_moves_are_offered' depends on axioms: [propext, Quot.sound]
'Printemps.C32.integer_moves_stay_inside' depends on axioms: [propext, Classical.choice, Quot.sound]
'Printemps.C32.unit_steps_are_offered' depends on axioms: [propext, Quot.sound]
'Printemps.C32.bounds_are_kept' does not depend on any axioms
'Printemps.C32.binary_move_can_leave_bounds' depends on axioms: [propext, Quot.sound]
'Printemps.C33.moves_satisfy_their_constraint' depends on axioms: [propext, Classical.choice, Quot.sound]
'Printemps.C33.every_constraint_gets_moves' depends on axioms: [propext, Classical.choice, Quot.sound]
'Printemps.C33.trinomial_moves_satisfy_their_constraint' depends on axioms: [propext, Classical.choice, Quot.sound]
'Printemps.C34.moves_satisfy_their_constraint_partial' depends on axioms: [propext, Classical.choice, Quot.sound]
'Printemps.C34.negative_sum_moves_always_violate' depends on axioms: [propext, Classical.choice, Quot.sound]
'Printemps.C34.difference_moves_can_violate' depends on axioms: [propext, Classical.choice, Quot.sound]
'Printemps.C34.ratio_moves_can_violate' depends on axioms: [propext, Classical.choice, Quot.sound]
'Printemps.C35.precedence_moves_keep_the_constraint' depends on axioms: [propext, Classical.choice, Quot.sound]
'Printemps.C35.variable_bound_moves_satisfy_the_constraint' depends on axioms: [propext, Classical.choice, Quot.sound]
'Printemps.C35.aggregation_moves_are_nearest' depends on axioms: [propext, Classical.choice, Quot.sound]
'Printemps.C36.enabled_moves_respect_fixings_and_bounds' depends on axioms: [propext, Quot.sound]
'Printemps.C36.enabled_user_moves_respect_fixings_and_bounds' depends on axioms: [propext, Quot.sound]
'Printemps.C36.enabled_unchecked_moves_partial' depends on axioms: [propext, Classical.choice, Quot.sound]
'Printemps.C36.enabled_moves_change_something_partial' depends on axioms: [propext, Classical.choice, Quot.sound]
'Printemps.C36.ratio_move_can_change_nothing' depends on axioms: [propext, Classical.choice, Quot.sound]
'Printemps.C36.soft_selection_move_can_leave_bounds' depends on axioms: [propext, Classical.choice, Quot.sound]
'Printemps.C37.adjusted_value' depends on axioms: [propext, Classical.choice, Quot.sound]
'Printemps.C37.adjusted_move' depends on axioms: [propext, Classical.choice, Quot.sound]
'Printemps.C37.adjusted_move_no_worse' depends on axioms: [propext, Classical.choice, Quot.sound]
'Printemps.C38.bookkeeping' depends on axioms: [propext, Classical.choice, Quot.sound]
'Printemps.C38.intensities_in_range' depends on axioms: [propext, Classical.choice, Quot.sound]
'Printemps.C38.last_update_stamps' depends on axioms: [propext, Classical.choice, Quot.sound]
'Printemps.C39.shrunken_penalty_exact' depends on axioms: [propext, Classical.choice, Quot.sound]
'Printemps.C39.setup_coefficient' depends on axioms: [propext, Classical.choice, Quot.sound]
'Printemps.C39.shrinking_only_to_exact' depends on axioms: [propext, Classical.choice, Quot.sound]
'Printemps.C39.small_initial_coefficient_not_exact' depends on axioms: [propext, Classical.choice, Quot.sound]
'Printemps.C40.naive_bound_is_bound' depends on axioms: [propext, Classical.choice, Quot.sound]
'Printemps.C40.naive_bound_attained' depends on axioms: [propext, Classical.choice, Quot.sound]
'Printemps.C40.naive_bound_below_feasible' depends on axioms: [propext, Classical.choice, Quot.sound]
'Printemps.C41.lagrangian_is_dual_bound' depends on axioms: [propext, Classical.choice, Quot.sound]
'Printemps.C41.lagrangian_below_feasible_partial' depends on axioms: [propext, Classical.choice, Quot.sound]
'Printemps.C41.multipliers_in_region' depends on axioms: [propext, Classical.choice, Quot.sound]
'Printemps.C41.run_defined' depends on axioms: [propext, Classical.choice, Quot.sound]
'Printemps.C41.controller_bound' depends on axioms: [propext, Classical.choice, Quot.sound]
'Printemps.C41.incumbent_lagrangian_is_best' depends on axioms: [propext, Classical.choice, Quot.sound]
'Printemps.C41.setup_ready' depends on axioms: [propext, Classical.choice, Quot.sound]
'Printemps.C41.disabled_constraint_breaks_bound' depends on axioms: [propext, Classical.choice, Quot.sound]
'Printemps.C41.maximisation_bound_wrong' depends on axioms: [propext, Classical.choice, Quot.sound]
'Printemps.C42.dual_objective_with_residual' depends on axioms: [propext, Classical.choice, Quot.sound]
'Printemps.C42.dual_objective_is_lower_bound' depends on axioms: [propext, Classical.choice, Quot.sound]
'Printemps.C42.reported_objective_is_lower_bound' depends on axioms: [propext, Classical.choice, Quot.sound]
'Printemps.C42.average_is_weighted_mean' depends on axioms: [propext, Classical.choice, Quot.sound]
'Printemps.C42.exported_bound_up_to_constant' depends on axioms: [propext, Classical.choice, Quot.sound]
'Printemps.C42.controller_bound_partial' depends on axioms: [propext, Classical.choice, Quot.sound]
'Printemps.C42.export_defined_iff' depends on axioms: [propext, Classical.choice, Quot.sound]
'Printemps.C42.export_exact' depends on axioms: [propext, Classical.choice, Quot.sound]
'Printemps.C42.unconstrained_export_is_undefined' depends on axioms: [propext, Classical.choice, Quot.sound]
'Printemps.C42.constant_is_ignored' depends on axioms: [propext, Classical.choice, Quot.sound]
'Printemps.C42.constant_breaks_the_bound' depends on axioms: [propext, Classical.choice, Quot.sound]
'Printemps.C42.small_residual_is_not_enough' depends on axioms: [propext, Classical.choice, Quot.sound]
'Printemps.C43.range_rows' depends on axioms: [propext, Classical.choice, Quot.sound]
'Printemps.C43.range_line' depends on axioms: [propext, Classical.choice, Quot.sound]
'Printemps.C43.range_frame' depends on axioms: [propext, Classical.choice, Quot.sound]
'Printemps.C43.installed_iff' depends on axioms: [propext, Classical.choice, Quot.sound]
'Printemps.C43.standard_contains_rhs' depends on axioms: [propext, Classical.choice, Quot.sound]
'Printemps.C43.zero_range_standard_partial' depends on axioms: [propext, Classical.choice, Quot.sound]
'Printemps.C43.nonzero_range_excludes_everything' depends on axioms: [propext, Classical.choice, Quot.sound]
'Printemps.C43.imported_row' depends on axioms: [propext, Classical.choice, Quot.sound]
'Printemps.C44.toInt_spec' depends on axioms: [propext, Classical.choice, Quot.sound]
'Printemps.C44.record_effect' depends on axioms: [propext, Classical.choice, Quot.sound]
'Printemps.C44.record_exact_partial' depends on axioms: [propext, Classical.choice, Quot.sound]
'Printemps.C44.record_integer' depends on axioms: [propext]
'Printemps.C44.record_wrong_otherwise' depends on axioms: [propext, Classical.choice, Quot.sound]
'Printemps.C44.huge_numbers_are_undefined' depends on axioms: [propext, Classical.choice, Quot.sound]
'Printemps.C44.records_without_value' depends on axioms: [propext, Classical.choice, Quot.sound]
'Printemps.C44.default_bounds' depends on axioms: [propext, Classical.choice, Quot.sound]
'Printemps.C44.plus_infinity_resets_lower_bound' does not depend on any axioms
'Printemps.C45.round_trip_partial' depends on axioms: [propext, Classical.choice, Quot.sound]
'Printemps.C45.round_trip_feasible' depends on axioms: [propext, Classical.choice, Quot.sound]
'Printemps.C45.small_integers_printed' depends on axioms: [propext, Classical.choice, Quot.sound]
'Printemps.C45.six_digits_printed' depends on axioms: [propext, Classical.choice, Quot.sound]
'Printemps.C45.coefficients_close' depends on axioms: [propext, Classical.choice, Quot.sound]
'Printemps.C45.nonnegative_becomes_binary' depends on axioms: [propext, Classical.choice, Quot.sound]
'Printemps.C45.free_becomes_binary' depends on axioms: [propext, Classical.choice, Quot.sound]
'Printemps.C45.lower_bound_lost' depends on axioms: [propext, Classical.choice, Quot.sound]
'Printemps.C45.coefficients_rounded' depends on axioms: [propext, Classical.choice, Quot.sound]
'Printemps.C45.unused_variable_unreadable' depends on axioms: [propext, Classical.choice, Quot.sound]
'Printemps.C45.name_unreadable' depends on axioms: [propext, Classical.choice, Quot.sound]
'Printemps.C45.two_coefficients_on_a_line' depends on axioms: [propext, Classical.choice, Quot.sound]
'Printemps.C45.two_right_hand_sides_on_a_line' depends on axioms: [propext, Classical.choice, Quot.sound]
'Printemps.C45.two_ranges_on_a_line' depends on axioms: [propext, Classical.choice, Quot.sound]
'Printemps.C46.file_round_trip_object_partial' depends on axioms: [propext, Classical.choice, Quot.sound]
'Printemps.C46.file_round_trip_array_partial' depends on axioms: [propext, Classical.choice, Quot.sound]
'Printemps.C46.file_is_echo_object' depends on axioms: [propext, Classical.choice, Quot.sound]
'Printemps.C46.file_is_echo_array' depends on axioms: [propext, Classical.choice, Quot.sound]
'Printemps.C46.respell_plain' depends on axioms: [propext, Classical.choice, Quot.sound]
'Printemps.C46.echoV_plain' depends on axioms: [propext, Classical.choice, Quot.sound]
'Printemps.C46.real_read_back_close' depends on axioms: [propext, Classical.choice, Quot.sound]
'Printemps.C46.seven_digits_exact' depends on axioms: [propext, Classical.choice, Quot.sound]
'Printemps.C46.quote_in_string_throws' depends on axioms: [propext, Classical.choice, Quot.sound]
'Printemps.C46.text_determines_object' depends on axioms: [propext, Classical.choice, Quot.sound]
'Printemps.C46.text_parser_wrong' depends on axioms: [propext, Classical.choice, Quot.sound]
'Printemps.C46.boolean_in_array_lost' depends on axioms: [propext, Classical.choice, Quot.sound]
'Printemps.C46.comma_in_string_lost' depends on axioms: [propext, Classical.choice, Quot.sound]
'Printemps.C46.large_integer_throws' depends on axioms: [propext, Classical.choice, Quot.sound]
'Printemps.C46.real_rounded' depends on axioms: [propext, Classical.choice, Quot.sound]
'Printemps.C47.construct_defined_iff' depends on axioms: [propext, Quot.sound]
'Printemps.C47.product_is_product' depends on axioms: [propext, Classical.choice, Quot.sound]
'Printemps.C47.wrong_size_throws' depends on axioms: [propext, Classical.choice, Quot.sound]
'Printemps.C47.linear_combination_is_linear_combination' depends on axioms: [propext, Classical.choice, Quot.sound]
'Printemps.C47.transpose_is_transpose' depends on axioms: [propext, Classical.choice, Quot.sound]
'Printemps.C47.transpose_without_rows_is_undefined' depends on axioms: [propext, Quot.sound]
'Printemps.C47.scaling_rows_and_columns' depends on axioms: [propext, Classical.choice, Quot.sound]
'Printemps.C47.scaling_is_recorded' depends on axioms: [propext, Classical.choice, Quot.sound]
'Printemps.C47.unsorted_entries_break_the_product' depends on axioms: [propext, Classical.choice, Quot.sound]
'Printemps.C47.second_setup_is_broken' depends on axioms: [propext, Classical.choice, Quot.sound]
'Printemps.C48.check_accepts' depends on axioms: [propext, Classical.choice, Quot.sound]
'Printemps.C48.sparse_export_content' depends on axioms: [propext, Classical.choice, Quot.sound]
'Printemps.C48.sparse_roundtrip' depends on axioms: [propext, Classical.choice, Quot.sound]
'Printemps.C48.dense_roundtrip' depends on axioms: [propext, Classical.choice, Quot.sound]
'Printemps.C48.map_import' depends on axioms: [propext, Quot.sound]
'Printemps.C48.to_sparse_agrees' depends on axioms: [propext, Classical.choice, Quot.sound]
'Printemps.C48.equal_names_lose_values' depends on axioms: [propext, Classical.choice, Quot.sound]
'Printemps.C49.flags_agree' depends on axioms: [propext, Classical.choice, Quot.sound]
'Printemps.C49.value_within_bounds' depends on axioms: [propext, Classical.choice, Quot.sound]
'Printemps.C49.bounds_are_the_ones_set' depends on axioms: [propext, Quot.sound]
'Printemps.C49.bounds_are_the_last_given' depends on axioms: [propext, Classical.choice, Quot.sound]
'Printemps.C49.bound_throws' depends on axioms: [propext, Quot.sound]
'Printemps.C49.bound_clamps' depends on axioms: [propext, Classical.choice, Quot.sound]
'Printemps.C49.assignment_takes_effect' depends on axioms: [propext]
'Printemps.C49.fixed_assignment_throws' depends on axioms: [propext]
'Printemps.C49.fixed_unchanged' depends on axioms: [propext]
'Printemps.C49.set_bound_changes_fixed_variable' does not depend on any axioms
'Printemps.C49.dependent_update_stale_flags' depends on axioms: [propext, Classical.choice, Quot.sound]
'Printemps.C50.class_names_the_relation_partial' depends on axioms: [propext, Classical.choice, Quot.sound]
'Printemps.C50.class_names_the_relation_later_partial' depends on axioms: [propext, Classical.choice, Quot.sound]
'Printemps.C50.constant_is_ignored' depends on axioms: [propext, Classical.choice, Quot.sound]
'Printemps.C50.stale_flags_after_substitution' depends on axioms: [propext, Classical.choice, Quot.sound]
'Printemps.C50.small_classes_mutable' depends on axioms: [propext, Classical.choice, Quot.sound]
'Printemps.C51.corrected_or_rejected_partial' depends on axioms: [propext, Classical.choice, Quot.sound]
'Printemps.C51.check_only_changes_nothing' depends on axioms: [propext, Classical.choice, Quot.sound]
'Printemps.C51.good_values_are_accepted' depends on axioms: [propext, Classical.choice, Quot.sound]
'Printemps.C51.bounds_of_binary_variables_are_ignored' depends on axioms: [propext, Classical.choice, Quot.sound]
'Printemps.C51.correction_ignores_bounds' depends on axioms: [propext, Classical.choice, Quot.sound]
'Printemps.C52.any_rule_partial' depends on axioms: [propext, Classical.choice, Quot.sound]
'Printemps.C52.all_rule_partial' depends on axioms: [propext, Classical.choice, Quot.sound]
'Printemps.C52.rules_of_this_search_partial' depends on axioms: [propext, Classical.choice, Quot.sound]
'Printemps.C52.still_tabu_without_randomness' depends on axioms: [propext, Quot.sound]
'Printemps.C52.fresh_variables_are_tabu_under_long_tenures' depends on axioms: [propext, Classical.choice, Quot.sound]
'Printemps.C52.tenure_stays_in_range' depends on axioms: [propext, Classical.choice, Quot.sound]
'Printemps.C52.tenure_step' depends on axioms: [propext, Classical.choice, Quot.sound]
'Printemps.C52.negative_tenure_divides_by_zero' depends on axioms: [propext]
'Printemps.C52.next_initial_tenure_in_range' depends on axioms: [propext, Quot.sound]
'Printemps.C53.argmin_spec' depends on axioms: [propext, Classical.choice, Quot.sound]
'Printemps.C53.selection_exists' depends on axioms: [propext, Classical.choice, Quot.sound]
'Printemps.C53.selected_move' depends on axioms: [propext, Classical.choice, Quot.sound]
'Printemps.C53.tabu_only_if_nothing_admissible' depends on axioms: [propext, Classical.choice, Quot.sound]
'Printemps.C53.useless_only_if_all_useless' depends on axioms: [propext, Classical.choice, Quot.sound]
'Printemps.C53.exact_rounding' depends on axioms: [propext, Classical.choice, Quot.sound]
'Printemps.C53.best_admissible' depends on axioms: [propext, Classical.choice, Quot.sound]
'Printemps.C53.frequency_penalty' depends on axioms: [propext, Classical.choice, Quot.sound]
'Printemps.C53.lagrangian_penalty' depends on axioms: [propext, Classical.choice, Quot.sound]
'Printemps.C53.first_tabu_move_is_taken' depends on axioms: [propext, Classical.choice, Quot.sound]
'Printemps.C54.tabu_search_terminates' depends on axioms: [propext, Classical.choice, Quot.sound]
'Printemps.C54.local_search_terminates' depends on axioms: [propext, Classical.choice, Quot.sound]
'Printemps.C54.lagrange_dual_terminates' depends on axioms: [propext, Classical.choice, Quot.sound]
'Printemps.C54.tabu_status' depends on axioms: [propext, Classical.choice, Quot.sound]
'Printemps.C54.iteration_over_count' depends on axioms: [propext, Classical.choice, Quot.sound]
'Printemps.C54.controller_terminates' depends on axioms: [propext, Classical.choice, Quot.sound]
'Printemps.C54.controller_stops_for_a_reason' depends on axioms: [propext, Classical.choice, Quot.sound]
'Printemps.C54.adjusted_limit_exceeds_option' depends on axioms: [propext, Classical.choice, Quot.sound]
'Printemps.C54.adjusted_limit_within_option' depends on axioms: [propext, Classical.choice, Quot.sound]
'Printemps.C54.zero_limit_is_absorbing' depends on axioms: [propext, Classical.choice, Quot.sound]
'Printemps.C55.changes_add_up' depends on axioms: [propext, Classical.choice, Quot.sound]
'Printemps.C55.improvements_combine' depends on axioms: [propext, Classical.choice, Quot.sound]
'Printemps.C55.merged_parts' depends on axioms: [propext, Classical.choice, Quot.sound]
'Printemps.C55.merged_alterations' depends on axioms: [propext, Classical.choice, Quot.sound]
'Printemps.C55.accepted_improves' depends on axioms: [propext, Classical.choice, Quot.sound]
'Printemps.C55.merged_move_improves' depends on axioms: [propext, Classical.choice, Quot.sound]
'Printemps.C55.merged_move_covers' depends on axioms: [propext, Classical.choice, Quot.sound]
'Printemps.C55.merged_gain' depends on axioms: [propext, Classical.choice, Quot.sound]
'Printemps.C55.best_first' depends on axioms: [propext, Classical.choice, Quot.sound]
'Printemps.C55.unconstrained_variable_counted_twice' depends on axioms: [propext, Classical.choice, Quot.sound]
'Printemps.C55.tolerated_violations_add_up' depends on axioms: [propext, Classical.choice, Quot.sound]
'Printemps.C56.no_move_verdict_right' depends on axioms: [propext, Classical.choice, Quot.sound]
'Printemps.C56.local_verdict_right' depends on axioms: [propext, Classical.choice, Quot.sound]
'Printemps.C56.bound_verdict_right' depends on axioms: [propext, Classical.choice, Quot.sound]
'Printemps.C56.naive_bound_verdict_right_partial' depends on axioms: [propext, Classical.choice, Quot.sound]
'Printemps.C56.maximisation_verdict_wrong' depends on axioms: [propext, Classical.choice, Quot.sound]
'Printemps.C56.off_mode_verdict_wrong' depends on axioms: [propext, Classical.choice, Quot.sound]
'Printemps.C57.computed_flag_exact' depends on axioms: [propext, Classical.choice, Quot.sound]
'Printemps.C57.objective_flags_exact' depends on axioms: [propext, Classical.choice, Quot.sound]
'Printemps.C57.local_objective_flags_exact' depends on axioms: [propext, Classical.choice, Quot.sound]
'Printemps.C57.objective_screening_hides_nothing' depends on axioms: [propext, Classical.choice, Quot.sound]
'Printemps.C57.discarded_move_does_not_improve' depends on axioms: [propext, Classical.choice, Quot.sound]
'Printemps.C57.soft_and_aggressive_hide_nothing' depends on axioms: [propext, Classical.choice, Quot.sound]
'Printemps.C57.local_search_hides_nothing' depends on axioms: [propext, Classical.choice, Quot.sound]
'Printemps.C57.total_violation_not_reduced' depends on axioms: [propext, Classical.choice, Quot.sound]
'Printemps.C57.intensive_partial' depends on axioms: [propext, Classical.choice, Quot.sound]
'Printemps.C57.intensive_hides_improving_moves' depends on axioms: [propext, Classical.choice, Quot.sound]
'Printemps.C57.improving_moves_kept' depends on axioms: [propext, Classical.choice, Quot.sound]
'Printemps.C58.holds_last_values' depends on axioms: [propext, Quot.sound]
'Printemps.C58.statistics_of_last_values' depends on axioms: [propext, Classical.choice, Quot.sound]
'Printemps.C58.zero_size_push_undefined' does not depend on any axioms
'Printemps.C59.solve_only_once' depends on axioms: [propext]
'Printemps.C59.slot' depends on axioms: [propext, Classical.choice, Quot.sound]
'Printemps.C59.export_consistent' depends on axioms: [propext, Classical.choice, Quot.sound]
'Printemps.C59.reported_solution' depends on axioms: [propext, Classical.choice, Quot.sound]
'Printemps.C59.report_exists' depends on axioms: [propext, Classical.choice, Quot.sound]
'Printemps.C59.found_is_reported_feasible' depends on axioms: [propext, Classical.choice, Quot.sound]
'Printemps.C59.found_but_reported_infeasible' depends on axioms: [propext, Classical.choice, Quot.sound]
'Printemps.C60.coefficients_in_range_partial' depends on axioms: [propext, Classical.choice, Quot.sound]
'Printemps.C60.coefficients_are_numbers' depends on axioms: [propext, Classical.choice, Quot.sound]
'Printemps.C60.limit_and_reset' depends on axioms: [propext, Classical.choice, Quot.sound]
'Printemps.C60.local_can_exceed_shrunken_global' depends on axioms: [propext, Classical.choice, Quot.sound]
'Printemps.C60.coefficient_can_become_nan' depends on axioms: [propext, Classical.choice, Quot.sound]
'Printemps.C61.fixing_by_name' depends on axioms: [propext, Quot.sound]
'Printemps.C61.unfixing_by_name_partial' depends on axioms: [propext, Quot.sound]
'Printemps.C61.unfixing_overwrites_everything' depends on axioms: [propext, Quot.sound]
'Printemps.C61.unfix_is_not_inverse' depends on axioms: [propext, Classical.choice, Quot.sound]
'Printemps.C62.dense_distance' depends on axioms: [propext, Quot.sound]
'Printemps.C62.sparse_distance' depends on axioms: [propext, Classical.choice, Quot.sound]
'Printemps.C62.sparse_distance_l1' depends on axioms: [propext, Classical.choice, Quot.sound]
'Printemps.C62.distance_is_metric' depends on axioms: [propext, Classical.choice, Quot.sound]
'Printemps.C63.always_defined' depends on axioms: [propext, Classical.choice, Quot.sound]
'Printemps.C63.failure_changes_nothing' depends on axioms: [propext, Classical.choice, Quot.sound]
'Printemps.C63.solved_iff' depends on axioms: [propext, Classical.choice, Quot.sound]
'Printemps.C63.solved_fixes' depends on axioms: [propext, Classical.choice, Quot.sound]
'Printemps.C63.binary_values_are_forced' depends on axioms: [propext, Classical.choice, Quot.sound]
'Printemps.C63.no_solution_lost_partial' depends on axioms: [propext, Classical.choice, Quot.sound]
'Printemps.C63.no_solution_gained_partial' depends on axioms: [propext, Classical.choice, Quot.sound]
'Printemps.C63.negative_coefficient_loses_solutions' depends on axioms: [propext, Classical.choice, Quot.sound]
'Printemps.C63.bounds_are_ignored' depends on axioms: [propext, Classical.choice, Quot.sound]
'Printemps.C64.registered_moves' depends on axioms: [propext, Classical.choice, Quot.sound]
'Printemps.C64.registered_distinct' depends on axioms: [propext, Classical.choice, Quot.sound]
'Printemps.C64.back_undoes' depends on axioms: [propext, Quot.sound]
'Printemps.C64.combined_related' depends on axioms: [propext, Classical.choice, Quot.sound]
'Printemps.C64.combined_covers' depends on axioms: [propext, Classical.choice, Quot.sound]
'Printemps.C64.overlap_meaning' depends on axioms: [propext, Classical.choice, Quot.sound]
'Printemps.C64.overlap_range' depends on axioms: [propext, Classical.choice, Quot.sound]
'Printemps.C64.same_alterations' depends on axioms: [propext, Classical.choice, Quot.sound]
'Printemps.C64.hashOf_perm' depends on axioms: [propext, Quot.sound]
'Printemps.C64.deduplicated' depends on axioms: [propext, Classical.choice, Quot.sound]
'Printemps.C64.maintain_bound' depends on axioms: [propext, Classical.choice, Quot.sound]
'Printemps.C64.maintained' depends on axioms: [propext, Classical.choice, Quot.sound]
'Printemps.C64.proposed_moves' depends on axioms: [propext, Quot.sound]
'Printemps.C64.registered_not_available' depends on axioms: [propext, Classical.choice, Quot.sound]
'Printemps.C64.equal_names_spoil_scores' depends on axioms: [propext, Classical.choice, Quot.sound]
'Printemps.C64.far_addresses_unsortable' depends on axioms: [propext, Classical.choice, Quot.sound]
'Printemps.C64.near_rates_unsortable' depends on axioms: [propext, Classical.choice, Quot.sound]
'Printemps.C64.reset_makes_available' depends on axioms: [propext, Quot.sound]
'Printemps.C65.fl53_exact' depends on axioms: [propext, Classical.choice, Quot.sound]
'Printemps.C65.fl53_error' depends on axioms: [propext, Classical.choice, Quot.sound]
'Printemps.C65.evaluation_exact' depends on axioms: [propext, Classical.choice, Quot.sound]
'Printemps.C65.move_exact' depends on axioms: [propext, Classical.choice, Quot.sound]
'Printemps.C65.history_exact' depends on axioms: [propext, Classical.choice, Quot.sound]
'Printemps.C65.full_violation_exact' depends on axioms: [propext, Classical.choice, Quot.sound]
'Printemps.C65.multi_violation_exact' depends on axioms: [propext, Classical.choice, Quot.sound]
'Printemps.C65.single_violation_exact' depends on axioms: [propext, Classical.choice, Quot.sound]
'Printemps.C65.sum_error' depends on axioms: [propext, Classical.choice, Quot.sound]
'Printemps.C65.history_error' depends on axioms: [propext, Classical.choice, Quot.sound]
'Printemps.C65.growth' depends on axioms: [propext, Classical.choice, Quot.sound]
'Printemps.C65.drift_hides_violation' depends on axioms: [propext, Classical.choice, Quot.sound]
'Printemps.C66.history' depends on axioms: [propext, Classical.choice, Quot.sound]
'Printemps.C66.reported_with_tolerance' depends on axioms: [propext, Classical.choice, Quot.sound]
'Printemps.C66.reported_is_best_visited' depends on axioms: [propext, Classical.choice, Quot.sound]
'Printemps.C66.never_throws' depends on axioms: [propext, Classical.choice, Quot.sound]
'Printemps.C67.reduction_keeps_optimum_partial' depends on axioms: [propext, Classical.choice, Quot.sound]
'Printemps.C67.preparation_keeps_optimum_partial' depends on axioms: [propext, Classical.choice, Quot.sound]
'Printemps.C67.substitution_leads_to_undefined_behaviour' depends on axioms: [propext, Classical.choice, Quot.sound]
'Printemps.C67.bound_of_one_is_overwritten' depends on axioms: [propext, Classical.choice, Quot.sound]
'Printemps.C67.disabled_constraint_removes_enabled_one' depends on axioms: [propext, Classical.choice, Quot.sound]
'Printemps.C68.report_solves_user_model_partial' depends on axioms: [propext, Classical.choice, Quot.sound]
'Printemps.C69.file_decides_partial' depends on axioms: [propext, Classical.choice, Quot.sound]
'Printemps.C69.good_file_accepted' depends on axioms: [propext, Classical.choice, Quot.sound]
'Printemps.C69.other_entries_ignored' depends on axioms: [propext, Classical.choice, Quot.sound]
'Printemps.C69.object_round_trip_partial' depends on axioms: [propext, Classical.choice, Quot.sound]
'Printemps.C69.file_round_trip_partial' depends on axioms: [propext, Classical.choice, Quot.sound]
'Printemps.C69.threads_are_ignored' depends on axioms: [propext, Classical.choice, Quot.sound]
'Printemps.C69.file_does_not_decide' depends on axioms: [propext, Classical.choice, Quot.sound]
'Printemps.C69.mode_of_wrong_type_ignored' depends on axioms: [propext, Classical.choice, Quot.sound]
'Printemps.C69.mode_out_of_range_accepted' depends on axioms: [propext, Classical.choice, Quot.sound]
'Printemps.C70.arguments' depends on axioms: [propext, Quot.sound]
'Printemps.C70.undefined_arguments' depends on axioms: [propext, Classical.choice, Quot.sound]
'Printemps.C70.lines_of_file' depends on axioms: [propext]
'Printemps.C70.values_read' depends on axioms: [propext, Classical.choice, Quot.sound]
'Printemps.C70.setup_effect' depends on axioms: [propext, Classical.choice, Quot.sound]
'Printemps.C70.exclusive' depends on axioms: [propext, Classical.choice, Quot.sound]
'Printemps.C70.solution_file_read' depends on axioms: [propext, Classical.choice, Quot.sound]
'Printemps.C70.warm_start_partial' depends on axioms: [propext, Classical.choice, Quot.sound]
'Printemps.C70.large_objective_unreadable' depends on axioms: [propext, Classical.choice, Quot.sound]
'Printemps.C70.mutable_with_initial_throws' depends on axioms: [propext, Classical.choice, Quot.sound]
'Printemps.C70.mutable_ignores_bounds' depends on axioms: [propext, Classical.choice, Quot.sound]
'Printemps.C70.number_read' depends on axioms: [propext, Classical.choice, Quot.sound]
'Printemps.C70.two_flip_switched_on' depends on axioms: [propext, Quot.sound]
'Printemps.C71.pairs_exact' depends on axioms: [propext, Classical.choice, Quot.sound]
'Printemps.C71.pairs_once_and_sorted' depends on axioms: [propext, Classical.choice, Quot.sound]
'Printemps.C71.union_not_empty' depends on axioms: [propext, Classical.choice, Quot.sound]
'Printemps.C71.file_round_trip' depends on axioms: [propext, Classical.choice, Quot.sound]
'Printemps.C71.two_flip_exchanges_partial' depends on axioms: [propext, Classical.choice, Quot.sound]
'Printemps.C71.two_flip_leaves_bounds' depends on axioms: [propext, Classical.choice, Quot.sound]
'Printemps.C72.sum_over_slice' depends on axioms: [propext, Classical.choice, Quot.sound]
'Printemps.C72.sum_over_all' depends on axioms: [propext, Classical.choice, Quot.sound]
'Printemps.C72.dot_over_slice' depends on axioms: [propext, Classical.choice, Quot.sound]
'Printemps.C72.dot_along_line' depends on axioms: [propext, Classical.choice, Quot.sound]
'Printemps.C72.sum_refused_iff' depends on axioms: [propext, Classical.choice, Quot.sound]
'Printemps.C72.selection_is_exactly_one' depends on axioms: [propext, Classical.choice, Quot.sound]
'Printemps.C72.set_bound_on_all' depends on axioms: [propext, Classical.choice, Quot.sound]
'Printemps.C72.expression_sum_over_all' depends on axioms: [propext, Classical.choice, Quot.sound]
'Printemps.C72.expression_slice_partial' depends on axioms: [propext, Classical.choice, Quot.sound]
'Printemps.C72.elements_are_written' depends on axioms: [propext, Classical.choice, Quot.sound]
'Printemps.C72.tagged_kept' depends on axioms: [propext, Classical.choice, Quot.sound]
'Printemps.C72.assigned_elements_leave_their_slice' depends on axioms: [propext, Classical.choice, Quot.sound]
'Printemps.C72.out_of_range_index_not_refused' depends on axioms: [propext, Quot.sound]
'Printemps.C73.names_after_setup_partial' depends on axioms: [propext, Classical.choice, Quot.sound]
'Printemps.C73.names_unique_partial' depends on axioms: [propext, Classical.choice, Quot.sound]
'Printemps.C73.creation_refused_iff' depends on axioms: [propext, Quot.sound]
'Printemps.C73.equal_array_names_accepted' depends on axioms: [propext, Classical.choice, Quot.sound]
'Printemps.C73.bracket_names_collide' depends on axioms: [propext, Quot.sound]
'Printemps.C73.assigned_expressions_share_their_name' depends on axioms: [propext, Quot.sound]
'Printemps.C74.candidates_are_legal_partial' depends on axioms: [propext, Classical.choice, Quot.sound]
'Printemps.C74.runs_are_legal_partial' depends on axioms: [propext, Classical.choice, Quot.sound]
'Printemps.C74.reported_is_best_visited_partial' depends on axioms: [propext, Classical.choice, Quot.sound]
'Printemps.C74.Late.variables_fixed_late_are_moved' depends on axioms: [propext, Classical.choice, Quot.sound]
'Printemps.C75.incumbents_were_visited' depends on axioms: [propext, Classical.choice, Quot.sound]
'Printemps.C75.every_call_ends_with_a_result_partial' depends on axioms: [propext, Classical.choice, Quot.sound]
'Printemps.C75.selection_moves_are_defined_partial' depends on axioms: [propext, Classical.choice, Quot.sound]
'Printemps.C75.Doubled.two_swaps_of_one_selection_are_merged' depends on axioms: [propext, Classical.choice, Quot.sound]
'Printemps.C75.Twice.better_solution_is_visited_and_lost' depends on axioms: [propext, Classical.choice, Quot.sound]
'Printemps.C76.call_ends_with_right_report_partial' depends on axioms: [propext, Classical.choice, Quot.sound]
'Printemps.C77.bounding_keeps_what_is_as_good_partial' depends on axioms: [propext, Classical.choice, Quot.sound]
'Printemps.C77.bounding_keeps_the_optimum_partial' depends on axioms: [propext, Classical.choice, Quot.sound]
'Printemps.C77.bounding_only_when_asked' depends on axioms: [propext, Classical.choice, Quot.sound]
'Printemps.C77.Maximise.maximisation_throws' depends on axioms: [propext, Classical.choice, Quot.sound]
'Printemps.C77.Maximise.maximisation_loses_everything' depends on axioms: [propext, Classical.choice, Quot.sound]
'Printemps.C77.Fraction.fractional_objective_loses_the_incumbent' depends on axioms: [propext, Classical.choice, Quot.sound]
'Printemps.C77.Broken.bounding_can_break_a_selection' depends on axioms: [propext, Classical.choice, Quot.sound]
'Printemps.C78.restart_rules' depends on axioms: [propext, Classical.choice, Quot.sound]
'Printemps.C78.exact_rules' depends on axioms: [propext, Classical.choice, Quot.sound]
'Printemps.C78.call_ends_with_right_report_partial' depends on axioms: [propext, Classical.choice, Quot.sound]
'Printemps.C79.target_in_the_users_direction' depends on axioms: [propext, Classical.choice, Quot.sound]
'Printemps.C79.ordinary_target' depends on axioms: [propext, Classical.choice, Quot.sound]
'Printemps.C79.default_target' depends on axioms: [propext, Classical.choice, Quot.sound]
'Printemps.C79.no_objective_stops_when_feasible' depends on axioms: [propext, Classical.choice, Quot.sound]
'Printemps.C79.nothing_after_limit' depends on axioms: [propext, Classical.choice, Quot.sound]
'Printemps.C79.searches_end' depends on axioms: [propext, Classical.choice, Quot.sound]
'Printemps.C79.no_late_steps' depends on axioms: [propext, Classical.choice, Quot.sound]
'Printemps.C79.target_stops_the_call' depends on axioms: [propext, Classical.choice, Quot.sound]
'Printemps.C80.run_ends' depends on axioms: [propext, Classical.choice, Quot.sound]
'Printemps.C80.points_within_bounds' depends on axioms: [propext, Classical.choice, Quot.sound]
'Printemps.C80.reported_objective_is_bound' depends on axioms: [propext, Classical.choice, Quot.sound]
'Printemps.C80.exact_bound' depends on axioms: [propext, Classical.choice, Quot.sound]
'Printemps.C80.optimal_verdict' depends on axioms: [propext, Classical.choice, Quot.sound]
'Printemps.C80.exact_optimum' depends on axioms: [propext, Classical.choice, Quot.sound]
'Printemps.C80.infeasible_verdict_partial' depends on axioms: [propext, Classical.choice, Quot.sound]
'Printemps.C80.controller_ends' depends on axioms: [propext, Classical.choice, Quot.sound]
'Printemps.C80.controller_bound' depends on axioms: [propext, Classical.choice, Quot.sound]
'Printemps.C80.controller_infeasible_partial' depends on axioms: [propext, Classical.choice, Quot.sound]
'Printemps.C80.infeasible_verdict_is_wrong' depends on axioms: [propext, Classical.choice, Quot.sound]
'Printemps.C80.optimal_reports_another_point' depends on axioms: [propext, Classical.choice, Quot.sound]
'Printemps.C80.zero_interval_is_undefined' depends on axioms: [propext, Classical.choice, Quot.sound]
'Printemps.C81.dependent_rounds_keep_problem_partial' depends on axioms: [propext, Classical.choice, Quot.sound]
'Printemps.C81.restored_values_are_feasible_partial' depends on axioms: [propext, Classical.choice, Quot.sound]
'Printemps.C81.pairs_form_no_cycle' depends on axioms: [propext, Classical.choice, Quot.sound]
'Printemps.C81.wrong_selection_accepts_infeasible' depends on axioms: [propext, Classical.choice, Quot.sound]
'Printemps.C82.report_solves_user_model_with_dependents_partial' depends on axioms: [propext, Classical.choice, Quot.sound]
'Printemps.C82.stale_margin_loses_feasible_solution' depends on axioms: [propext, Classical.choice, Quot.sound]
'Printemps.C83.every_search_has_options' depends on axioms: [propext, Classical.choice, Quot.sound]
'Printemps.C83.options_are_allowed_partial' depends on axioms: [propext, Classical.choice, Quot.sound]
'Printemps.C83.iteration_limit_holds_partial' depends on axioms: [propext, Classical.choice, Quot.sound]
'Printemps.C83.tenure_stays_in_range' depends on axioms: [propext, Classical.choice, Quot.sound]
'Printemps.C83.improvement_makes_next_search_cautious' depends on axioms: [propext, Classical.choice, Quot.sound]
'Printemps.C83.stagnation_widens_next_search' depends on axioms: [propext, Classical.choice, Quot.sound]
'Printemps.C83.thread_counts_tried' depends on axioms: [propext, Quot.sound]
'Printemps.C83.thread_counts_are_tried_in_turn' depends on axioms: [propext, Classical.choice, Quot.sound]
'Printemps.C83.thread_count_has_largest_confidence' depends on axioms: [propext, Classical.choice, Quot.sound]
'Printemps.C83.mean_lies_within_scores' depends on axioms: [propext, Classical.choice, Quot.sound]
'Printemps.C83.average_of_threads_is_right' depends on axioms: [propext, Classical.choice, Quot.sound]
'Printemps.C83.seed_and_number_of_modifications_are_ignored' depends on axioms: [propext, Classical.choice, Quot.sound]
'Printemps.C83.thread_setting_is_lost' depends on axioms: [propext, Classical.choice, Quot.sound]
'Printemps.C83.iteration_limit_is_exceeded' depends on axioms: [propext, Classical.choice, Quot.sound]
'Printemps.C84.updates_are_reported_truly' depends on axioms: [propext, Classical.choice, Quot.sound]
'Printemps.C84.no_update_reported_iff' depends on axioms: [propext, Classical.choice, Quot.sound]
'Printemps.C84.ranges_are_right' depends on axioms: [propext, Classical.choice, Quot.sound]
'Printemps.C84.rate_is_right' depends on axioms: [propext, Classical.choice, Quot.sound]
'Printemps.C84.flags_are_right' depends on axioms: [propext, Classical.choice, Quot.sound]
'Printemps.C84.counts_are_right' depends on axioms: [propext, Classical.choice, Quot.sound]
'Printemps.C84.performance_is_a_share_partial' depends on axioms: [propext, Classical.choice, Quot.sound]
'Printemps.C84.early_stop_is_justified' depends on axioms: [propext, Classical.choice, Quot.sound]
'Printemps.C84.penalties_too_large_iff' depends on axioms: [propext, Classical.choice, Quot.sound]
'Printemps.C84.stored_solutions' depends on axioms: [propext, Classical.choice, Quot.sound]
'Printemps.C84.improved_feasible_incumbent_is_stored_partial' depends on axioms: [propext, Classical.choice, Quot.sound]
'Printemps.C84.performance_exceeds_one' depends on axioms: [propext, Classical.choice, Quot.sound]
'Printemps.C84.performance_undefined' depends on axioms: [propext, Classical.choice, Quot.sound]
'Printemps.C84.best_solution_is_not_stored' depends on axioms: [propext, Classical.choice, Quot.sound]
'Printemps.C85.arrays_show_values_partial' depends on axioms: [propext, Classical.choice, Quot.sound]
'Printemps.C85.document_by_array_partial' depends on axioms: [propext, Classical.choice, Quot.sound]
'Printemps.C85.file_by_array_partial' depends on axioms: [propext, Classical.choice, Quot.sound]
'Printemps.C85.document_by_name' depends on axioms: [propext, Classical.choice, Quot.sound]
'Printemps.C85.file_by_name_partial' depends on axioms: [propext, Classical.choice, Quot.sound]
'Printemps.C85.file_by_name' depends on axioms: [propext, Classical.choice, Quot.sound]
'Printemps.C85.value_at_index' depends on axioms: [propext, Quot.sound]
'Printemps.C85.single_value' depends on axioms: [propext, Classical.choice, Quot.sound]
'Printemps.C85.small_numbers_are_lost' depends on axioms: [propext, Classical.choice, Quot.sound]
'Printemps.C85.names_are_merged' depends on axioms: [propext, Classical.choice, Quot.sound]
'Printemps.C85.index_outside_is_read' depends on axioms: [propext, Quot.sound]
'Printemps.C85.empty_dimension_loses_shape' depends on axioms: [propext, Classical.choice, Quot.sound]
'Printemps.C85.section_keys' depends on axioms: [propext, Classical.choice, Quot.sound]
'Printemps.C86.document_is_the_problem' depends on axioms: [propext, Classical.choice, Quot.sound]
'Printemps.C86.document_has_the_objective' depends on axioms: [propext, Classical.choice, Quot.sound]
'Printemps.C86.document_has_the_best_value' depends on axioms: [propext, Classical.choice, Quot.sound]
'Printemps.C86.file_echo' depends on axioms: [propext, Classical.choice, Quot.sound]
'Printemps.C86.file_echo_any' depends on axioms: [propext, Classical.choice, Quot.sound]
'Printemps.C86.file_is_the_problem_partial' depends on axioms: [propext, Classical.choice, Quot.sound]
'Printemps.C86.file_is_near_the_problem' depends on axioms: [propext, Classical.choice, Quot.sound]
'Printemps.C86.names_stay_different' depends on axioms: [propext]
'Printemps.C86.bestOn_iff' depends on axioms: [propext, Classical.choice, Quot.sound]
'Printemps.C86.file_after_a_call_partial' depends on axioms: [propext, Classical.choice, Quot.sound]
'Printemps.C86.objective_constant_is_lost' depends on axioms: [propext, Classical.choice, Quot.sound]
'Printemps.C86.no_name_is_null' depends on axioms: [propext, Classical.choice, Quot.sound]
'Printemps.C86.names_become_equal' depends on axioms: [propext, Classical.choice, Quot.sound]
'Printemps.C86.definitions_are_lost' depends on axioms: [propext, Classical.choice, Quot.sound]
'Printemps.C87.file_of_a_call' depends on axioms: [propext, Classical.choice, Quot.sound]
'Printemps.C87.solution_doc' depends on axioms: [propext, Classical.choice, Quot.sound]
'Printemps.C87.file_echo' depends on axioms: [propext, Classical.choice, Quot.sound]
'Printemps.C87.collect_eq' depends on axioms: [propext, Quot.sound]
'Printemps.C88.program_gets_its_problem_partial' depends on axioms: [propext, Classical.choice, Quot.sound]
'Printemps.C88.constraints_keep_their_meaning' depends on axioms: [propext, Classical.choice, Quot.sound]
'Printemps.C88.element_assigned_from_an_array' depends on axioms: [propext, Classical.choice, Quot.sound]
'Printemps.C88.slice_of_assigned_elements' depends on axioms: [propext, Classical.choice, Quot.sound]
'Printemps.C89.stated_problem_is_reported_rightly_partial' depends on axioms: [propext, Classical.choice, Quot.sound]
'Printemps.C90.file_gets_its_problem_partial' depends on axioms: [propext, Classical.choice, Quot.sound]
'Printemps.C90.values_by_name' depends on axioms: [propext, Quot.sound]
'Printemps.C90.constant_of_the_objective_is_lost' depends on axioms: [propext, Classical.choice, Quot.sound]
'Printemps.C90.second_free_row_is_refused' depends on axioms: [propext, Classical.choice, Quot.sound]
'Printemps.C90.comments_are_read' depends on axioms: [propext, Classical.choice, Quot.sound]
'Printemps.C90.direction_is_ignored' depends on axioms: [propext, Classical.choice, Quot.sound]
'Printemps.C90.binary_record_with_number_is_ignored' depends on axioms: [propext, Classical.choice, Quot.sound]
'Printemps.C91.file_is_reported_rightly_partial' depends on axioms: [propext, Classical.choice, Quot.sound]
'Printemps.C92.solution_file_is_right_partial' depends on axioms: [propext, Classical.choice, Quot.sound]
'Printemps.C93.original_counts' depends on axioms: [propext, Classical.choice, Quot.sound]
'Printemps.C93.presolved_counts' depends on axioms: [propext, Classical.choice, Quot.sound]
'Printemps.C93.occurrences_counted' depends on axioms: [propext, Classical.choice, Quot.sound]
'Printemps.C93.occurrences_fit_partial' depends on axioms: [propext, Classical.choice, Quot.sound]
'Printemps.C93.setup_shrinks' depends on axioms: [propext, Classical.choice, Quot.sound]
'Printemps.C93.setup_adds' depends on axioms: [propext, Classical.choice, Quot.sound]
'Printemps.C93.call_keeps_outline' depends on axioms: [propext, Classical.choice, Quot.sound]
'Printemps.C93.status_of_call_partial' depends on axioms: [propext, Classical.choice, Quot.sound]
'Printemps.C93.density_above_one' depends on axioms: [propext, Classical.choice, Quot.sound]
'Printemps.C93.constraints_added' depends on axioms: [propext, Classical.choice, Quot.sound]
'Printemps.C93.original_not_original' depends on axioms: [propext, Classical.choice, Quot.sound]
'Printemps.C93.empty_ranges' depends on axioms: [propext, Classical.choice, Quot.sound]
'Printemps.C94.call_with_bounding_reports_right_partial' depends on axioms: [propext, Classical.choice, Quot.sound]
'Printemps.C94.call_with_bounding_returns_partial' depends on axioms: [propext, Classical.choice, Quot.sound]
'Printemps.C94.call_with_bounding_from_neighbourhood_partial' depends on axioms: [propext, Classical.choice, Quot.sound]
'Printemps.C95.lists_are_those_of_a_shortest_tree' depends on axioms: [propext, Classical.choice, Quot.sound]
'Printemps.C95.best_solution_is_listed_when_minimizing_partial' depends on axioms: [propext, Classical.choice, Quot.sound]
'Printemps.C95.best_solution_is_missing_when_maximizing' depends on axioms: [propext, Classical.choice, Quot.sound]
'Printemps.C95.best_solution_may_be_missing' depends on axioms: [propext, Classical.choice, Quot.sound]
'Printemps.C96.stated_problem_is_reported_rightly_with_bounding_partial' depends on axioms: [propext, Classical.choice, Quot.sound]
'Printemps.C96.file_is_reported_rightly_with_bounding_partial' depends on axioms: [propext, Classical.choice, Quot.sound]
'Printemps.C96.solution_file_is_right_with_bounding_partial' depends on axioms: [propext, Classical.choice, Quot.sound]
'Printemps.C97.rows_show_what_was_met' depends on axioms: [propext, Classical.choice, Quot.sound]
'Printemps.C97.rows_show_the_truth_partial' depends on axioms: [propext, Classical.choice, Quot.sound]
'Printemps.C97.marks_are_right' depends on axioms: [propext, Classical.choice, Quot.sound]
'Printemps.C97.nothing_new_is_hidden' depends on axioms: [propext, Classical.choice, Quot.sound]
'Printemps.C97.rows_are_printed_in_time' depends on axioms: [propext, Classical.choice, Quot.sound]
'Printemps.C97.incumbent_violation_is_shown_negative' depends on axioms: [propext, Classical.choice, Quot.sound]
'Printemps.C97.announced_row_shows_infeasible_incumbent' depends on axioms: [propext, Classical.choice, Quot.sound]
'Printemps.C98.counts_are_right' depends on axioms: [propext, Classical.choice, Quot.sound]
'Printemps.C98.update_counts_by_name' depends on axioms: [propext, Classical.choice, Quot.sound]
'Printemps.C98.violation_counts_by_name' depends on axioms: [propext, Classical.choice, Quot.sound]
'Printemps.C98.penalties_by_name' depends on axioms: [propext, Classical.choice, Quot.sound]
'Printemps.C98.equal_names_hide_counts' depends on axioms: [propext, Quot.sound]
'Printemps.C99.seldom_updated' depends on axioms: [propext, Classical.choice, Quot.sound]
'Printemps.C99.often_updated' depends on axioms: [propext, Classical.choice, Quot.sound]
'Printemps.C99.constraints_listed' depends on axioms: [propext, Classical.choice, Quot.sound]
'Printemps.C99.frequency_is_right_partial' depends on axioms: [propext, Classical.choice, Quot.sound]
'Printemps.C99.frequency_is_not_understated' depends on axioms: [propext, Classical.choice, Quot.sound]
'Printemps.C99.current_solution' depends on axioms: [propext, Classical.choice, Quot.sound]
'Printemps.C99.violated_are_listed' depends on axioms: [propext, Classical.choice, Quot.sound]
'Printemps.C99.frequency_is_overstated' depends on axioms: [propext, Classical.choice, Quot.sound]
'Printemps.C99.six_lines_instead_of_five' depends on axioms: [propext, Classical.choice, Quot.sound]
'Printemps.C100.searches_end_for_a_reason' depends on axioms: [propext, Classical.choice, Quot.sound]
'Printemps.C100.called_once_after_each_search' depends on axioms: [propext, Classical.choice, Quot.sound]
'Printemps.C100.reading_changes_nothing' depends on axioms: [propext, Classical.choice, Quot.sound]
'Printemps.C100.truthful' depends on axioms: [propext, Classical.choice, Quot.sound]
'Printemps.C100.what_is_read_is_right_partial' depends on axioms: [propext, Classical.choice, Quot.sound]
'Printemps.C100.what_is_read_is_right_with_bounding_partial' depends on axioms: [propext, Classical.choice, Quot.sound]
'Printemps.C100.written_options_have_no_effect' depends on axioms: [propext, Classical.choice, Quot.sound]
'Printemps.C101.solved_iff' depends on axioms: [propext, Classical.choice, Quot.sound]
'Printemps.C101.refused_iff' depends on axioms: [propext, Classical.choice, Quot.sound]
'Printemps.C101.element_names' depends on axioms: [propext, Classical.choice, Quot.sound]
'Printemps.C101.initialized_keeps' depends on axioms: [propext, Classical.choice, Quot.sound]
'Printemps.C101.initialized_undefined' depends on axioms: [propext, Classical.choice, Quot.sound]
'Printemps.C101.initialized_new_partial' depends on axioms: [propext, Classical.choice, Quot.sound]
'Printemps.C102.inside_right' depends on axioms: [propext, Classical.choice, Quot.sound]
'Printemps.C102.before_right_partial' depends on axioms: [propext, Classical.choice, Quot.sound]
'Printemps.C102.table_of_call' depends on axioms: [propext, Classical.choice, Quot.sound]
'Printemps.C102.comparisons_do_not_add_up' depends on axioms: [propext, Classical.choice, Quot.sound]
'Printemps.C103.rows_right' depends on axioms: [propext, Classical.choice, Quot.sound]
'Printemps.C103.rows_show_the_truth_partial' depends on axioms: [propext, Classical.choice, Quot.sound]
'Printemps.C103.objective_is_written_negated' depends on axioms: [propext, Classical.choice, Quot.sound]
'Printemps.C104.problem_as_built' depends on axioms: [propext, Classical.choice, Quot.sound]
'Printemps.C104.same_solutions' depends on axioms: [propext, Classical.choice, Quot.sound]
'Printemps.C105.gap_eq' depends on axioms: [propext, Classical.choice, Quot.sound]
'Printemps.C105.gap_never_negative' depends on axioms: [propext, Classical.choice, Quot.sound]
'Printemps.C105.zero_at_solutions_partial' depends on axioms: [propext, Classical.choice, Quot.sound]
'Printemps.C105.zero_at_an_infeasible_point' depends on axioms: [propext, Classical.choice, Quot.sound]
'Printemps.C105.positive_at_a_solution' depends on axioms: [propext, Classical.choice, Quot.sound]
'Printemps.C106.report_tells_the_truth_partial' depends on axioms: [propext, Classical.choice, Quot.sound]
'Printemps.C106.report_with_any_numbers_partial' depends on axioms: [propext, Classical.choice, Quot.sound]
'Printemps.C106.report_solves_user_problem_partial' depends on axioms: [propext, Classical.choice, Quot.sound]
'Printemps.C106.setup_throws_iff' depends on axioms: [propext, Classical.choice, Quot.sound]
'Printemps.C106.call_reports' depends on axioms: [propext, Classical.choice, Quot.sound]
'Printemps.C107.restarts_again_and_again' depends on axioms: [propext, Classical.choice, Quot.sound]
'Printemps.C107.restart_where' depends on axioms: [propext, Classical.choice, Quot.sound]
'Printemps.C107.restart_why_partial' depends on axioms: [propext, Classical.choice, Quot.sound]
'Printemps.C107.second_loop_ends_at_once' depends on axioms: [propext, Classical.choice, Quot.sound]
'Printemps.C107.restart_without_progress' depends on axioms: [propext, Classical.choice, Quot.sound]
'Printemps.C108.run_gaps_ends' depends on axioms: [propext, Classical.choice, Quot.sound]
'Printemps.C108.run_is_planned' depends on axioms: [propext, Classical.choice, Quot.sound]
'Printemps.C108.decisions_by_gaps' depends on axioms: [propext, Classical.choice, Quot.sound]
'Printemps.C108.points_stay_within_bounds' depends on axioms: [propext, Classical.choice, Quot.sound]
'Printemps.C108.optimal_is_optimal' depends on axioms: [propext, Classical.choice, Quot.sound]
'Printemps.C108.restarts_of_a_run' depends on axioms: [propext, Classical.choice, Quot.sound]
'Printemps.C108.restart_from_better' depends on axioms: [propext, Classical.choice, Quot.sound] 
