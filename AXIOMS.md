# Axioms of the theorems in MANIFEST.json

Output of `#print axioms` for each theorem (`-`: none).

| property | theorem | axioms |
|---|---|---|
| C01 | `Pooya.C01.C01_sanitised` | propext, Classical.choice, Quot.sound |
| C01 | `Pooya.C01.C01_legal_unchanged` | propext, Classical.choice, Quot.sound |
| C01 | `Pooya.C01.C01_rename_own_name` | propext, Classical.choice, Quot.sound |
| C01 | `Pooya.C01.C01_joined` | propext, Classical.choice, Quot.sound |
| C02 | `Pooya.C02.C02_full_name` | propext, Quot.sound |
| C02 | `Pooya.C02.C02_identifies` | propext, Classical.choice, Quot.sound |
| C02 | `Pooya.C02.C02_defined` | propext, Classical.choice, Quot.sound |
| C03 | `Pooya.C03.C03_path_unique` | propext, Quot.sound |
| C03 | `Pooya.C03.C03_lookup` | propext, Quot.sound |
| C03 | `Pooya.C03.C03_throws` | propext, Quot.sound |
| C04 | `Pooya.C04.C04_labels` | propext, Classical.choice, Quot.sound |
| C04 | `Pooya.C04.C04_distinct` | propext, Classical.choice, Quot.sound |
| C04 | `Pooya.C04.C04_at` | propext, Classical.choice, Quot.sound |
| C05 | `Pooya.C05.C05_refuted_throws` | propext, Classical.choice, Quot.sound |
| C05 | `Pooya.C05.C05_refuted_ub` | propext, Classical.choice, Quot.sound |
| C05 | `Pooya.C05.C05_refuted` | propext, Classical.choice, Quot.sound |
| C05 | `Pooya.C05.C05_partial` | propext, Classical.choice, Quot.sound |
| C06 | `Pooya.C06.C06_positions` | propext |
| C06 | `Pooya.C06.C06_positions_auto` | propext, Classical.choice, Quot.sound |
| C06 | `Pooya.C06.C06_subscript` | propext |
| C06 | `Pooya.C06.C06_labels` | propext, Classical.choice, Quot.sound |
| C06 | `Pooya.C06.C06_reachable` | propext, Classical.choice, Quot.sound |
| C07 | `Pooya.C07.C07_one` | propext, Classical.choice, Quot.sound |
| C07 | `Pooya.C07.C07_keeps` | propext, Classical.choice, Quot.sound |
| C07 | `Pooya.C07.C07_frame` | propext, Classical.choice, Quot.sound |
| C08 | `Pooya.C08.C08_write_once` | propext, Quot.sound |
| C08 | `Pooya.C08.C08_single_write` | propext |
| C08 | `Pooya.C08.C08_fresh` | - |
| C09 | `Pooya.C09.C09_call` | propext, Quot.sound |
| C09 | `Pooya.C09.C09_program` | propext, Quot.sound |
| C10 | `Pooya.C10.C10_wrap` | propext |
| C10 | `Pooya.C10.C10_reset` | propext |
| C10 | `Pooya.C10.C10_handle_typed` | propext, Classical.choice, Quot.sound |
| C10 | `Pooya.C10.C10_deriv` | propext, Quot.sound |
| C10 | `Pooya.C10.C10_partial` | propext, Classical.choice, Quot.sound |
| C10 | `Pooya.C10.C10_refuted` | propext, Classical.choice, Quot.sound |
| C11 | `Pooya.C11.C11_consistent` | propext, Quot.sound |
| C11 | `Pooya.C11.C11_parent_kept` | propext, Quot.sound |
| C11 | `Pooya.C11.C11_set_parent` | propext, Quot.sound |
| C11 | `Pooya.C11.C11_new` | propext, Quot.sound |
| C12 | `Pooya.C12.C12_refuted` | propext, Classical.choice, Quot.sound |
| C12 | `Pooya.C12.C12_refuted_full_name` | propext, Classical.choice, Quot.sound |
| C12 | `Pooya.C12.C12_step_partial` | propext, Quot.sound |
| C12 | `Pooya.C12.C12_partial` | propext, Quot.sound |
| C12 | `Pooya.C12.C12_full_name_partial` | propext, Classical.choice, Quot.sound |
| C12 | `Pooya.C12.C12_tree_partial` | propext, Quot.sound |
| C13 | `Pooya.C13.C13_visit` | propext, Classical.choice, Quot.sound |
| C13 | `Pooya.C13.C13_visitL` | propext, Classical.choice, Quot.sound |
| C13 | `Pooya.C13.C13_all` | propext, Classical.choice, Quot.sound |
| C14 | `Pooya.C14.C14_connect` | propext, Classical.choice, Quot.sound |
| C14 | `Pooya.C14.C14_throws` | propext, Quot.sound |
| C14 | `Pooya.C14.C14_once` | propext, Classical.choice, Quot.sound |
| C14 | `Pooya.C14.C14_class_links` | propext, Classical.choice, Quot.sound |
| C14 | `Pooya.C14.C14_class_throws` | propext, Classical.choice, Quot.sound |
| C14 | `Pooya.C14.C14_required_bit` | propext, Quot.sound |
| C14 | `Pooya.C14.C14_required_inputs` | propext, Classical.choice, Quot.sound |
| C15 | `Pooya.C15.C15_at_most_once` | propext, Classical.choice, Quot.sound |
| C15 | `Pooya.C15.C15_right_time` | propext, Classical.choice, Quot.sound |
| C16 | `Pooya.C16.C16_only_when_ready` | propext, Classical.choice, Quot.sound |
| C17 | `Pooya.C17.C17_plain_sweeps` | propext, Quot.sound |
| C17 | `Pooya.C17.C17_reuse_sweeps` | propext, Classical.choice, Quot.sound |
| C17 | `Pooya.C17.C17_fast_levels` | propext, Classical.choice, Quot.sound |
| C17 | `Pooya.C17.C17_maximal` | propext, Classical.choice, Quot.sound |
| C17 | `Pooya.C17.C17_processed` | propext, Classical.choice, Quot.sound |
| C18 | `Pooya.C18.C18_order_and_nesting` | propext, Classical.choice, Quot.sound |
| C18 | `Pooya.C18.C18_runs` | propext, Classical.choice, Quot.sound |
| C19 | `Pooya.C19.C19_order_partial` | propext, Classical.choice, Quot.sound |
| C19 | `Pooya.C19.C19_permutation_partial` | propext, Classical.choice, Quot.sound |
| C19 | `Pooya.C19.C19_same_results_partial` | propext, Classical.choice, Quot.sound |
| C19 | `Pooya.C19.C19_same_runs_partial` | propext, Classical.choice, Quot.sound |
| C19 | `Pooya.C19.C19_refuted_nostate` | propext, Classical.choice, Quot.sound |
| C19 | `Pooya.C19.C19_refuted_builder` | propext, Classical.choice, Quot.sound |
| C20 | `Pooya.C20_order` | propext, Classical.choice, Quot.sound |
| C20 | `Pooya.C20_same_results_partial` | propext, Classical.choice, Quot.sound |
| C20 | `Pooya.C20_same_runs_partial` | propext, Classical.choice, Quot.sound |
| C20 | `Pooya.C20_refuted_init` | propext, Classical.choice, Quot.sound |
| C21 | `Pooya.C21.C21_ranked_run` | propext, Classical.choice, Quot.sound |
| C21 | `Pooya.C21.C21_ranked_fast` | propext, Classical.choice, Quot.sound |
| C21 | `Pooya.C21.C21_waiting_idle` | propext, Classical.choice, Quot.sound |
| C21 | `Pooya.C21.C21_loop_never_runs` | propext, Classical.choice, Quot.sound |
| C21 | `Pooya.C21.C21_loop_rejected` | propext, Classical.choice, Quot.sound |
| C22 | `Pooya.C22.C22_no_reassignment` | propext, Classical.choice, Quot.sound |
| C22 | `Pooya.C22.C22_before_kept` | propext, Classical.choice, Quot.sound |
| C22 | `Pooya.C22.C22_outputs_kept` | propext, Classical.choice, Quot.sound |
| C22 | `Pooya.C22.C22_empty_array` | propext, Classical.choice, Quot.sound |
| C23 | `Pooya.C23.C23_conjunction` | propext, Classical.choice, Quot.sound |
| C24 | `Pooya.C24.C24_fresh` | propext, Classical.choice, Quot.sound |
| C24 | `Pooya.C24.C24_only_states` | propext, Quot.sound |
| C25 | `Pooya.C25.C25_first_run` | propext, Quot.sound |
| C25 | `Pooya.C25.C25_initialized` | propext, Quot.sound |
| C25 | `Pooya.C25.C25_not_initialized` | propext, Quot.sound |
| C25 | `Pooya.C25.C25_time` | propext, Quot.sound |
| C26 | `Pooya.C26.C26_backwards_rejected_partial` | propext, Quot.sound |
| C26 | `Pooya.C26.C26_time` | propext, Quot.sound |
| C26 | `Pooya.C26.C26_history_partial` | propext, Quot.sound |
| C26 | `Pooya.C26.C26_history_exact_partial` | propext, Classical.choice, Quot.sound |
| C26 | `Pooya.C26.C26_no_check_without_states` | propext, Classical.choice, Quot.sound |
| C27 | `Pooya.C27.C27_tiling` | propext, Classical.choice, Quot.sound |
| C27 | `Pooya.C27.C27_within` | propext, Classical.choice, Quot.sound |
| C28 | `Pooya.C28.C28_min` | propext, Classical.choice, Quot.sound |
| C28 | `Pooya.C28.C28_max_partial` | propext, Classical.choice, Quot.sound |
| C28 | `Pooya.C28.C28_max_short_partial` | propext, Classical.choice, Quot.sound |
| C28 | `Pooya.C28.C28_refuted` | propext, Classical.choice, Quot.sound |
| C29 | `Pooya.C29.C29_trials` | propext, Classical.choice, Quot.sound |
| C29 | `Pooya.C29.C29_terminates` | propext, Classical.choice, Quot.sound |
| C29 | `Pooya.C29.C29_finite` | propext, Classical.choice, Quot.sound |
| C29 | `Pooya.C29.C29_single` | propext, Classical.choice, Quot.sound |
| C30 | `Pooya.C30_roundtrip` | propext, Classical.choice, Quot.sound |
| C30 | `Pooya.C30_slots` | propext, Classical.choice, Quot.sound |
| C30 | `Pooya.C30_trajectory` | propext, Classical.choice, Quot.sound |
| C31 | `Pooya.C31_run` | propext, Classical.choice, Quot.sound |
| C31 | `Pooya.C31_again` | propext, Classical.choice, Quot.sound |
| C31 | `Pooya.C31_function` | propext, Classical.choice, Quot.sound |
| C31 | `Pooya.C31_integrates` | propext, Classical.choice, Quot.sound |
| C32 | `Pooya.C32_repeat_partial` | propext, Classical.choice, Quot.sound |
| C32 | `Pooya.C32_integrator_partial` | propext, Quot.sound |
| C32 | `Pooya.C32_refuted` | propext, Classical.choice, Quot.sound |
| C33 | `Pooya.C33_trial_partial` | propext, Classical.choice, Quot.sound |
| C33 | `Pooya.C33_refuted` | propext, Classical.choice, Quot.sound |
| C34 | `Pooya.C34_again_partial` | propext, Classical.choice, Quot.sound |
| C34 | `Pooya.C34_refuted_states` | propext, Classical.choice, Quot.sound |
| C34 | `Pooya.C34_refuted_debug` | propext, Classical.choice, Quot.sound |
| C34 | `Pooya.C34_refuted_fast` | propext, Classical.choice, Quot.sound |
| C34 | `Pooya.C34_refuted_failed` | propext, Classical.choice, Quot.sound |
| C35 | `Pooya.C35_memory` | propext, Classical.choice, Quot.sound |
| C36 | `Pooya.C36_initial` | propext, Classical.choice, Quot.sound |
| C36 | `Pooya.C36_no_wait` | propext, Quot.sound |
| C36 | `Pooya.C36_hold` | propext, Classical.choice, Quot.sound |
| C36 | `Pooya.C36_carry` | propext, Classical.choice, Quot.sound |
| C37 | `Pooya.C37_retry_partial` | propext, Classical.choice, Quot.sound |
| C37 | `Pooya.C37_next_partial` | propext, Classical.choice, Quot.sound |
| C37 | `Pooya.C37_refuted` | propext, Classical.choice, Quot.sound |
| C38 | `Pooya.C38.C38_empty` | propext, Quot.sound |
| C38 | `Pooya.C38.C38_initial` | propext, Quot.sound |
| C38 | `Pooya.C38.C38_last` | propext, Quot.sound |
| C38 | `Pooya.C38.C38_between_any` | propext, Classical.choice, Quot.sound |
| C38 | `Pooya.C38.C38_neighbours` | propext, Classical.choice, Quot.sound |
| C38 | `Pooya.C38.C38_between` | propext, Classical.choice, Quot.sound |
| C38 | `Pooya.C38.C38_between_array` | propext, Classical.choice, Quot.sound |
| C38 | `Pooya.C38.C38_bounded` | propext, Classical.choice, Quot.sound |
| C38 | `Pooya.C38.C38_affine` | propext, Classical.choice, Quot.sound |
| C38 | `Pooya.C38.C38_no_zero_division` | propext, Quot.sound |
| C38 | `Pooya.C38.C38_record` | propext, Quot.sound |
| C38 | `Pooya.C38.C38_nan_out_of_bounds` | propext, Quot.sound |
| C39 | `Pooya.C39.C39_partial` | propext, Classical.choice, Quot.sound |
| C39 | `Pooya.C39.C39_gap_partial` | propext, Classical.choice, Quot.sound |
| C39 | `Pooya.C39.C39_forgotten` | propext, Classical.choice, Quot.sound |
| C39 | `Pooya.C39.C39_refuted` | propext, Classical.choice, Quot.sound |
| C40 | `Pooya.C40.C40_initial_partial` | propext, Quot.sound |
| C40 | `Pooya.C40.C40_difference_partial` | propext, Quot.sound |
| C40 | `Pooya.C40.C40_difference_array_partial` | propext, Quot.sound |
| C40 | `Pooya.C40.C40_again` | propext, Quot.sound |
| C40 | `Pooya.C40.C40_affine_partial` | propext, Classical.choice, Quot.sound |
| C40 | `Pooya.C40.C40_refuted` | propext, Classical.choice, Quot.sound |
| C41 | `Pooya.C41.C41_const` | propext |
| C41 | `Pooya.C41.C41_source` | propext |
| C41 | `Pooya.C41.C41_pipe` | propext |
| C41 | `Pooya.C41.C41_siso` | propext, Quot.sound |
| C41 | `Pooya.C41.C41_gain` | propext, Quot.sound |
| C41 | `Pooya.C41.C41_gain_int` | propext, Classical.choice, Quot.sound |
| C41 | `Pooya.C41.C41_gain_int_overflow` | propext, Quot.sound |
| C41 | `Pooya.C41.C41_gain_array` | propext, Quot.sound |
| C41 | `Pooya.C41.C41_subtract` | propext, Quot.sound |
| C41 | `Pooya.C41.C41_subtract_array` | propext, Quot.sound |
| C41 | `Pooya.C41.C41_divide` | propext, Quot.sound |
| C41 | `Pooya.C41.C41_divide_array` | propext, Quot.sound |
| C41 | `Pooya.C41.C41_add` | propext |
| C41 | `Pooya.C41.C41_add_array` | propext, Quot.sound |
| C41 | `Pooya.C41.C41_multiply` | propext |
| C41 | `Pooya.C41.C41_multiply_array` | propext, Quot.sound |
| C41 | `Pooya.C41.C41_add_exact` | propext, Quot.sound |
| C41 | `Pooya.C41.C41_add_array_exact` | propext, Quot.sound |
| C41 | `Pooya.C41.C41_multiply_exact` | propext, Quot.sound |
| C41 | `Pooya.C41.C41_multiply_array_exact` | propext, Quot.sound |
| C41 | `Pooya.C41.C41_order_exact` | propext, Quot.sound |
| C42 | `Pooya.C42.C42_pipe` | propext, Classical.choice, Quot.sound |
| C42 | `Pooya.C42.C42_pipe_throws` | propext, Classical.choice, Quot.sound |
| C42 | `Pooya.C43.C43_connections` | propext, Classical.choice, Quot.sound |
| C43 | `Pooya.C43.C43_memory` | propext, Classical.choice, Quot.sound |
| C43 | `Pooya.C43.C43_used_once` | propext, Classical.choice, Quot.sound |
| C43 | `Pooya.C43.C43_connections` | propext, Classical.choice, Quot.sound |
| C43 | `Pooya.C43.C43_wrong_type` | propext, Classical.choice, Quot.sound |
| C44 | `Pooya.C44.C44_euler` | propext, Classical.choice, Quot.sound |
| C44 | `Pooya.C44.C44_rk4` | propext, Classical.choice, Quot.sound |
| C44 | `Pooya.C44.C44_rkf45` | propext, Classical.choice, Quot.sound |
| C44 | `Pooya.C44.C44_times` | propext, Classical.choice, Quot.sound |
| C44 | `Pooya.C44.C44_dimension` | propext, Classical.choice, Quot.sound |
| C44 | `Pooya.C44.C44_order` | propext, Classical.choice, Quot.sound |
| C44 | `Pooya.C44.C44_order_sharp` | propext, Classical.choice, Quot.sound |
| C45 | `Pooya.C45.C45_euler` | propext, Classical.choice, Quot.sound |
| C45 | `Pooya.C45.C45_rk4` | propext, Classical.choice, Quot.sound |
| C45 | `Pooya.C45.C45_rkf45` | propext, Classical.choice, Quot.sound |
| C45 | `Pooya.C45.C45_linear` | propext, Classical.choice, Quot.sound |
| C45 | `Pooya.C45.C45_exponential` | propext, Classical.choice, Quot.sound |
| C46 | `Pooya.C46.C46_three_sizes` | propext, Classical.choice, Quot.sound |
| C46 | `Pooya.C46.C46_criterion` | propext, Classical.choice, Quot.sound |
| C46 | `Pooya.C46.C46_no_zero_division` | propext, Classical.choice, Quot.sound |
| C47 | `Pooya.C47.C47_equivariant` | propext, Quot.sound |
| C47 | `Pooya.C47.C47_permuted_step` | propext, Quot.sound |
| C47 | `Pooya.C47.C47_equivariant_rkf45` | propext, Classical.choice, Quot.sound |
| C47 | `Pooya.C47.C47_permuted_step_rkf45` | propext, Classical.choice, Quot.sound |
| C47 | `Pooya.C47.C47_linear_invariant` | propext, Classical.choice, Quot.sound |
| C48 | `Pooya.C48.C48_recorded` | propext, Classical.choice, Quot.sound |
| C48 | `Pooya.C48.C48_growth` | propext, Classical.choice, Quot.sound |
| C48 | `Pooya.C48.C48_nothing_tracked` | propext, Quot.sound |
| C49 | `Pooya.C49.C49_in_bounds_partial` | propext, Classical.choice, Quot.sound |
| C49 | `Pooya.C49.C49_nrows_partial` | propext, Classical.choice, Quot.sound |
| C49 | `Pooya.C49.C49_shrink_partial` | propext, Classical.choice, Quot.sound |
| C49 | `Pooya.C49.C49_shrink_tables_partial` | propext, Classical.choice, Quot.sound |
| C49 | `Pooya.C49.C49_idempotent` | propext, Quot.sound |
| C49 | `Pooya.C49.C49_refuted_growth_zero` | propext, Quot.sound |
| C49 | `Pooya.C49.C49_refuted_early_shrink` | propext, Classical.choice, Quot.sound |
| C50 | `Pooya.C50.C50_track_partial` | propext, Quot.sound |
| C50 | `Pooya.C50.C50_bus` | propext, Quot.sound |
| C50 | `Pooya.C50.C50_untrack_partial` | propext, Quot.sound |
| C50 | `Pooya.C50.C50_set_partial` | propext, Quot.sound |
| C50 | `Pooya.C50.C50_refuted` | propext |
| C50 | `Pooya.C50.C50_late_debug` | propext, Quot.sound |
| C50 | `Pooya.C50.C50_late_release` | propext, Classical.choice, Quot.sound |
| C51 | `Pooya.C51.C51_rectangular` | propext, Classical.choice, Quot.sound |
| C51 | `Pooya.C51.C51_columns` | propext, Classical.choice, Quot.sound |
| C51 | `Pooya.C51.C51_complete_partial` | propext, Classical.choice, Quot.sound |
| C51 | `Pooya.C51.C51_refuted_uninitialised` | propext, Classical.choice, Quot.sound |
| C51 | `Pooya.C51.C51_refuted_out_of_bounds` | propext, Classical.choice, Quot.sound |
| C52 | `Pooya.C52.C52_run` | propext, Classical.choice, Quot.sound |
| C52 | `Pooya.C52.C52_throws` | propext, Classical.choice, Quot.sound |
| C52 | `Pooya.C52.C52_states` | propext, Classical.choice, Quot.sound |
| C52 | `Pooya.C52.C52_init` | propext, Classical.choice, Quot.sound |
| C53 | `Pooya.C53_unmoved_partial` | propext, Classical.choice, Quot.sound |
| C53 | `Pooya.C53_retry_partial` | propext, Classical.choice, Quot.sound |
| C53 | `Pooya.C53_refuted_states` | propext, Classical.choice, Quot.sound |
| C53 | `Pooya.C53_refuted_memory` | propext, Classical.choice, Quot.sound |
| C54 | `Pooya.C54_simulator_partial` | propext, Quot.sound |
| C54 | `Pooya.C54_refuted_fast` | propext, Classical.choice, Quot.sound |
| C55 | `Pooya.C55_evaluation` | propext, Classical.choice, Quot.sound |
| C55 | `Pooya.C55_call` | propext, Classical.choice, Quot.sound |
| C55 | `Pooya.C55_unique` | propext, Classical.choice, Quot.sound |
| C55 | `Pooya.C55_determined` | propext, Classical.choice, Quot.sound |
| C56 | `Pooya.C56.C56_no_ub` | propext, Classical.choice, Quot.sound |
| C56 | `Pooya.C56.C56_overflow_only` | propext, Classical.choice, Quot.sound |
| C56 | `Pooya.C56.C56_sizes_agree` | propext, Classical.choice, Quot.sound |
| C56 | `Pooya.C56.C56_values_fit` | propext, Classical.choice, Quot.sound |
| C56 | `Pooya.C56.C56_delay_after_failure_refuted` | propext, Classical.choice, Quot.sound |
| C56 | `Pooya.C56.C56_nan_delay_refuted` | propext, Classical.choice, Quot.sound |
| C56 | `Pooya.C56.C56_nan_time_refuted` | propext, Classical.choice, Quot.sound |
| C56 | `Pooya.C56.C56_sizes_refuted` | propext, Classical.choice, Quot.sound |
| C57 | `Pooya.C57.C57_init` | propext, Classical.choice, Quot.sound |
| C57 | `Pooya.C57.C57_no_failure` | propext, Classical.choice, Quot.sound |
| C57 | `Pooya.C57.C57_exact` | propext, Classical.choice, Quot.sound |
| C57 | `Pooya.C57.C57_run_bounded` | propext, Classical.choice, Quot.sound |
| C57 | `Pooya.C57.C57_run` | propext, Classical.choice, Quot.sound |
| C57 | `Pooya.C57.C57_repeated_delay_refuted` | propext, Classical.choice, Quot.sound |
| C58 | `Pooya.C58_leaf` | propext, Classical.choice, Quot.sound |
| C58 | `Pooya.C58_linked` | propext, Classical.choice, Quot.sound |
| C58 | `Pooya.C58_waits` | propext, Classical.choice, Quot.sound |
| C58 | `Pooya.C58_states` | propext, Classical.choice, Quot.sound |
| C58 | `Pooya.C58_integrated` | propext, Classical.choice, Quot.sound |
| C58 | `Pooya.C58_deriv_types` | propext, Classical.choice, Quot.sound |
| C58 | `Pooya.C58_typed` | propext, Classical.choice, Quot.sound |
| C58 | `Pooya.C58_wellTyped` | propext, Classical.choice, Quot.sound |
| C58 | `Pooya.C58_nested_bus_refuted` | propext, Classical.choice, Quot.sound |
| C59 | `Pooya.C59.C59_waits` | propext, Classical.choice, Quot.sound |
| C59 | `Pooya.C59.C59_complete` | propext, Classical.choice, Quot.sound |
| C59 | `Pooya.C59.C59_simulates` | propext, Classical.choice, Quot.sound |
| C60 | `Pooya.C60.C60_rhs` | propext, Classical.choice, Quot.sound |
| C60 | `Pooya.C60.C60_trajectory` | propext, Classical.choice, Quot.sound |
| C61 | `Pooya.C61.C61_converges` | propext, Classical.choice, Quot.sound |
| C61 | `Pooya.C61.C61_rate` | propext, Classical.choice, Quot.sound |
| C62 | `Pooya.C62.C62_safe` | propext, Classical.choice, Quot.sound |
| C62 | `Pooya.C62.C62_unrelated` | propext, Classical.choice, Quot.sound |
| C62 | `Pooya.C62.C62_results` | propext, Classical.choice, Quot.sound |
| C62 | `Pooya.C62.C62_returned` | propext, Classical.choice, Quot.sound |
| C62 | `Pooya.C62.C62_partial` | propext, Classical.choice, Quot.sound |
| C62 | `Pooya.C62.C62_child_refuted` | propext, Classical.choice, Quot.sound |
| C62 | `Pooya.C62.C62_parent_refuted` | propext, Classical.choice, Quot.sound |
| C62 | `Pooya.C62.C62_refuted` | propext, Classical.choice, Quot.sound |
| C63 | `Pooya.C63.C63_restored` | propext, Classical.choice, Quot.sound |
| C63 | `Pooya.C63.C63_visit` | propext, Classical.choice, Quot.sound |
| C63 | `Pooya.C63.C63_process` | propext, Classical.choice, Quot.sound |
| C63 | `Pooya.C63.C63_step` | propext, Classical.choice, Quot.sound |
| C63 | `Pooya.C63.C63_message` | propext, Classical.choice, Quot.sound |
| C64 | `Pooya.C64.C64_counts` | propext, Classical.choice, Quot.sound |
| C64 | `Pooya.C64.C64_defined` | propext, Classical.choice, Quot.sound |
| C64 | `Pooya.C64.C64_alive` | propext, Classical.choice, Quot.sound |
| C64 | `Pooya.C64.C64_typed` | propext, Classical.choice, Quot.sound |
| C64 | `Pooya.C64.C64_leak` | propext, Classical.choice, Quot.sound |
| C64 | `Pooya.C64.C64_partial` | propext, Classical.choice, Quot.sound |
| C64 | `Pooya.C64.C64_permanent` | propext, Classical.choice, Quot.sound |
| C64 | `Pooya.C64.C64_refuted` | propext, Classical.choice, Quot.sound |
| C64 | `Pooya.C64.C64_reset_refuted` | propext, Classical.choice, Quot.sound |
| C65 | `Pooya.C65.C65_mark` | propext, Classical.choice, Quot.sound |
| C65 | `Pooya.C65.C65_process` | propext, Classical.choice, Quot.sound |
| C65 | `Pooya.C65.C65_evaluate` | propext, Classical.choice, Quot.sound |
| C65 | `Pooya.C65.C65_step` | propext, Classical.choice, Quot.sound |
| C65 | `Pooya.C65.C65_visit` | propext, Classical.choice, Quot.sound |
| C65 | `Pooya.C65.C65_tree` | propext, Classical.choice, Quot.sound |
| C66 | `Pooya.C66.C66_converges` | propext, Classical.choice, Quot.sound |
| C66 | `Pooya.C66.C66_rate` | propext, Classical.choice, Quot.sound |
| C66 | `Pooya.C66.C66_buildable` | propext, Classical.choice, Quot.sound |
| C66 | `Pooya.C66.C66_mass_spring` | propext, Classical.choice, Quot.sound |
| C66 | `Pooya.C66.C66_pendulum` | propext, Classical.choice, Quot.sound |
| C66 | `Pooya.C66.C66_tutorial` | propext, Classical.choice, Quot.sound |
| C66 | `Pooya.C66.C66_delay_block` | propext, Classical.choice, Quot.sound |
| C66 | `Pooya.C66.C66_delay_equation` | propext, Classical.choice, Quot.sound |
| C67 | `Pooya.C67.C67_converges` | propext, Classical.choice, Quot.sound |
| C67 | `Pooya.C67.C67_rate` | propext, Classical.choice, Quot.sound |
| C67 | `Pooya.C67.C67_mass_spring` | propext, Classical.choice, Quot.sound |
| C67 | `Pooya.C67.C67_tutorial` | propext, Classical.choice, Quot.sound |
| C67 | `Pooya.C67.C67_delay_block` | propext, Classical.choice, Quot.sound |
| C68 | `Pooya.C68.C68_order` | propext, Classical.choice, Quot.sound |
| C68 | `Pooya.C68.C68_drawing` | propext, Classical.choice, Quot.sound |
| C68 | `Pooya.C68.C68_recorded` | propext, Classical.choice, Quot.sound |
| C68 | `Pooya.C68.C68_mass_spring` | propext, Classical.choice, Quot.sound |
| C68 | `Pooya.C68.C68_pendulum` | propext, Classical.choice, Quot.sound |
| C69 | `Pooya.C69.C69_passage` | propext, Classical.choice, Quot.sound |
| C69 | `Pooya.C69.C69_unique` | propext, Classical.choice, Quot.sound |
| C70 | `Pooya.C70.C70_single` | propext, Classical.choice, Quot.sound |
| C70 | `Pooya.C70.C70_absorbed` | propext, Quot.sound |
| C70 | `Pooya.C70.C70_rounded` | propext, Classical.choice, Quot.sound |
| C70 | `Pooya.C70.C70_binary` | propext, Classical.choice, Quot.sound |
| C70 | `Pooya.C70.C70_endless` | propext, Classical.choice, Quot.sound |
| C71 | `Pooya.C71.C71_rk4` | propext, Classical.choice, Quot.sound |
| C71 | `Pooya.C71.C71_euler` | propext, Classical.choice, Quot.sound |
| C71 | `Pooya.C71.C71_digits` | propext, Classical.choice, Quot.sound |
| C71 | `Pooya.C71.C71_mass_spring` | propext, Classical.choice, Quot.sound |
| C72 | `Pooya.C72.C72_observed` | propext, Classical.choice, Quot.sound |
| C72 | `Pooya.C72.C72_embedded` | propext, Classical.choice, Quot.sound |
| C72 | `Pooya.C72.C72_rkf45_refuted` | propext, Classical.choice, Quot.sound |
| C73 | `Pooya.C73.C73_readable` | propext, Quot.sound |
| C73 | `Pooya.C73.C73_determined` | propext, Quot.sound |
| C73 | `Pooya.C73.C73_printed` | propext, Quot.sound |
| C73 | `Pooya.C73.C73_leaves` | propext, Classical.choice, Quot.sound |
| C73 | `Pooya.C73.C73_submodels` | propext, Classical.choice, Quot.sound |
| C73 | `Pooya.C73.C73_silent` | propext, Classical.choice, Quot.sound |
| C73 | `Pooya.C73.C73_cause` | propext, Classical.choice, Quot.sound |
| C73 | `Pooya.C73.C73_loops` | propext, Classical.choice, Quot.sound |
| C74 | `Pooya.C74.C74_exchange` | propext, Classical.choice, Quot.sound |
| C75 | `Pooya.C75.C75_linear` | propext, Classical.choice, Quot.sound |
| C75 | `Pooya.C75.C75_superposition` | propext, Classical.choice, Quot.sound |
| C75 | `Pooya.C75.C75_rest` | propext, Classical.choice, Quot.sound |
| C75 | `Pooya.C75.C75_rkf45_refuted` | propext, Classical.choice, Quot.sound |
| C76 | `Pooya.C76.C76_run` | propext, Classical.choice, Quot.sound |
| C76 | `Pooya.C76.C76_paces` | propext, Classical.choice, Quot.sound |
| C76 | `Pooya.C76.C76_linear` | propext, Classical.choice, Quot.sound |
| C76 | `Pooya.C76.C76_same` | propext, Classical.choice, Quot.sound |
| C76 | `Pooya.C76.C76_mirror` | propext, Classical.choice, Quot.sound |
| C77 | `Pooya.C77.C77_lumped` | propext, Classical.choice, Quot.sound |
| C77 | `Pooya.C77.C77_balance` | propext, Classical.choice, Quot.sound |
| C78 | `Pooya.C78.C78_unique` | propext, Classical.choice, Quot.sound |
| C78 | `Pooya.C78.C78_paces` | propext, Classical.choice, Quot.sound |
| C78 | `Pooya.C78.C78_same` | propext, Classical.choice, Quot.sound |
| C78 | `Pooya.C78.C78_binary` | propext, Classical.choice, Quot.sound |
| C79 | `Pooya.C79.C79_run` | propext, Classical.choice, Quot.sound |
| C79 | `Pooya.C79.C79_runs` | propext, Classical.choice, Quot.sound |
| C79 | `Pooya.C79.C79_unique` | propext, Classical.choice, Quot.sound |
| C79 | `Pooya.C79.C79_untriggered` | propext, Quot.sound |
| C79 | `Pooya.C79.C79_init` | propext, Classical.choice, Quot.sound |
| C79 | `Pooya.C79.C79_same` | propext, Classical.choice, Quot.sound |
| C79 | `Pooya.C79.C79_sealed` | propext, Classical.choice, Quot.sound |
| C80 | `Pooya.C80.C80_coefficients` | propext, Classical.choice, Quot.sound |
| C80 | `Pooya.C80.C80_symmetry` | propext, Classical.choice, Quot.sound |
| C80 | `Pooya.C80.C80_rkf45_refuted` | propext, Classical.choice, Quot.sound |
| C81 | `Pooya.C81_accepts` | propext, Classical.choice, Quot.sound |
| C81 | `Pooya.C81_throws` | propext, Classical.choice, Quot.sound |
| C81 | `Pooya.C81_diagram` | propext, Classical.choice, Quot.sound |
| C81 | `Pooya.C81_builds` | propext, Classical.choice, Quot.sound |
| C82 | `Pooya.C82.C82_partial` | propext, Classical.choice, Quot.sound |
| C82 | `Pooya.C82.C82_double_partial` | propext, Classical.choice, Quot.sound |
| C82 | `Pooya.C82.C82_nan_accepted` | propext, Classical.choice, Quot.sound |
| C82 | `Pooya.C82.C82_rkf45_refuted` | propext, Classical.choice, Quot.sound |
| C82 | `Pooya.C82.C82_delay_refuted` | propext, Classical.choice, Quot.sound |
| C83 | `Pooya.C83.C83_number` | propext, Classical.choice, Quot.sound |
| C83 | `Pooya.C83.C83_order` | propext, Classical.choice, Quot.sound |
| C83 | `Pooya.C83.C83_partial` | propext, Classical.choice, Quot.sound |
| C83 | `Pooya.C83.C83_refuted` | propext, Classical.choice, Quot.sound |
| C84 | `Pooya.C84.C84_single` | propext, Classical.choice, Quot.sound |
| C84 | `Pooya.C84.C84_rounded` | propext, Classical.choice, Quot.sound |
| C84 | `Pooya.C84.C84_hosts_partial` | propext, Classical.choice, Quot.sound |
| C84 | `Pooya.C84.C84_binary` | propext, Classical.choice, Quot.sound |
| C84 | `Pooya.C84.C84_double_partial` | propext, Classical.choice, Quot.sound |
| C85 | `Pooya.C85.C85_input` | propext, Quot.sound |
| C85 | `Pooya.C85.C85_source` | propext, Classical.choice, Quot.sound |
| C85 | `Pooya.C85.C85_function` | propext, Classical.choice, Quot.sound |
| C85 | `Pooya.C85.C85_memory` | propext, Classical.choice, Quot.sound |
| C85 | `Pooya.C85.C85_derivative` | propext, Classical.choice, Quot.sound |
| C85 | `Pooya.C85.C85_delay` | propext, Classical.choice, Quot.sound |
| C85 | `Pooya.C85.C85_memory_near` | propext, Classical.choice, Quot.sound |
| C85 | `Pooya.C85.C85_derivative_near` | propext, Classical.choice, Quot.sound |
| C85 | `Pooya.C85.C85_delay_near` | propext, Classical.choice, Quot.sound |
| C86 | `Pooya.C86.C86_add` | propext, Classical.choice, Quot.sound |
| C86 | `Pooya.C86.C86_sub` | propext, Classical.choice, Quot.sound |
| C86 | `Pooya.C86.C86_mul` | propext, Classical.choice, Quot.sound |
| C86 | `Pooya.C86.C86_div` | propext, Classical.choice, Quot.sound |
| C86 | `Pooya.C86.C86_abs` | propext, Classical.choice, Quot.sound |
| C86 | `Pooya.C86.C86_lit` | propext, Classical.choice, Quot.sound |
| C86 | `Pooya.C86.C86_lt` | propext, Classical.choice, Quot.sound |
| C86 | `Pooya.C86.C86_eq` | propext, Classical.choice, Quot.sound |
| C86 | `Pooya.C86.C86_le` | propext, Classical.choice, Quot.sound |
| C86 | `Pooya.C86.C86_limit` | propext, Classical.choice, Quot.sound |
| C86 | `Pooya.C86.C86_gain_block` | propext, Classical.choice, Quot.sound |
| C86 | `Pooya.C86.C86_subtract_block` | propext, Classical.choice, Quot.sound |
| C86 | `Pooya.C86.C86_divide_block` | propext, Classical.choice, Quot.sound |
| C87 | `Pooya.C87.C87_sums` | propext, Classical.choice, Quot.sound |
| C87 | `Pooya.C87.C87_timed` | propext, Classical.choice, Quot.sound |
| C87 | `Pooya.C87.C87_cubic` | propext, Classical.choice, Quot.sound |
| C87 | `Pooya.C87.C87_derivative` | propext, Classical.choice, Quot.sound |
| C87 | `Pooya.C87.C87_constant_refuted` | propext, Classical.choice, Quot.sound |
| C87 | `Pooya.C87.C87_euler_near` | propext, Classical.choice, Quot.sound |
| C87 | `Pooya.C87.C87_rk4_near` | propext, Classical.choice, Quot.sound |
| C88 | `Pooya.C88.C88_states` | propext, Classical.choice, Quot.sound |
| C88 | `Pooya.C88.C88_gain` | propext, Classical.choice, Quot.sound |
| C88 | `Pooya.C88.C88_decay` | propext, Classical.choice, Quot.sound |
| C88 | `Pooya.C88.C88_oscillator` | propext, Classical.choice, Quot.sound |
| C88 | `Pooya.C88.C88_energy` | propext, Classical.choice, Quot.sound |
| C88 | `Pooya.C88.C88_exponential` | propext, Classical.choice, Quot.sound |
| C89 | `Pooya.C89.C89_value` | propext, Classical.choice, Quot.sound |
| C89 | `Pooya.C89.C89_told` | propext, Classical.choice, Quot.sound |
| C89 | `Pooya.C89.C89_file` | propext, Classical.choice, Quot.sound |
| C90 | `Pooya.C90.C90_machine` | propext, Classical.choice, Quot.sound |
| C90 | `Pooya.C90.C90_chain` | propext, Classical.choice, Quot.sound |
| C90 | `Pooya.C90.C90_sum` | propext, Classical.choice, Quot.sound |
| C90 | `Pooya.C90.C90_filter` | propext, Classical.choice, Quot.sound |
| C91 | `Pooya.C91.C91_settles` | propext, Classical.choice, Quot.sound |
| C91 | `Pooya.C91.C91_forgets` | propext, Classical.choice, Quot.sound |
| C91 | `Pooya.C91.C91_calm` | propext, Classical.choice, Quot.sound |
| C91 | `Pooya.C91.C91_tutorial` | propext, Classical.choice, Quot.sound |
| C92 | `Pooya.C92.C92_rest` | propext, Classical.choice, Quot.sound |
| C92 | `Pooya.C92.C92_rounded` | propext, Classical.choice, Quot.sound |
| C92 | `Pooya.C92.C92_double` | propext, Classical.choice, Quot.sound |
| C92 | `Pooya.C92.C92_drawing` | propext, Classical.choice, Quot.sound |
| C92 | `Pooya.C92.C92_pendulum` | propext, Classical.choice, Quot.sound |
| C92 | `Pooya.C92.C92_steered` | propext, Classical.choice, Quot.sound |
| C93 | `Pooya.C93.C93_region` | propext, Classical.choice, Quot.sound |
| C93 | `Pooya.C93.C93_bounds` | propext, Classical.choice, Quot.sound |
| C93 | `Pooya.C93.C93_spread` | propext, Classical.choice, Quot.sound |
| C93 | `Pooya.C93.C93_gap` | propext, Classical.choice, Quot.sound |
| C94 | `Pooya.C94.C94_near` | propext, Classical.choice, Quot.sound |
| C94 | `Pooya.C94.C94_closing` | propext, Classical.choice, Quot.sound |
| C94 | `Pooya.C94.C94_exp` | propext, Classical.choice, Quot.sound |
| C94 | `Pooya.C94.C94_sharp` | propext, Classical.choice, Quot.sound |
| C95 | `Pooya.C95.C95_near` | propext, Classical.choice, Quot.sound |
| C95 | `Pooya.C95.C95_within` | propext, Classical.choice, Quot.sound |
| C95 | `Pooya.C95.C95_under` | propext, Classical.choice, Quot.sound |
| C95 | `Pooya.C95.C95_exp` | propext, Classical.choice, Quot.sound |
| C96 | `Pooya.C96.C96_region` | propext, Classical.choice, Quot.sound |
| C96 | `Pooya.C96.C96_positive` | propext, Classical.choice, Quot.sound |
| C96 | `Pooya.C96.C96_sinks` | propext, Classical.choice, Quot.sound |
| C96 | `Pooya.C96.C96_double` | propext, Classical.choice, Quot.sound |
| C96 | `Pooya.C96.C96_decay` | propext, Classical.choice, Quot.sound |
| C96 | `Pooya.C96.C96_gap` | propext, Classical.choice, Quot.sound |
| C97 | `Pooya.C97.C97_drawings` | propext, Classical.choice, Quot.sound |
| C97 | `Pooya.C97.C97_pendulum` | propext, Classical.choice, Quot.sound |
| C98 | `Pooya.C98.C98_forever` | propext, Classical.choice, Quot.sound |
| C98 | `Pooya.C98.C98_swing` | propext, Classical.choice, Quot.sound |
| C99 | `Pooya.C99.C99_fades` | propext, Classical.choice, Quot.sound |
| C99 | `Pooya.C99.C99_forgets` | propext, Classical.choice, Quot.sound |
| C99 | `Pooya.C99.C99_decay` | propext, Classical.choice, Quot.sound |
| C99 | `Pooya.C99.C99_steps` | propext, Classical.choice, Quot.sound |
| C100 | `Pooya.C100.C100_follows` | propext, Classical.choice, Quot.sound |
| C100 | `Pooya.C100.C100_drawing` | propext, Classical.choice, Quot.sound |
| C100 | `Pooya.C100.C100_lag` | propext, Classical.choice, Quot.sound |
| C101 | `Pooya.C101.C101_units` | propext, Classical.choice, Quot.sound |
| C101 | `Pooya.C101.C101_decay` | propext, Classical.choice, Quot.sound |
| C101 | `Pooya.C101.C101_rkf45_refuted` | propext, Classical.choice, Quot.sound |
| C101 | `Pooya.C101.C101_drawings` | propext, Classical.choice, Quot.sound |
| C101 | `Pooya.C101.C101_degrees` | propext, Classical.choice, Quot.sound |
