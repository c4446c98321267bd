# Axioms each theorem depends on

Output of `#print axioms` for every theorem named in `MANIFEST.json`. The three axioms that occur are those of Lean itself:
`propext`, `Classical.choice` and `Quot.sound`. P stands for `propext`, C for `Classical.choice`, Q for `Quot.sound`.

* C01: `Frac.C01_make` PCQ.
* C02: `Frac.C02_eq` PCQ, `Frac.C02_equivalence` PCQ, `Frac.C02_neg_denominator_counterexample` PCQ.
* C03: `Frac.C03_order` PCQ, `Frac.C03_assert` PCQ, `Frac.C03_int` PCQ.
* C04: `Frac.C04_mul` PCQ, `Frac.C04_mulI` PCQ, `Frac.C04_div` PCQ, `Frac.C04_divI` PCQ.
* C05: `C05_extended_euclide_partial` PCQ, `C05_negative_counterexample` PQ, `C05_modulo` PCQ.
* C06: `C06_expand` PCQ, `C06_blanks` PCQ, `C06_reject` PQ, `C06_trailing_star_counterexample` PCQ.
* C07: `C07_first_wins` PQ, `C07_later_ignored` P.
* C08: `C08_unique` PCQ, `C08_lookup` PCQ, `C08_add_vertex` PCQ, `C08_add_edge` PCQ, `C08_set_vertex_id` PCQ.
* C09: `C09_current` PQ, `C09_locked` PQ, `C09_invalidated` PQ.
* C10: `C10_set_in_partial` PCQ, `C10_set_out_partial` PCQ, `C10_length_checked` PCQ, `C10_totals_partial` PCQ, `C10_set_init` PCQ, `C10_lengths_partial` PCQ, `C10_overflow_counterexample` PQ, `C10_phases_counterexample` PQ.
* C11: `C11_computed` PQ, `C11_fresh_partial` PCQ, `C11_stale_counterexample` PQ, `C11_reuse_counterexample` PQ.
* C12: `C12_balance_partial` PCQ, `C12_cycles_partial` PCQ, `C12_isolated_counterexample` PQ.
* C13: `C13_minimal_partial` PCQ, `C13_isolated_counterexample` PQ.
* C14: `C14_consistent_iff` PCQ.
* C15: `C15_C16_channel_iff` PCQ, `C15_C16_graph_iff` PCQ, `C15_init_channel_partial` PCQ, `C15_init_graph_partial` PCQ, `C15_reentrant_producer_counterexample` PCQ, `C15_reentrant_consumer_counterexample` PCQ, `C15_init_duration_counterexample` PCQ, `C15_init_granularity_counterexample` PCQ.
* C16: `C15_C16_channel_iff` PCQ, `C15_C16_graph_iff` PCQ, `C16_init_counterexample` PCQ.
* C17: `C17_builds_agree` PCQ.
* C18: `C18_selfloop_iff` PCQ, `C18_init_iff` PCQ, `C15_init_duration_counterexample` PCQ.
* C19: `C19_update` PCQ.
* C20: `C20_terminates` PCQ.
* C21: `C21_starting_times` PCQ, `C21_infinite` PCQ, `C21_schedule_valid_iff` PCQ.
* C22: `C22_conservation_partial` PCQ, `C22_program_partial` PCQ, `C22_selfloop_counterexample` PCQ.
* C23: `C23_capacity` PCQ, `C23_space_determined` PCQ.
* C24: `C24_advance` PCQ, `C24_idle` PCQ, `C24_longmax_counterexample` PCQ.
* C25: `C25_deadlock_real_partial` PCQ, `C25_selfloop_counterexample` PCQ, `C25_unguarded_diverges` PCQ.
* C26: `C26_long_run` PCQ, `C26_every_actor` PCQ.
* C27: `C27_size_is_sum` PCQ, `C27_needs_update` PCQ.
* C28: `C28_set_contents` PCQ, `C28_pmax` PCQ, `C28_duplicate_ignored` PQ.
* C29: `C29_no_loss` PCQ, `C29_nondominated_partial` PCQ, `C29_late_small_point_counterexample` PCQ.
* C30: `C30_unsat_exact` PCQ.
* C31: `C31_sat_exact` PCQ, `C31_not_antichain` PQ.
* C32: `C32_knees_exact` PCQ, `C32_no_feasible_point_missed` PCQ.
* C33: `C33_makeMinimal_glb` PCQ.
* C34: `C34_step_is_gcd` PQ, `C34_only_steps_matter` PCQ, `C34_single_rate_minimal` PCQ, `C34_multiphase_counterexample` PQ.
* C35: `C35_sequence` PQ, `C35_time` PCQ.
* C36: `C36_slot_wait` PQ.
* C37: `C37_distance_partial` PCQ, `C37_metric` PQ, `C37_rectangular_counterexample` PCQ.
* C38: `C38_nodes` PCQ, `C38_links` PCQ, `C38_unique` PCQ.
* C39: `C39_route` PCQ, `C39_shortest` PCQ, `C39_random_mapping` PCQ, `C39_modulo_counterexample` PCQ.
* C40: `C40_index` PCQ, `C40_table_counterexample` PCQ.
* C41: `C41_chain` PCQ, `C41_kept` PCQ, `C41_single_phase` PCQ, `C41_tokens` PCQ, `C41_consistent_partial` PCQ, `C41_no_route_counterexample` PCQ.
* C42: `C42_terminates` PCQ, `C42_result` PCQ.
* C43: `C43_exact` PCQ, `C43_valid` PCQ.
* C44: `C44_cycles` PCQ, `C44_self_edge` PCQ.
* C45: `C45_graph` PCQ, `C45_total` PCQ, `C45_accepted` PCQ.
* C46: `C46_round_trip` PQ, `C46_multiplicities` PCQ, `C46_blank_drops` PQ, `C46_blank_counterexample` PCQ, `C46_empty_counterexample` P, `C46_malformed_counterexample` PCQ.
* C47: `C47_parameters` PCQ, `C47_generator` PCQ, `C47_help` P.
* C48: `C48_indices` PCQ, `C48_total` PCQ, `C48_valid` PCQ, `C48_optimal` PCQ, `C48_agrees_with_kiter` PCQ.
* C49: `C49_total` PCQ, `C49_valid` PCQ, `C49_approximation_safe` PCQ, `C49_optimal` PCQ, `C49_approximation_above` PCQ, `C49_never_beats_optimum` PCQ.
* C50: `C50_period2scheduling` PCQ.
* C51: `C51_groups_partial` PCQ, `C51_no_join_partial` P, `C51_lost_value_counterexample` P.
* C52: `C52_kiter_verdict` PCQ, `C52_kiter_with_solver` PCQ, `C52_kiter_optimal` PCQ.
* C53: `C53_incremental_update` PCQ.
* C54: `C54_pareto_complete` PCQ, `C54_front_to_the_end` PCQ.
* C55: `C55_terminates` PCQ, `C55_explores_once_in_order` PCQ.
* C56: `C56_durations` PCQ, `C56_total_floor` PCQ, `C56_total_partial` PCQ, `C56_fraction_counterexample` PCQ.
* C57: `C57_random_route` PCQ.
* C58: `C58_packet_dates` PCQ, `C58_exclusive` PCQ, `C58_no_idle` PCQ.
* C59: `C59_terminates` PCQ, `C59_cyclic_never_ends` PCQ.
* C60: `C60_integer_durations` PCQ.
* C61: `C61_order` PCQ, `C61_terminates` PCQ.
* C62: `C62_exact_rates` PCQ, `C62_balance_partial` PCQ, `C62_balance_single_phase` PCQ, `C62_durations` PQ, `C62_phases_counterexample` PCQ, `C62_no_period_counterexample` PCQ.
* C63: `C63_balance_partial` PCQ, `C63_lost_counterexample` PQ.
* C64: `C64_marking` PCQ, `C64_terminates_partial` PCQ, `C64_live_partial` PCQ, `C64_generates` PCQ.
* C65: `Howard.C65_terminates` PCQ, `Howard.C65_circuit` PCQ, `Howard.C65_tolerance` PCQ, `Howard.C65_exact` PCQ, `Howard.C65_infinity` PCQ, `C65_event_graphs` PCQ, `Howard.Example.C65_single_loop` PCQ, `Howard.Example.C65_iteration_limit` PCQ, `Howard.Example.C65_low_bound` PCQ.
* C66: `C66_durations` PCQ, `C66_earliest` PCQ, `C66_earliest_positive` PCQ, `C66_self_timed_valid` PCQ, `C66_zero_duration_counterexample` PCQ.
* C67: `C67_upper_bound` PCQ, `C67_optimal` PCQ, `C67_deadlock` PCQ, `C67_engines_agree` PCQ.
* C68: `C68_terminates` PCQ, `C68_time_passes` PCQ, `C68_decides` PCQ.
* C69: `C69_whole_graph` PCQ, `C69_fractional_counterexample` PCQ, `C69_single_task_diverges` PCQ.
* C70: `C70_pareto_front` PCQ, `C70_defined` PCQ.
* C71: `C71_monotone` PCQ.
* C72: `C72_all_capacities` PCQ.
* C73: `C73_sizes_suffice` PCQ, `C73_throughput` PCQ.
* C74: `C74_feasible_iff` PCQ.
* C75: `C75_least_memory` PCQ, `C75_relaxed_lower_bound` PCQ.
* C76: `C76_valid_partial` PCQ, `C76_violated` PCQ.
* C77: `C77_sizes_suffice` PCQ, `C77_feasible_iff` PCQ, `C77_least_memory` PCQ.
* C78: `C78_offsets_fit` PCQ, `C78_no_offsets` PCQ, `C78_strict_offsets` PCQ, `C78_strict_sizing` PCQ.
* C79: `C79_fixed_sizing` PCQ.
* C80: `C80_virtual_buffers` PCQ.
* C81: `C81_valid_partial` PCQ, `C81_violated` PCQ.
* C82: `C82_fixed_vector` PCQ, `C82_parameters` PCQ, `C82_monotone` PCQ, `C82_nperiodic_optimal` PCQ, `C82_against_kiter` PCQ, `C82_with_solver` PCQ.
* C83: `C83_rows_iff_valid` PCQ, `C83_lp_optimal` PCQ, `C83_lp_agrees` PCQ, `C83_lpn_optimal` PCQ, `C83_real_optimal` PCQ, `C83_real_agrees` PCQ, `C83_schedule_partial` PCQ, `C83_collected_counterexample` PCQ.
* C84: `C84_sound` PCQ, `C84_decides` PCQ, `C84_no_channel` PCQ, `C84_isolated_fails` PCQ, `C84_minimal` PCQ, `C84_repetition` PCQ, `C84_components_counterexample` PCQ.
* C85: `C85_reads` PCQ, `C85_round_trip` PCQ, `C85_stable` PCQ, `C85_valid` PCQ, `C85_reentrancy_counterexample` PCQ, `C85_loop_counterexample` PCQ, `C85_empty_name_counterexample` PCQ.
* C86: `C86_cycles` PCQ, `C86_returns` PCQ, `C86_deadlock` PCQ, `C86_periodic` PCQ, `C86_default_counterexample` PCQ.
* C87: `C87_pareto_front` PCQ, `C87_all_sizes` PCQ, `C87_returns` PCQ, `C87_defined` PCQ, `C87_default_counterexample` PCQ.
* C88: `C88_front` PCQ, `C88_undefined_at_the_target` PCQ, `C88_smaller_partial` PCQ, `C88_kperiodic_front` PCQ, `C88_kperiodic_undefined` PCQ, `KneeExample.C88_undefined_example` PCQ, `KneeExample.C88_smallest_lost` PCQ, `KneeExample.C88_front_lost` PCQ, `KneeExample.C88_larger_steps` PCQ.
* C89: `C89_schedule` PCQ, `C89_no_schedule` PCQ, `C89_critical_partial` PCQ, `C89_with_solver` PCQ, `C65_fine_exists` PCQ, `SPExample.C89_negative_period` PCQ, `SPExample.C89_no_schedule_example` PCQ, `SPExample.C89_wrong_channel` PCQ.
* C90: `Chart.C90_chart` PCQ, `Chart.C90_strict` PCQ, `Chart.C90_drift` PCQ, `Chart.C90_zero_duration` PCQ.
* C91: `C91_starts` PCQ, `C91_cut` PCQ, `C91_exact_partial` PCQ, `C91_valid_partial` PCQ, `C91_returns` PCQ, `C91_command` PCQ, `AsapExample.C91_wrong_schedule` PCQ, `AsapExample.C91_components` PCQ.
* C92: `C92_kperiodic` PCQ, `C92_returns` PCQ, `C92_one_periodic` PCQ, `C92_with_solver` PCQ, `KScheduleExample.C92_negative_period` PCQ.
* C93: `Freq.C93_terminates` PCQ, `Freq.C93_sound` PCQ, `Freq.C93_front` PCQ, `Freq.C93_complete` PCQ, `Freq.C93_nothing` PCQ, `Freq.C93_diverges` PCQ, `C93_front_exact` PCQ, `C93_front_feasible` PCQ, `FrontExample.C93_dead` PCQ.
* C94: `C94_ends_iff` PCQ, `C94_executes` PCQ, `C94_bound` PCQ, `C94_returns` PCQ, `C94_live` PCQ, `UntimedExample.C94_deadlock` PQ, `UntimedExample.C94_csdf_counterexample` PCQ.
* C95: `C95_trace` PCQ, `C95_returns` PCQ, `C95_returns_default` PCQ, `UntimedExample.C95_missing_dependency` PQ, `UntimedExample.C95_default_size` PCQ.
* C96: `C96_sizes_partial` PCQ, `C96_no_tokens` PCQ, `C96_feasible` PCQ, `BackPressureExample.C96_tokens_ignored` PCQ, `BackPressureExample.C96_units` PCQ, `BackPressureExample.C96_csdf_counterexample` PCQ.
* C97: `C97_cycles` PCQ, `C97_valid` PCQ, `C97_no_loops` PCQ, `C97_rotation` PCQ, `CycleCountExample.C97_second_call` PQ, `CycleCountExample.C97_gap` PQ, `CycleCountExample.C97_loops` PQ.
* C98: `C98_cleaning` PCQ, `C98_same_throughput` PCQ.
* C99: `C99_dijkstra` PCQ, `C99_no_path` PCQ, `C99_limit` PCQ, `C99_mesh` PCQ, `C99_last_core` PCQ, `C99_least_contended` PCQ, `C99_length` PCQ, `C99_least_contended_mesh` PCQ, `NoCGraphExample.C99_not_least_contended` PCQ, `NoCGraphExample.C99_limit_out_of_bounds` PCQ, `NoCGraphExample.C99_not_square` PCQ.
* C100: `C100_never_pessimistic` PCQ, `C100_terminates` PCQ, `C100_schedule` PCQ, `C100_single_execution` PCQ, `C100_homogeneous` PCQ, `C100_self_timed` PCQ, `C100_remove` PCQ, `ReExample.C100_kiter_optimistic` PCQ.
* C101: `C101_schedules` PCQ, `C101_periods` PCQ, `C101_monotone` PCQ, `C101_same` PCQ, `C101_time` PCQ, `C101_token_unit` PCQ, `C101_useless_tokens` PCQ.
* C102: `C102_without_options` PCQ, `C102_any_options` PCQ, `C102_terminates` PCQ, `C102_returns` PCQ, `C102_stop_at_first_gives_up` PCQ, `BufferlessKExample.C102_get_previous_not_maximal` PCQ, `BufferlessKExample.C102_stop_at_first_misses` PCQ.
* C103: `LpB.C103_accepts` PCQ, `LpB.C103_generated` PCQ, `LpB.C103_program` PCQ, `LpB.C103_values` PCQ, `LpB.C103_continuous` PCQ, `LpB.C103_integers` PCQ, `LpB.C103_infeasible` PCQ, `LpB.C103_success` PQ, `LpB.C103_serves_once` PCQ, `LpB.C103_rowIsReach` PCQ, `LpB.Example.C103_unbounded_is_success` PCQ, `LpB.Example.C103_redeclared_column` PCQ, `LpB.Example.C103_small_coefficient` PCQ, `LpB.Example.C103_binary_bounds` PCQ, `LpB.Example.C103_getValue_of_integer` PCQ.
* C104: `C104_exact_methods_agree` PCQ, `C104_periodic_below_exact` PCQ, `C104_strict_below_periodic` PCQ, `C104_self_timed_agrees` PCQ, `C104_solvers_exist` PCQ.
* C105: `C105_components` PCQ, `C105_busiest_task` PCQ, `C105_feed_forward` PCQ, `C105_feed_forward_answers` PCQ, `C105_slowest_component` PCQ.
* C106: `C106_graph` PCQ, `C106_throughput` PCQ.
* C107: `C107_rebuild_partial` PCQ, `C107_no_return_counterexample` PQ, `C107_order_counterexample` PQ.
* C108: `C108_removed` PCQ, `C108_accepts` PCQ.
* C109: `C109_side` PCQ, `C109_flow` PCQ, `C109_modulo` PCQ.
* C110: `C110_no_overflow` PCQ, `C110_inconsistent` PCQ, `C110_agrees` PCQ, `C110_overflow_counterexample` PCQ, `C110_rate_counterexample` PCQ.
* C111: `C111_file_throughput` PCQ, `C111_answers` PCQ, `C111_own_solver` PCQ, `C111_saved_graph` PCQ, `C111_reentrant_partial` PCQ.
* C112: `C112_map_and_route` PCQ, `C112_no_abort` PCQ, `C112_mesh` PCQ, `C112_returns_partial` PCQ, `PlacementExample.C112_out_of_bounds` PCQ, `PlacementExample.C112_circuit_out_of_bounds` PCQ, `PlacementExample.C112_parallel` PCQ, `PlacementExample.C112_alone` PCQ, `PlacementExample.C112_self_loop` PCQ.
* C113: `C113_circuits` PCQ, `C113_order` PCQ, `C113_task_order` PCQ, `C113_task_order_iff` PCQ, `C113_command` PCQ, `C113_command_partial` PCQ, `TaskOrderExample.C113_out_of_bounds` PQ, `TaskOrderExample.C113_always_out_of_bounds` PQ, `TaskOrderExample.C113_self_loop` PQ, `TaskOrderExample.C113_phases` PCQ.
* C114: `C114_order` PCQ, `C114_pair_offset` PCQ, `C114_pair_iff` PCQ, `C114_one_execution` PCQ, `C114_graph_partial` PCQ, `ExpansionExample.C114_too_loose` PCQ, `ExpansionExample.C114_too_strict` PCQ.
* C115: `C115_gcd` PCQ, `C115_conflict_partial` PCQ, `C115_free_partial` PCQ, `C115_found` PCQ, `C115_defined` PCQ, `ConflictExample.C115_missed` PCQ, `ConflictExample.C115_false_alarm` PCQ, `ConflictExample.C115_division_by_zero` PCQ, `ConflictExample.C115_several_starts` PCQ.
* C116: `C116_sound` PCQ, `C116_together_partial` PCQ, `C116_same_link` P, `C116_defined` PCQ, `OverlapExample.C116_lost` PCQ.
* C117: `C117_components` PCQ, `C117_circuits` P.
* C118: `C118_chain` PCQ, `C118_chain_consistent` PCQ, `C118_one_sender` PCQ, `C118_sender_consistent_partial` PCQ, `C118_delivery` PCQ, `C118_parallel` PQ, `C118_self_loop` PQ, `C118_rate_lost` PQ.
* C119: `C119_floor_exact` PCQ, `C119_floor_double` PCQ, `C119_channel` PCQ, `C119_event_graph` PCQ, `C119_smaller` PCQ, `C119_overflow_counterexample` PCQ, `C119_rate_counterexample` PCQ.
* C120: `C120_arrival` PCQ, `C120_respects` PCQ, `C120_conservation` PCQ, `C120_printed` PCQ, `C120_command` PCQ, `C120_deadlock_never_reported` PCQ, `C120_throughput_counterexample` PCQ, `C120_late_counterexample` PCQ, `C120_fraction_counterexample` PCQ, `C120_components_counterexample` PCQ.
* C121: `C121_txt_partial` PCQ, `C121_xml_partial` P, `C121_xml_counterexample` PCQ, `C121_heading_counterexample` PQ.
* C122: `C122_same_search` PCQ, `C122_explorations_agree` PCQ.
* C123: `C123_accepted_partial` PCQ, `C123_exact_partial` PCQ, `C123_zero_counterexample` PCQ, `C123_overlap_counterexample` PCQ, `C123_phases_counterexample` PCQ, `C123_reentrancy_counterexample` PCQ, `C123_alone_counterexample` PCQ.
* C124: `C124_blocks` PCQ, `C124_rows` PCQ, `C124_grid_counterexample` PCQ.
* C125: `C125_given_sizes` PCQ, `C125_refusals` PCQ, `C125_garbage_counterexample` PCQ, `C125_overflow_counterexample` PCQ, `C125_ids_counterexample` PQ, `C125_ids_counterexample_command` PCQ.
* C126: `C126_blocks` PCQ, `C126_default` PCQ, `C126_names` PCQ, `C126_rows` PCQ, `C126_names_counterexample` PCQ, `C126_static_counterexample` PCQ, `C126_init_counterexample` PCQ, `C126_default_counterexample` PCQ, `C126_empty_counterexample` PCQ.
* C127: `C127_mesh` PCQ, `C127_links` PCQ, `C127_spread` PCQ, `C127_nodes` PCQ, `C127_free` PCQ, `C127_colours_counterexample` PQ, `C127_free_counterexample` PCQ, `C127_isolated_counterexample` PCQ.
* C128: `C128_xml` PCQ, `C128_xml_faithful` PCQ, `C128_xml_counterexample` PQ, `C128_tikz_nodes` PQ, `C128_tikz_letter` PCQ, `C128_tikz_labels` PCQ, `C128_tikz_label_counterexample` none, `C128_tikz_place_counterexample` P, `C128_tikz_edges` P, `C128_dot_nodes` PQ, `C128_dot_edges` PQ, `C128_dot_places` PCQ, `C128_dot_place_counterexample` P, `C128_dot_zero_counterexample` none, `C128_dot_thick_counterexample` PQ, `C128_dot_clusters` PQ, `C128_dot_lcg` PCQ.
* C129: `C129_infos` PCQ, `C129_isolated_counterexample` PCQ, `C129_duration_counterexample` PCQ, `C129_empty_counterexample` PCQ.
* C130: `C130_drawing` PCQ, `C130_faithful` PCQ, `C130_written` PCQ, `C130_locked` PCQ, `C130_name_counterexample` PCQ, `C130_empty_counterexample` PCQ.
* C131: `C131_all` PCQ, `C131_twice_counterexample` PCQ, `C131_rectangular_counterexample` PCQ.
* C132: `C132_file` PCQ, `C132_faithful` PCQ, `C132_front` PCQ, `C132_rounding_counterexample` PCQ.
* C133: `C133_no_blank_partial` PCQ, `C133_blank_counterexample` PCQ, `C133_other_lines` PCQ.
* C134: `C134_whole_partial` PCQ, `C134_rest_counterexample` PCQ, `C134_single_counterexample` PCQ, `C134_negative_counterexample` PCQ.
* C135: `C135_result` PCQ, `C135_events` PCQ, `C135_count_partial` PCQ, `C135_phases_counterexample` PCQ, `C135_exceeds_counterexample` PCQ, `C135_constraints_counterexample` PCQ, `C135_ninj_counterexample` PCQ.
* C136: `C136_merge_partial` PCQ, `C136_balance` PCQ, `C136_order_counterexample` PCQ, `C136_duration_counterexample` PCQ.
* C137: `C137_given_partial` PCQ, `C137_strict_partial` PCQ, `C137_default_counterexample` PCQ, `C137_no_solution_counterexample` PCQ, `C137_impossible_counterexample` PCQ, `C137_strict_impossible_counterexample` PCQ.
* C138: `C138_orphans_partial` PCQ, `C138_diverges_counterexample` PCQ.
* C139: `C139_hyperperiod_partial` PCQ, `C139_network_counterexample` PCQ.
* C140: `C140_chart_partial` PCQ, `C140_blank_counterexample` PCQ, `C140_marks_counterexample` PCQ.
* C141: `C141_channels` PCQ.
* C142: `C142_exclusion` PQ.
* C143: `C143_channels_partial` PCQ, `C143_inputs_counterexample` none.
* C144: `C144_acyclic_partial` PCQ, `C144_bounds_counterexample` PQ.
