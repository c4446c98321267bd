{"claims": [
{"property": "C01", "status": "proved", "theorems": ["Kiter.Frac.C01_make"], "note": "Exact arithmetic: machine overflow is not modelled."},
{"property": "C02", "status": "proved", "theorems": ["Kiter.Frac.C02_eq", "Kiter.Frac.C02_equivalence", "Kiter.Frac.C02_neg_denominator_counterexample"], "note": "for fractions built with positive denominators; the failure with a negative denominator that the statement names is the third theorem"},
{"property": "C03", "status": "proved", "theorems": ["Kiter.Frac.C03_order", "Kiter.Frac.C03_assert", "Kiter.Frac.C03_int"], "note": ""},
{"property": "C04", "status": "proved", "theorems": ["Kiter.Frac.C04_mul", "Kiter.Frac.C04_mulI", "Kiter.Frac.C04_div", "Kiter.Frac.C04_divI"], "note": ""},
{"property": "C05", "status": "partial", "theorems": ["Kiter.C05_extended_euclide_partial", "Kiter.C05_negative_counterexample", "Kiter.C05_modulo"], "note": "False for negative inputs (counterexample theorem); proved for non-negative a, b."},
{"property": "C06", "status": "proved", "theorems": ["Kiter.C06_expand", "Kiter.C06_blanks", "Kiter.C06_reject", "Kiter.C06_trailing_star_counterexample"], "note": "For every list of items, with any blanks around them, and every position of the ill-formed item. A star at the end of an item is not counted as a field (counterexample theorem)."},
{"property": "C07", "status": "proved", "theorems": ["Kiter.C07_first_wins", "Kiter.C07_later_ignored"], "note": "For every history of registrations."},
{"property": "C08", "status": "proved", "theorems": ["Kiter.C08_unique", "Kiter.C08_lookup", "Kiter.C08_add_vertex", "Kiter.C08_add_edge", "Kiter.C08_set_vertex_id"], "note": "every history of calls of the editing interface; positive direction: adding an element to a writable graph succeeds with a fresh id"},
{"property": "C09", "status": "proved", "theorems": ["Kiter.C09_current", "Kiter.C09_locked", "Kiter.C09_invalidated"], "note": "C09_current: the stored vector is the one the computation would return now; C09_locked: while it is available every edit is rejected; C09_invalidated: an edit leaves no vector available"},
{"property": "C10", "status": "partial", "theorems": ["Kiter.C10_set_in_partial", "Kiter.C10_set_out_partial", "Kiter.C10_length_checked", "Kiter.C10_totals_partial", "Kiter.C10_set_init", "Kiter.C10_lengths_partial", "Kiter.C10_overflow_counterexample", "Kiter.C10_phases_counterexample"], "note": "full statement false: totals are accumulated in a 32 bit int, and setPhasesQuantity does not check existing vectors; proved for sums that stay within 32 bits / histories without setPhasesQuantity"},
{"property": "C11", "status": "partial", "theorems": ["Kiter.C11_computed", "Kiter.C11_fresh_partial", "Kiter.C11_stale_counterexample", "Kiter.C11_reuse_counterexample"], "note": "false in general (cache never refreshed); proved for histories that do not edit rates after a read nor reuse a channel id"},
{"property": "C12", "status": "partial", "theorems": ["Kiter.C12_balance_partial", "Kiter.C12_cycles_partial", "Kiter.C12_isolated_counterexample"], "note": "Positive and balanced for every graph; multiple of the phase count for every task that has a channel (or one phase). For a multi-phase task without channel it is false (counterexample theorem)."},
{"property": "C13", "status": "partial", "theorems": ["Kiter.C13_minimal_partial", "Kiter.C13_isolated_counterexample"], "note": "For graphs whose multi-phase tasks all have a channel; false with an isolated multi-phase task (counterexample theorem)."},
{"property": "C14", "status": "proved", "theorems": ["Kiter.C14_consistent_iff"], "note": "Stronger than stated: total rates need not be positive, and termination without failure is included."},
{"property": "C15", "status": "partial", "theorems": ["Kiter.C15_C16_channel_iff", "Kiter.C15_C16_graph_iff", "Kiter.C15_init_channel_partial", "Kiter.C15_init_graph_partial", "Kiter.C15_reentrant_producer_counterexample", "Kiter.C15_reentrant_consumer_counterexample", "Kiter.C15_init_duration_counterexample", "Kiter.C15_init_granularity_counterexample"], "note": "Without initial phases: exact for tasks with a positive reentrancy factor, false for reentrant producers or consumers (counterexamples). With initial phases: proved when the first initial phase is not longer than the first periodic one and the granularity of the channel divides the initial rates; false without either condition (counterexamples)."},
{"property": "C16", "status": "partial", "theorems": ["Kiter.C15_C16_channel_iff", "Kiter.C15_C16_graph_iff", "Kiter.C16_init_counterexample"], "note": "Proved for all graphs without initial phases and with positive reentrancy factors. With initial phases the constraints exclude valid schedules (C16_init_counterexample)."},
{"property": "C17", "status": "proved", "theorems": ["Kiter.C17_builds_agree"], "note": ""},
{"property": "C18", "status": "partial", "theorems": ["Kiter.C18_selfloop_iff", "Kiter.C18_init_iff", "Kiter.C15_init_duration_counterexample"], "note": "Exact for every task without initial phases. For tasks with initial phases C18_init_iff gives the exact meaning of the constraints: the very first execution gets the duration of the first periodic phase instead of its own, so a longer first initial phase overlaps the next one (C15_init_duration_counterexample). All other executions do not overlap."},
{"property": "C19", "status": "proved", "theorems": ["Kiter.C19_update"], "note": ""},
{"property": "C20", "status": "proved", "theorems": ["Kiter.C20_terminates"], "note": ""},
{"property": "C21", "status": "proved", "theorems": ["Kiter.C21_starting_times", "Kiter.C21_infinite", "Kiter.C21_schedule_valid_iff"], "note": ""},
{"property": "C22", "status": "partial", "theorems": ["Kiter.C22_conservation_partial", "Kiter.C22_program_partial", "Kiter.C22_selfloop_counterexample"], "note": "For any order of starts, ends and time advances, bounded or unbounded buffers. Excluded: self-edges whose production and consumption rates differ, where the claim is false (counterexample theorem)."},
{"property": "C23", "status": "proved", "theorems": ["Kiter.C23_capacity", "Kiter.C23_space_determined"], "note": "Self-edges must produce what they consume per phase (see C22)."},
{"property": "C24", "status": "proved", "theorems": ["Kiter.C24_advance", "Kiter.C24_idle", "Kiter.C24_longmax_counterexample"], "note": "Remaining times below LONG_MAX; a longer execution is taken for a deadlock (counterexample theorem)."},
{"property": "C25", "status": "partial", "theorems": ["Kiter.C25_deadlock_real_partial", "Kiter.C25_selfloop_counterexample", "Kiter.C25_unguarded_diverges"], "note": "A reported deadlock is real for every graph without unequal self-edges (false there, counterexample) in which every actor has a channel that guards it (otherwise the start loop never ends, theorem)."},
{"property": "C26", "status": "proved", "theorems": ["Kiter.C26_long_run", "Kiter.C26_every_actor"], "note": "The execution is carried on forever by the same machine without the stop test."},
{"property": "C27", "status": "proved", "theorems": ["Kiter.C27_size_is_sum", "Kiter.C27_needs_update"], "note": "From a right start or after one update; a distribution constructed with a wrong size keeps it (C27_needs_update)."},
{"property": "C28", "status": "proved", "theorems": ["Kiter.C28_set_contents", "Kiter.C28_pmax", "Kiter.C28_duplicate_ignored"], "note": ""},
{"property": "C29", "status": "partial", "theorems": ["Kiter.C29_no_loss", "Kiter.C29_nondominated_partial", "Kiter.C29_late_small_point_counterexample"], "note": "Nothing useful is lost, for every set. Non-domination holds when the new point is of maximal size (the order in which the exploration inserts, see C54); it is false otherwise (counterexample)."},
{"property": "C30", "status": "proved", "theorems": ["Kiter.C30_unsat_exact"], "note": ""},
{"property": "C31", "status": "proved", "theorems": ["Kiter.C31_sat_exact", "Kiter.C31_not_antichain"], "note": ""},
{"property": "C32", "status": "proved", "theorems": ["Kiter.C32_knees_exact", "Kiter.C32_no_feasible_point_missed"], "note": ""},
{"property": "C33", "status": "proved", "theorems": ["Kiter.C33_makeMinimal_glb"], "note": ""},
{"property": "C34", "status": "proved", "theorems": ["Kiter.C34_step_is_gcd", "Kiter.C34_only_steps_matter", "Kiter.C34_single_rate_minimal", "Kiter.C34_multiphase_counterexample"], "note": "For several phases the computed size is not a lower bound (counterexample)."},
{"property": "C35", "status": "proved", "theorems": ["Kiter.C35_sequence", "Kiter.C35_time"], "note": ""},
{"property": "C36", "status": "proved", "theorems": ["Kiter.C36_slot_wait"], "note": "any cycle, any slot of the table"},
{"property": "C37", "status": "partial", "theorems": ["Kiter.C37_distance_partial", "Kiter.C37_metric", "Kiter.C37_rectangular_counterexample"], "note": "Shortest walk plus one on every square mesh; symmetric and triangle inequality on every mesh; false as a distance on rectangular meshes (counterexample)."},
{"property": "C38", "status": "proved", "theorems": ["Kiter.C38_nodes", "Kiter.C38_links", "Kiter.C38_unique"], "note": "all mesh sizes; int overflow for meshes of more than 23170 positions is outside the model"},
{"property": "C39", "status": "proved", "theorems": ["Kiter.C39_route", "Kiter.C39_shortest", "Kiter.C39_random_mapping", "Kiter.C39_modulo_counterexample"], "note": "tasks on cores, as the statement says; C39_modulo_counterexample: moduloMapping puts tasks on routers, where the routing is undefined"},
{"property": "C40", "status": "proved", "theorems": ["Kiter.C40_index", "Kiter.C40_table_counterexample"], "note": "C40_table_counterexample: the utilisation table is too short for these indices"},
{"property": "C41", "status": "partial", "theorems": ["Kiter.C41_chain", "Kiter.C41_kept", "Kiter.C41_single_phase", "Kiter.C41_tokens", "Kiter.C41_consistent_partial", "Kiter.C41_no_route_counterexample"], "note": "Chain, rates, tokens, token flow and consistency for every route length and every graph; false for a non-virtual channel without route whose production is not 1 (counterexample), and channels of tasks with several phases end in an error."},
{"property": "C42", "status": "proved", "theorems": ["Kiter.C42_terminates", "Kiter.C42_result"], "note": "Every graph reachable through the interface; the program may also end with an error (several phases, name in use), which counts as termination."},
{"property": "C43", "status": "proved", "theorems": ["Kiter.C43_exact", "Kiter.C43_valid"], "note": "termination, partition and exactness on every graph; C43_valid: every graph built through the interface meets the hypothesis"},
{"property": "C44", "status": "proved", "theorems": ["Kiter.C44_cycles", "Kiter.C44_self_edge"], "note": "exactly the cycles through at least two tasks; self edges are not seen"},
{"property": "C45", "status": "proved", "theorems": ["Kiter.C45_graph", "Kiter.C45_total", "Kiter.C45_accepted"], "note": "Draws are an arbitrary sequence of numbers; generation ends if no value is repeated for ever. The repetition vector exists for weights below 2^31 (totals are stored modulo 2^32, see C10)."},
{"property": "C46", "status": "proved", "theorems": ["Kiter.C46_round_trip", "Kiter.C46_multiplicities", "Kiter.C46_blank_drops", "Kiter.C46_blank_counterexample", "Kiter.C46_empty_counterexample", "Kiter.C46_malformed_counterexample"], "note": "For every pair of vectors of 64-bit values with a non-empty periodic vector; also reading n*v notation. Empty periodic vectors do not round-trip (counterexample theorem), ill-formed items are not rejected by this reader, and of rates written with blanks only the first word is read (counterexample theorems)."},
{"property": "C47", "status": "proved", "theorems": ["Kiter.C47_parameters", "Kiter.C47_generator", "Kiter.C47_help"], "note": "For every command line (every list of options without -h has the segmented form used in the statements: Cli.line_exists). getopt itself, the reading of the file and the bodies of the algorithms are parameters."},
{"property": "C48", "status": "proved", "theorems": ["Kiter.C48_indices", "Kiter.C48_total", "Kiter.C48_valid", "Kiter.C48_optimal", "Kiter.C48_agrees_with_kiter"], "note": "One-phase tasks executing one at a time (reentrancy 1), the case the generator fully constrains. Indices: each consumer execution gets one constraint from the least sufficient producer execution, distance never negative. Constraints hold iff the repeated schedule is valid; an exact maximum cycle ratio is the least sustainable period over all schedules and agrees with K-Iter. The cycle ratio solver itself is a parameter; long double rounding is exact arithmetic."},
{"property": "C49", "status": "proved", "theorems": ["Kiter.C49_total", "Kiter.C49_valid", "Kiter.C49_approximation_safe", "Kiter.C49_optimal", "Kiter.C49_approximation_above", "Kiter.C49_never_beats_optimum"], "note": "Multi-phase tasks without initial phases. Constraints of the exact analysis hold iff the infinite strictly periodic schedule is valid; the approximate analysis implies it; an exact minimum cycle ratio is the inverse of the least strictly periodic period, and this period is sustainable, hence never below the K-Iter optimum. The cycle ratio solver is a parameter."},
{"property": "C50", "status": "proved", "theorems": ["Kiter.C50_period2scheduling"], "note": "No initial phases."},
{"property": "C51", "status": "partial", "theorems": ["Kiter.C51_groups_partial", "Kiter.C51_no_join_partial", "Kiter.C51_lost_value_counterexample"], "note": "The groups are exactly the connected components, no freed memory is read, and the contents are exact; the values of calls that join two existing groups are lost, which the counterexample shows, so 'no value is lost' holds only for histories without such calls."},
{"property": "C52", "status": "proved", "theorems": ["Kiter.C52_kiter_verdict", "Kiter.C52_kiter_with_solver", "Kiter.C52_kiter_optimal"], "note": "First for any solver that answers exactly on event graphs, then for the modelled solver of C65 (rational arithmetic, durations positive, precision fine enough for the numbers of the graph). Both signs: a non-positive answer means that no valid schedule exists. Graphs without initial phases and with non-reentrant tasks."},
{"property": "C53", "status": "proved", "theorems": ["Kiter.C53_incremental_update"], "note": "Graphs without initial phases; isolated duplicate event vertices are not represented."},
{"property": "C54", "status": "proved", "theorems": ["Kiter.C54_pareto_complete", "Kiter.C54_front_to_the_end"], "note": "The throughput analysis is a parameter; its completeness of critical channels is a hypothesis."},
{"property": "C55", "status": "proved", "theorems": ["Kiter.C55_terminates", "Kiter.C55_explores_once_in_order"], "note": "Same hypotheses as C54."},
{"property": "C56", "status": "partial", "theorems": ["Kiter.C56_durations", "Kiter.C56_total_floor", "Kiter.C56_total_partial", "Kiter.C56_fraction_counterexample"], "note": "total duration is accumulated in an int: exact for integer durations that fit, rounded down per phase otherwise"},
{"property": "C57", "status": "proved", "theorems": ["Kiter.C57_random_route"], "note": "any sequence of draws"},
{"property": "C58", "status": "proved", "theorems": ["Kiter.C58_packet_dates", "Kiter.C58_exclusive", "Kiter.C58_no_idle"], "note": "Invariant of the event loop. Inputs: non-negative durations, dependencies naming packets of the list, slots within the table length."},
{"property": "C59", "status": "proved", "theorems": ["Kiter.C59_terminates", "Kiter.C59_cyclic_never_ends"], "note": "The converse is stated for packets with positive durations."},
{"property": "C60", "status": "proved", "theorems": ["Kiter.C60_integer_durations"], "note": "Integer durations only: the decimal text of other floating point durations is not modelled."},
{"property": "C61", "status": "proved", "theorems": ["Kiter.C61_order", "Kiter.C61_terminates"], "note": ""},
{"property": "C62", "status": "partial", "theorems": ["Kiter.C62_exact_rates", "Kiter.C62_balance_partial", "Kiter.C62_balance_single_phase", "Kiter.C62_durations", "Kiter.C62_phases_counterexample", "Kiter.C62_no_period_counterexample"], "note": "Rates and durations are exact over the first period; consistency is proved for tasks of one phase, and for others when the chosen period contains whole iterations of their phases. It fails in general, and the merge can stop with a failed assertion: the counterexample theorems."},
{"property": "C63", "status": "partial", "theorems": ["Kiter.C63_balance_partial", "Kiter.C63_lost_counterexample"], "note": "Holds when the outputs have equal totals; in general rates and initial tokens are lost (counterexample)."},
{"property": "C64", "status": "partial", "theorems": ["Kiter.C64_marking", "Kiter.C64_terminates_partial", "Kiter.C64_live_partial", "Kiter.C64_generates"], "note": "C64_marking and C64_terminates_partial hold for any analysis. C64_live_partial uses the K-periodic analysis itself, with a cycle ratio solver that answers correctly and any choice among the critical channels: the loop ends and the returned graph has a valid infinite schedule and a best period. C64_generates: the default kind of configuration (one phase, no initial phases) needs no further hypothesis. Missing: tasks with initial phases, and multi-phase tasks without any channel."},
{"property": "C65", "status": "partial", "theorems": ["Kiter.Howard.C65_terminates", "Kiter.Howard.C65_circuit", "Kiter.Howard.C65_tolerance", "Kiter.Howard.C65_exact", "Kiter.Howard.C65_infinity", "Kiter.C65_event_graphs", "Kiter.Howard.Example.C65_single_loop", "Kiter.Howard.Example.C65_iteration_limit", "Kiter.Howard.Example.C65_low_bound"], "note": "Rational arithmetic with the epsilon of the code; rounding of long double is not modelled. The property fails in two cases, shown by counterexamples: the 100 iteration limit returns a non-optimal value, and a graph with a single loop gets infinity. Everything else is proved."},
{"property": "C66", "status": "proved", "theorems": ["Kiter.C66_durations", "Kiter.C66_earliest", "Kiter.C66_earliest_positive", "Kiter.C66_self_timed_valid", "Kiter.C66_zero_duration_counterexample"], "note": "executions last their duration; the run starts every execution no later than any causal valid schedule (any valid schedule when durations are positive) and is itself one; the counterexample shows why causality is required with zero durations"},
{"property": "C67", "status": "proved", "theorems": ["Kiter.C67_upper_bound", "Kiter.C67_optimal", "Kiter.C67_deadlock", "Kiter.C67_engines_agree"], "note": "reported throughput is the maximum over all causal valid schedules, deadlock means no schedule; equality with K-Iter and its own solver on graphs with positive durations"},
{"property": "C68", "status": "proved", "theorems": ["Kiter.C68_terminates", "Kiter.C68_time_passes", "Kiter.C68_decides"], "note": "termination on every balanced graph where actors can only run ahead by a bounded amount (strongly connected, or connected with bounded buffers); no division by zero when durations are positive; the returned value decides the throughput"},
{"property": "C69", "status": "proved", "theorems": ["Kiter.C69_whole_graph", "Kiter.C69_fractional_counterexample", "Kiter.C69_single_task_diverges"], "note": "Whole pipeline: repetition vector, components, one self-timed execution per component, scaling and minimum. With fractional durations the claim is false (counterexample); a single task without channel makes the program loop forever."},
{"property": "C70", "status": "proved", "theorems": ["Kiter.C70_pareto_front", "Kiter.C70_defined"], "note": "Composes the exploration loop (C54, C55), the step and start sizes (C34), the K-Iter analysis on the graph with feedback channels (C52) and the critical channels. The cycle ratio solver is a hypothesis (SolverOK, SolverTotal); exhaustive search satisfies both (exhaustive_ok), Howard's solver satisfies the first under C65. Starting capacities below INT_MAX and channel ids at most the number of channels are assumed. The options THR, COARSE, B_M_OPT, SYMB_EXEC are not modelled, nor the replacement of a final distribution of throughput 0 by zeros."},
{"property": "C71", "status": "proved", "theorems": ["Kiter.C71_monotone"], "note": ""},
{"property": "C72", "status": "proved", "theorems": ["Kiter.C72_all_capacities"], "note": ""},
{"property": "C73", "status": "proved", "theorems": ["Kiter.C73_sizes_suffice", "Kiter.C73_throughput"], "note": ""},
{"property": "C74", "status": "proved", "theorems": ["Kiter.C74_feasible_iff"], "note": ""},
{"property": "C75", "status": "proved", "theorems": ["Kiter.C75_least_memory", "Kiter.C75_relaxed_lower_bound"], "note": ""},
{"property": "C76", "status": "partial", "theorems": ["Kiter.C76_valid_partial", "Kiter.C76_violated"], "note": "The code violates the property: for an impossible period it returns a valid result of size 0 (return 0 converts to a valid result). Proved: a valid result with a non-zero size means that the period is possible; counterexample C76_violated."},
{"property": "C77", "status": "proved", "theorems": ["Kiter.C77_sizes_suffice", "Kiter.C77_feasible_iff", "Kiter.C77_least_memory"], "note": "Solver is a parameter; offsets without overlap are the hypothesis of the property."},
{"property": "C78", "status": "proved", "theorems": ["Kiter.C78_offsets_fit", "Kiter.C78_no_offsets", "Kiter.C78_strict_offsets", "Kiter.C78_strict_sizing"], "note": "The min-max solver is a parameter assumed correct; existence shown."},
{"property": "C79", "status": "proved", "theorems": ["Kiter.C79_fixed_sizing"], "note": "For ilp and relaxed programs, all four policies."},
{"property": "C80", "status": "proved", "theorems": ["Kiter.C80_virtual_buffers"], "note": "For feasible periods; for infeasible ones see Findings."},
{"property": "C81", "status": "partial", "theorems": ["Kiter.C81_valid_partial", "Kiter.C81_violated"], "note": "The code violates the property: the duration of the only phase of a task is not compared with its period. Proved under the assumption that such tasks fit."},
{"property": "C82", "status": "proved", "theorems": ["Kiter.C82_fixed_vector", "Kiter.C82_parameters", "Kiter.C82_monotone", "Kiter.C82_nperiodic_optimal", "Kiter.C82_against_kiter", "Kiter.C82_with_solver"], "note": "For every positive vector, and for the vector that the parameters of the command give. The cycle ratio solver is assumed to answer correctly (SolvesFor), which C82_with_solver discharges for the modelled Howard solver on graphs with positive durations and a fine enough precision. Without initial phases."},
{"property": "C83", "status": "partial", "theorems": ["Kiter.C83_rows_iff_valid", "Kiter.C83_lp_optimal", "Kiter.C83_lp_agrees", "Kiter.C83_lpn_optimal", "Kiter.C83_real_optimal", "Kiter.C83_real_agrees", "Kiter.C83_schedule_partial", "Kiter.C83_collected_counterexample"], "note": "Periods: proved in full for LP1, LPN and REALLP1, against a correct LP solver (hypothesis SSolves). Returned schedule: false for tasks with several phases (C83_collected_counterexample, for every optimal solution); proved for graphs with single-phase tasks."},
{"property": "C84", "status": "partial", "theorems": ["Kiter.C84_sound", "Kiter.C84_decides", "Kiter.C84_no_channel", "Kiter.C84_isolated_fails", "Kiter.C84_minimal", "Kiter.C84_repetition", "Kiter.C84_components_counterexample"], "note": "Proved for every graph with positive rate totals; minimality is proved for connected graphs and refuted by a witness for graphs with several components. A consistent graph with channels and an isolated task fails an assertion instead of being normalized (proved for all of them)."},
{"property": "C85", "status": "partial", "theorems": ["Kiter.C85_reads", "Kiter.C85_round_trip", "Kiter.C85_stable", "Kiter.C85_valid", "Kiter.C85_reentrancy_counterexample", "Kiter.C85_loop_counterexample", "Kiter.C85_empty_name_counterexample"], "note": "C85_reads gives the loaded graph exactly for every well-formed graph, and C85_round_trip proves the property for graphs whose reentrancy factors are 0 or 1 and that have no self-loop of one token with rates 1. The format of the tool cannot hold the rest: counterexamples show a factor of 2 loaded as 1 and a user's self-loop loaded as no channel. The XML library itself is not modelled (a document is a tree)."},
{"property": "C86", "status": "proved", "theorems": ["Kiter.C86_cycles", "Kiter.C86_returns", "Kiter.C86_deadlock", "Kiter.C86_periodic", "Kiter.C86_default_counterexample"], "note": "For the option SYMB_EXEC_CORRECTED. The default detection (SYMB_EXEC_ORIGINAL, enumeration of cycles) does not have the property: C86_default_counterexample."},
{"property": "C87", "status": "proved", "theorems": ["Kiter.C87_pareto_front", "Kiter.C87_all_sizes", "Kiter.C87_returns", "Kiter.C87_defined", "Kiter.C87_default_counterexample"], "note": "For the option SYMB_EXEC_CORRECTED, without THR, COARSE and B_M_OPT. With the default detection the exploration misses points of the front: C87_default_counterexample."},
{"property": "C88", "status": "partial", "theorems": ["Kiter.C88_front", "Kiter.C88_undefined_at_the_target", "Kiter.C88_smaller_partial", "Kiter.C88_kperiodic_front", "Kiter.C88_kperiodic_undefined", "Kiter.KneeExample.C88_undefined_example", "Kiter.KneeExample.C88_smallest_lost", "Kiter.KneeExample.C88_front_lost", "Kiter.KneeExample.C88_larger_steps"], "note": "Default mode (feedback edges only): proved that whatever is returned is the Pareto front, for the K-periodic analysis over all schedules of the graph; but if the initial distribution already reaches the target the program reads an empty set (proved). When all edges are considered (parameter SYMB_EXEC) with steps 1: everything that reaches the target and is smaller than the search's own best point is matched; the full claim is false there (three counterexamples: the smallest distribution lost, the front below the target lost, larger steps miss the smallest)."},
{"property": "C89", "status": "partial", "theorems": ["Kiter.C89_schedule", "Kiter.C89_no_schedule", "Kiter.C89_critical_partial", "Kiter.C89_with_solver", "Kiter.C65_fine_exists", "Kiter.SPExample.C89_negative_period", "Kiter.SPExample.C89_no_schedule_example", "Kiter.SPExample.C89_wrong_channel"], "note": "Validity, least period and earliest starts are proved in full. Two parts of the claim are false of the code: a channel whose id equals the id of a task limited by its own executions is reported critical (C89_wrong_channel), and when no strictly periodic schedule exists one with a negative period is returned (C89_negative_period)."},
{"property": "C90", "status": "partial", "theorems": ["Kiter.Chart.C90_chart", "Kiter.Chart.C90_strict", "Kiter.Chart.C90_drift", "Kiter.Chart.C90_zero_duration"], "note": "Proved for integral times. For a fractional period the chart drifts (C90_drift), and a phase of duration 0 makes the chart undefined (C90_zero_duration)."},
{"property": "C91", "status": "partial", "theorems": ["Kiter.C91_starts", "Kiter.C91_cut", "Kiter.C91_exact_partial", "Kiter.C91_valid_partial", "Kiter.C91_returns", "Kiter.C91_command", "Kiter.AsapExample.C91_wrong_schedule", "Kiter.AsapExample.C91_components"], "note": "Proved: the command returns, its throughput is that of the self-timed execution, every start listed is the self-timed start, where the list is cut, and how the entries of the components are put together. The expansion of the printed schedule is proved valid and earliest when the periodic part repeats after K iterations; in general it is not valid, because the periodic part has one segment too many (C91_wrong_schedule: K+1 iterations of the reference actor instead of K), and for several components the channels between them are ignored (C91_components)."},
{"property": "C92", "status": "partial", "theorems": ["Kiter.C92_kperiodic", "Kiter.C92_returns", "Kiter.C92_one_periodic", "Kiter.C92_with_solver", "Kiter.KScheduleExample.C92_negative_period"], "note": "Proved in full for the K-periodic command (an empty schedule when none exists) and, when a 1-periodic schedule exists, for the 1-periodic command. When none exists the 1-periodic command returns one with a negative period (C92_negative_period)."},
{"property": "C93", "status": "proved", "theorems": ["Kiter.Freq.C93_terminates", "Kiter.Freq.C93_sound", "Kiter.Freq.C93_front", "Kiter.Freq.C93_complete", "Kiter.Freq.C93_nothing", "Kiter.Freq.C93_diverges", "Kiter.C93_front_exact", "Kiter.C93_front_feasible", "Kiter.FrontExample.C93_dead"], "note": "Completeness and the front: for integer sizing with positive durations. Soundness and termination: for every sizing function. For a throughput of 0 the loop never ends (C93_dead, a finding)."},
{"property": "C94", "status": "partial", "theorems": ["Kiter.C94_ends_iff", "Kiter.C94_executes", "Kiter.C94_bound", "Kiter.C94_returns", "Kiter.C94_live", "Kiter.UntimedExample.C94_deadlock", "Kiter.UntimedExample.C94_csdf_counterexample"], "note": "Proved: the command ends exactly when a complete iteration can be executed, with success, within as many turns as executions; for tasks with one phase and positive durations this is exactly when the graph is live. It reports no failure: on a deadlocked graph it never ends (C94_deadlock), and neither does it on some live graphs with several phases (C94_csdf_counterexample)."},
{"property": "C95", "status": "partial", "theorems": ["Kiter.C95_trace", "Kiter.C95_returns", "Kiter.C95_returns_default", "Kiter.UntimedExample.C95_missing_dependency", "Kiter.UntimedExample.C95_default_size"], "note": "Proved: shape, numbering, and all the waits except for packets sent by earlier executions of a producer than its last, for which it is false (C95_missing_dependency); the command ends when the size divides the rates, and only then; without a size it may not end on a live graph (C95_default_size)."},
{"property": "C96", "status": "partial", "theorems": ["Kiter.C96_sizes_partial", "Kiter.C96_no_tokens", "Kiter.C96_feasible", "Kiter.BackPressureExample.C96_tokens_ignored", "Kiter.BackPressureExample.C96_units", "Kiter.BackPressureExample.C96_csdf_counterexample"], "note": "Proved for tasks with one phase: without initial tokens the sizes suffice, and the linear program has a solution for every graph without circuits; with tokens, the sizes suffice once the tokens are added, on channels that carry at most a token per unit of time. False otherwise: the tokens are not counted in the sizes (C96_tokens_ignored), they are subtracted from a duration (C96_units), and the sizes of channels of tasks with several phases can be too small, without tokens and for the least solution (C96_csdf_counterexample)."},
{"property": "C97", "status": "partial", "theorems": ["Kiter.C97_cycles", "Kiter.C97_valid", "Kiter.C97_no_loops", "Kiter.C97_rotation", "Kiter.CycleCountExample.C97_second_call", "Kiter.CycleCountExample.C97_gap", "Kiter.CycleCountExample.C97_loops"], "note": "Proved for graphs whose ids are at most the number of tasks, for cycles of two channels or more and the first call: every cycle exactly once. False otherwise: cycles of one channel are printed only for the least task of a longer cycle (C97_loops, exact condition in C97_cycles), cycles are missed when ids exceed the number of tasks (C97_gap), and a second call prints the cycles of the first one again (C97_second_call)."},
{"property": "C98", "status": "proved", "theorems": ["Kiter.C98_cleaning", "Kiter.C98_same_throughput"], "note": "C98_cleaning for any constraints and events; C98_same_throughput on the graphs of C48. The cycle ratio solver is a parameter."},
{"property": "C99", "status": "partial", "theorems": ["Kiter.C99_dijkstra", "Kiter.C99_no_path", "Kiter.C99_limit", "Kiter.C99_mesh", "Kiter.C99_last_core", "Kiter.C99_least_contended", "Kiter.C99_length", "Kiter.C99_least_contended_mesh", "Kiter.NoCGraphExample.C99_not_least_contended", "Kiter.NoCGraphExample.C99_limit_out_of_bounds", "Kiter.NoCGraphExample.C99_not_square"], "note": "Proved for any network and for all meshes, except from the last core, where the utilisation table is read beyond its end (C99_last_core). findLowContentionPath is proved where the table is large enough; the table the code allocates is not (C99_limit_out_of_bounds). getPath on square meshes only (C99_not_square)."},
{"property": "C100", "status": "partial", "theorems": ["Kiter.C100_never_pessimistic", "Kiter.C100_terminates", "Kiter.C100_schedule", "Kiter.C100_single_execution", "Kiter.C100_homogeneous", "Kiter.C100_self_timed", "Kiter.C100_remove", "Kiter.ReExample.C100_kiter_optimistic"], "note": "Proved: the reported throughput is an upper bound, deadlocks are real, the loop ends, and it is exact with one execution per period. False in general: with a reentrant task of several executions per period the reported throughput can be unreachable (C100_kiter_optimistic). Reentrant tasks with phases of different durations are outside the hypotheses."},
{"property": "C101", "status": "proved", "theorems": ["Kiter.C101_schedules", "Kiter.C101_periods", "Kiter.C101_monotone", "Kiter.C101_same", "Kiter.C101_time", "Kiter.C101_token_unit", "Kiter.C101_useless_tokens"], "note": "For all graphs meeting BaseOK (consistent, without initial phases, non-reentrant tasks) and any solvers that answer the cycle ratio problem of the event graphs met (Howard's does, C65/C52)."},
{"property": "C102", "status": "partial", "theorems": ["Kiter.C102_without_options", "Kiter.C102_any_options", "Kiter.C102_terminates", "Kiter.C102_returns", "Kiter.C102_stop_at_first_gives_up", "Kiter.BufferlessKExample.C102_get_previous_not_maximal", "Kiter.BufferlessKExample.C102_stop_at_first_misses"], "note": "Validity for all options and optimality without options are proved for graphs meeting BaseOK and solvers that answer the cycle ratio problem. Optimality and the deadlock verdict fail with the options: get_previous prints a throughput below the maximum, stop_at_first prints a throughput that is not positive for live graphs without 1-periodic schedule."},
{"property": "C103", "status": "partial", "theorems": ["Kiter.LpB.C103_accepts", "Kiter.LpB.C103_generated", "Kiter.LpB.C103_program", "Kiter.LpB.C103_values", "Kiter.LpB.C103_continuous", "Kiter.LpB.C103_integers", "Kiter.LpB.C103_infeasible", "Kiter.LpB.C103_success", "Kiter.LpB.C103_serves_once", "Kiter.LpB.C103_rowIsReach", "Kiter.LpB.Example.C103_unbounded_is_success", "Kiter.LpB.Example.C103_redeclared_column", "Kiter.LpB.Example.C103_small_coefficient", "Kiter.LpB.Example.C103_binary_bounds", "Kiter.LpB.Example.C103_getValue_of_integer"], "note": "Proved for descriptions that declare a column once, have no coefficient below the precision, and bound binary columns by 0 and 1 (Plain). Outside it the code drops what the caller wrote (counterexamples). GLPK itself is abstract: GlpkCorrect states its contract. CPLEX, Gurobi and COIN variants are not modelled."},
{"property": "C104", "status": "proved", "theorems": ["Kiter.C104_exact_methods_agree", "Kiter.C104_periodic_below_exact", "Kiter.C104_strict_below_periodic", "Kiter.C104_self_timed_agrees", "Kiter.C104_solvers_exist"], "note": "Consistent graphs with positive durations, no initial phases, no reentrancy (BaseOK). The deGroote commands for graphs with one phase per task (SdfOK). The cycle-ratio and LP solvers are assumed correct (Solvers); C104_solvers_exist shows that such solvers exist for every such graph. LPN and REALLP1 print period 0 when there is no schedule: the statement is about positive periods."},
{"property": "C105", "status": "proved", "theorems": ["Kiter.C105_components", "Kiter.C105_busiest_task", "Kiter.C105_feed_forward", "Kiter.C105_feed_forward_answers", "Kiter.C105_slowest_component"], "note": "BaseOK graphs (no initial phases, no reentrancy); C105_slowest_component and C105_feed_forward_answers for positive durations and correct solvers (which exist, C104_solvers_exist). Components are given by a rank that no channel lowers; strongly connected components are a case. Strictly periodic commands are not covered by the feed-forward statement: their periods can be longer."},
{"property": "C106", "status": "proved", "theorems": ["Kiter.C106_graph", "Kiter.C106_throughput"], "note": "The text of a parameter is taken as an integer (fromString is outside the model). Ids as given by addVertex and addEdge on a new graph. With cwac or ifft 0 or negative the graph falls apart and the statement does not apply."},
{"property": "C107", "status": "partial", "theorems": ["Kiter.C107_rebuild_partial", "Kiter.C107_no_return_counterexample", "Kiter.C107_order_counterexample"], "note": "The statements rebuild the graph (C107_rebuild_partial, for tasks in the order of their ids). The code violates the rest: no printed function has a return statement, and for tasks not in the order of their ids the printed addVertex(id) fails. The text is modelled as a list of statements: printing of durations with six digits and unescaped quotes in names are outside; reentrancy factors are not part of the modelled tasks."},
{"property": "C108", "status": "proved", "theorems": ["Kiter.C108_removed", "Kiter.C108_accepts"], "note": "Lists as produced by split and fromString; names not empty (an empty name would pick the first unnamed task)."},
{"property": "C109", "status": "proved", "theorems": ["Kiter.C109_side", "Kiter.C109_flow", "Kiter.C109_modulo"], "note": "The floating point square root is taken as exact. Routes when two tasks share a core have two links (C39_route); the shortest-route part is for different cores."},
{"property": "C110", "status": "proved", "theorems": ["Kiter.C110_no_overflow", "Kiter.C110_inconsistent", "Kiter.C110_agrees", "Kiter.C110_overflow_counterexample", "Kiter.C110_rate_counterexample"], "note": "the bounds are sufficient, not necessary; two counterexamples show that bounds are needed"},
{"property": "C111", "status": "proved", "theorems": ["Kiter.C111_file_throughput", "Kiter.C111_answers", "Kiter.C111_own_solver", "Kiter.C111_saved_graph", "Kiter.C111_reentrant_partial"], "note": "for graphs without initial phases; with an assumed correct solver and with the program's own (C111_own_solver, precision fine enough for the numbers of the file); for reentrant tasks (the default of the reader) only the bound of C100 holds, exactness fails (C100_kiter_optimistic)"},
{"property": "C112", "status": "partial", "theorems": ["Kiter.C112_map_and_route", "Kiter.C112_no_abort", "Kiter.C112_mesh", "Kiter.C112_returns_partial", "Kiter.PlacementExample.C112_out_of_bounds", "Kiter.PlacementExample.C112_circuit_out_of_bounds", "Kiter.PlacementExample.C112_parallel", "Kiter.PlacementExample.C112_alone", "Kiter.PlacementExample.C112_self_loop"], "note": "the result is right whenever there is one; that there is one fails in the code: the table of utilisations is read beyond its end (a chain of four tasks, any circuit of two), several edges between two tasks use up the cores, tasks without channel or with a self-loop are left unmapped. With a larger table it is proved for graphs without these"},
{"property": "C113", "status": "partial", "theorems": ["Kiter.C113_circuits", "Kiter.C113_order", "Kiter.C113_task_order", "Kiter.C113_task_order_iff", "Kiter.C113_command", "Kiter.C113_command_partial", "Kiter.TaskOrderExample.C113_out_of_bounds", "Kiter.TaskOrderExample.C113_always_out_of_bounds", "Kiter.TaskOrderExample.C113_self_loop", "Kiter.TaskOrderExample.C113_phases"], "note": "the order and what is set aside are proved for all graphs without self-loop, and the result of the command whenever there is one. That it completes needs larger tables than those of the code (the vector of marks is always one too short for ids that start at 1), one phase per task (the loop does not end on live graphs with phases), no self-loops and no parallel channels"},
{"property": "C114", "status": "partial", "theorems": ["Kiter.C114_order", "Kiter.C114_pair_offset", "Kiter.C114_pair_iff", "Kiter.C114_one_execution", "Kiter.C114_graph_partial", "Kiter.ExpansionExample.C114_too_loose", "Kiter.ExpansionExample.C114_too_strict"], "note": "The constraints inside a task are exact for every number of executions (C114_order). For channels: the exact offset of every pair of executions (C114_pair_offset), and the generated constraint is exact iff adding and subtracting the shift give the same offset (C114_pair_iff); with one execution per task iff both rates are equal (C114_one_execution). The whole command is proved for equal rates and one execution per task (C114_graph_partial); elsewhere the claim is false (two counterexamples). Missing: nothing that is true of the code beyond these cases is claimed."},
{"property": "C115", "status": "partial", "theorems": ["Kiter.C115_gcd", "Kiter.C115_conflict_partial", "Kiter.C115_free_partial", "Kiter.C115_found", "Kiter.C115_defined", "Kiter.ConflictExample.C115_missed", "Kiter.ConflictExample.C115_false_alarm", "Kiter.ConflictExample.C115_division_by_zero", "Kiter.ConflictExample.C115_several_starts"], "note": "Proved for whole start dates and a whole period, for every number of executions after which the schedules repeat. For other dates the claim is false of the code (C115_missed, C115_division_by_zero). The merging of tasks between two searches is not modelled."},
{"property": "C116", "status": "partial", "theorems": ["Kiter.C116_sound", "Kiter.C116_together_partial", "Kiter.C116_same_link", "Kiter.C116_defined", "Kiter.OverlapExample.C116_lost"], "note": "Soundness of the bags and absence of failures are proved in full. That competing transfers share a bag is proved unless one of them ties two groups when it comes; that one is lost by the code (C116_lost)."},
{"property": "C117", "status": "proved", "theorems": ["Kiter.C117_components", "Kiter.C117_circuits"], "note": "For every event graph whose edges join its vertices. The counter that bounds the recursion of the model is never exhausted."},
{"property": "C118", "status": "partial", "theorems": ["Kiter.C118_chain", "Kiter.C118_chain_consistent", "Kiter.C118_one_sender", "Kiter.C118_sender_consistent_partial", "Kiter.C118_delivery", "Kiter.C118_parallel", "Kiter.C118_self_loop", "Kiter.C118_rate_lost"], "note": "The chain of every route and the sender for every number of outputs and all rates that are not negative. Missing, because the code fails there: parallel channels, channels from a task to itself, and destinations reached by one link with a consumption rate other than 1."},
{"property": "C119", "status": "proved", "theorems": ["Kiter.C119_floor_exact", "Kiter.C119_floor_double", "Kiter.C119_channel", "Kiter.C119_event_graph", "Kiter.C119_smaller", "Kiter.C119_overflow_counterexample", "Kiter.C119_rate_counterexample"], "note": "The bounds are sufficient, not necessary; two counterexamples show that bounds are needed. Durations and weights remain exact rationals."},
{"property": "C120", "status": "partial", "theorems": ["Kiter.C120_arrival", "Kiter.C120_respects", "Kiter.C120_conservation", "Kiter.C120_printed", "Kiter.C120_command", "Kiter.C120_deadlock_never_reported", "Kiter.C120_throughput_counterexample", "Kiter.C120_late_counterexample", "Kiter.C120_fraction_counterexample", "Kiter.C120_components_counterexample"], "note": "The dates are right inside each strongly connected component, for the whole command (arrival, respects, conservation, printed, command); the channels between components, the reported throughput and the report of deadlocks are not, with witnesses."},
{"property": "C121", "status": "partial", "theorems": ["Kiter.C121_txt_partial", "Kiter.C121_xml_partial", "Kiter.C121_xml_counterexample", "Kiter.C121_heading_counterexample"], "note": "Slots are right for both kinds; the length of the frame is right for text tables and one too many for XML tables. The parsing of the files is not modelled."},
{"property": "C122", "status": "proved", "theorems": ["Kiter.C122_same_search", "Kiter.C122_explorations_agree"], "note": "For consistent connected graphs with positive integer durations, with a throughput above the tolerance, a correct cycle ratio solver and without the options THR, COARSE and B_M_OPT."},
{"property": "C123", "status": "partial", "theorems": ["Kiter.C123_accepted_partial", "Kiter.C123_exact_partial", "Kiter.C123_zero_counterexample", "Kiter.C123_overlap_counterexample", "Kiter.C123_phases_counterexample", "Kiter.C123_reentrancy_counterexample", "Kiter.C123_alone_counterexample"], "note": "Exact (accepts the valid schedules and only them, and returns) for one phase per task, positive durations, executions that do not overlap, one task alone at date 0, two tasks that never start together, at least as many channels as tasks and no reentrancy factor 0; the code is wrong without these, with witnesses."},
{"property": "C124", "status": "partial", "theorems": ["Kiter.C124_blocks", "Kiter.C124_rows", "Kiter.C124_grid_counterexample"], "note": "The blocks, the rows and their order are proved for every covered graph and throughput. The claim about the grid is false for every graph with a task: the first task to start is drawn above the grid, the last row is empty and the width of the grid is 0. Graphs with initial phases are not covered."},
{"property": "C125", "status": "partial", "theorems": ["Kiter.C125_given_sizes", "Kiter.C125_refusals", "Kiter.C125_garbage_counterexample", "Kiter.C125_overflow_counterexample", "Kiter.C125_ids_counterexample", "Kiter.C125_ids_counterexample_command"], "note": "Proved for sizes written as numbers and ids 1..n, with SYMB_EXEC_CORRECTED, on the graphs of C87. False otherwise: an entry such as 2x is taken for 2, a number that does not fit in a long ends the program with an uncaught exception, and channels with ids beyond the number of channels get the size 0."},
{"property": "C126", "status": "partial", "theorems": ["Kiter.C126_blocks", "Kiter.C126_default", "Kiter.C126_names", "Kiter.C126_rows", "Kiter.C126_names_counterexample", "Kiter.C126_static_counterexample", "Kiter.C126_init_counterexample", "Kiter.C126_default_counterexample", "Kiter.C126_empty_counterexample"], "note": "Proved for tasks without initial phases whose starts cover whole cycles of phases, with names of which none is another followed by digits, and one vertical scale. False otherwise: see the counterexamples."},
{"property": "C127", "status": "partial", "theorems": ["Kiter.C127_mesh", "Kiter.C127_links", "Kiter.C127_spread", "Kiter.C127_nodes", "Kiter.C127_free", "Kiter.C127_colours_counterexample", "Kiter.C127_free_counterexample", "Kiter.C127_isolated_counterexample"], "note": "Proved on all meshes for graphs whose tasks are all mapped; different colours up to four routed channels, and false from five (the palette has a colour twice). A task that is not mapped is at the mean place of its neighbours when they are all mapped; false otherwise, and undefined without channel."},
{"property": "C128", "status": "partial", "theorems": ["Kiter.C128_xml", "Kiter.C128_xml_faithful", "Kiter.C128_xml_counterexample", "Kiter.C128_tikz_nodes", "Kiter.C128_tikz_letter", "Kiter.C128_tikz_labels", "Kiter.C128_tikz_label_counterexample", "Kiter.C128_tikz_place_counterexample", "Kiter.C128_tikz_edges", "Kiter.C128_dot_nodes", "Kiter.C128_dot_edges", "Kiter.C128_dot_places", "Kiter.C128_dot_place_counterexample", "Kiter.C128_dot_zero_counterexample", "Kiter.C128_dot_thick_counterexample", "Kiter.C128_dot_clusters", "Kiter.C128_dot_lcg"], "note": "The XML text determines the constraints and their events for all graphs, but not the events without constraint. The Graphviz text is proved well formed with one cluster per task when no id is 0, and its places are different when there is one phase; both are false otherwise. The Tikz labels are different for ids under 192, false beyond; the places never are."},
{"property": "C129", "status": "partial", "theorems": ["Kiter.C129_infos", "Kiter.C129_isolated_counterexample", "Kiter.C129_duration_counterexample", "Kiter.C129_empty_counterexample"], "note": "Proved for all graphs with at least one task whose tasks of several phases have a channel. The total duration is the one of getVertexTotalDuration, which is truncated (C56). False for isolated tasks of several phases, fractional durations and the empty graph. The columns Mapping and Route are not modelled."},
{"property": "C130", "status": "partial", "theorems": ["Kiter.C130_drawing", "Kiter.C130_faithful", "Kiter.C130_written", "Kiter.C130_locked", "Kiter.C130_name_counterexample", "Kiter.C130_empty_counterexample"], "note": "Proved for all graphs whose names have neither quotation marks nor backslashes. False for names with them (they are not escaped) and for the empty graph; the graph is always left read-only (C130_locked), unlike after PrintInfos. The detailed labels (simple = false) are never asked for and not modelled."},
{"property": "C131", "status": "partial", "theorems": ["Kiter.C131_all", "Kiter.C131_twice_counterexample", "Kiter.C131_rectangular_counterexample"], "note": "Proved for all square meshes and one call. A second call doubles every list (for all sizes), and on a rectangular mesh the bound on the length is wrong, so that paths are missed."},
{"property": "C132", "status": "partial", "theorems": ["Kiter.C132_file", "Kiter.C132_faithful", "Kiter.C132_front", "Kiter.C132_rounding_counterexample"], "note": "Proved for all sets and for the exploration with the K-periodic analysis, except that throughputs are only given up to the rounding of the stream (6 digits): two different throughputs can have the same text."},
{"property": "C133", "status": "partial", "theorems": ["Kiter.C133_no_blank_partial", "Kiter.C133_blank_counterexample", "Kiter.C133_other_lines"], "note": "False: SDF3 prints blanks around `=`, lines are cut to their first word, and the throughput taken is 0 for all outputs in this format. Proved for lines without blanks."},
{"property": "C134", "status": "partial", "theorems": ["Kiter.C134_whole_partial", "Kiter.C134_rest_counterexample", "Kiter.C134_single_counterexample", "Kiter.C134_negative_counterexample"], "note": "Proved for whole iterations and for the time from the delivery of the first packet to the delivery of the last one. An unfinished iteration lowers the averages by the factor k/(k+1), the work before the first delivery is not counted, and the time of an iteration can be negative."},
{"property": "C135", "status": "partial", "theorems": ["Kiter.C135_result", "Kiter.C135_events", "Kiter.C135_count_partial", "Kiter.C135_phases_counterexample", "Kiter.C135_exceeds_counterexample", "Kiter.C135_constraints_counterexample", "Kiter.C135_ninj_counterexample"], "note": "The vertices are exactly the executions of the pattern, and the edges its constraints, in every run. The count of vertices is right for tasks with one phase and circuits that leave each task by one channel; it is too large in every row where a task with at least two phases was raised, and can exceed sum_Ni. sum_KiKj counts the constraints of some channels twice. sum_NiNj adds max(Ni,Nj), not products, and does not bound sum_KiKj. Initial phases, timings and the wrap-around of unsigned counts are not covered."},
{"property": "C136", "status": "partial", "theorems": ["Kiter.C136_merge_partial", "Kiter.C136_balance", "Kiter.C136_order_counterexample", "Kiter.C136_duration_counterexample"], "note": "Order, absence of gaps and termination are proved for the initial phases and the first period, the balance for tasks that move one token per execution (as routers do). From one period to the next the order can differ from that of the starts, when the schedule has several starts in a period. All phases last as long as the longest merged task. Replacing the channels in the graph is not modelled."},
{"property": "C137", "status": "partial", "theorems": ["Kiter.C137_given_partial", "Kiter.C137_strict_partial", "Kiter.C137_default_counterexample", "Kiter.C137_no_solution_counterexample", "Kiter.C137_impossible_counterexample", "Kiter.C137_strict_impossible_counterexample"], "note": "Proved for a given period with a (strictly) periodic schedule, with the integer program. Without PERIOD both commands fail an assertion on every graph; the message for periods without solution is never printed: an assertion fails, or the size 0 is printed for graphs without any periodic schedule. Arithmetic is exact; the solvers are parameters."},
{"property": "C138", "status": "partial", "theorems": ["Kiter.C138_orphans_partial", "Kiter.C138_diverges_counterexample"], "note": "Proved when some task has a channel. If none has, the loop never ends, for every graph."},
{"property": "C139", "status": "partial", "theorems": ["Kiter.C139_hyperperiod_partial", "Kiter.C139_network_counterexample"], "note": "Proved for schedules of tasks of the original graph. If the task with the greatest identifier belongs to the network, as it does after the network is added, the value is a division by zero and its conversion to an integer is undefined. `float` is exact."},
{"property": "C140", "status": "partial", "theorems": ["Kiter.C140_chart_partial", "Kiter.C140_blank_counterexample", "Kiter.C140_marks_counterexample"], "note": "Proved for the first period and for times before the first start, for a period of at least one. In later periods the chart is wrong for every schedule with a period above one. `long double` is exact."},
{"property": "C141", "status": "proved", "theorems": ["Kiter.C141_channels"], "note": "The rates of the new task are those of C62; that they are defined is a hypothesis here (Model/Merging.lean says when)."},
{"property": "C142", "status": "proved", "theorems": ["Kiter.C142_exclusion"], "note": "No command of this version calls the function. Counts have no bound in the model."},
{"property": "C143", "status": "partial", "theorems": ["Kiter.C143_channels_partial", "Kiter.C143_inputs_counterexample"], "note": "Proved for routers with one input and one output, neighbours included. A router with two inputs keeps the second one and has no output left."},
{"property": "C144", "status": "partial", "theorems": ["Kiter.C144_acyclic_partial", "Kiter.C144_bounds_counterexample"], "note": "Proved when the search stays within its vector. With tasks numbered from 1, as usual, it reads one place behind the vector. Which tasks are on a circuit is a hypothesis."}
]}
