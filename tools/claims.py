C['C10']=('proved',['C10_intsort','C10_thread_independent','C10_keys_below_max'],'every interleaving of scatter writes and every schedule of bucket sorts; vectors up to 2^34 elements')
C['C11']=('proved',['C11_contract','C11_contract_violated','C11_exact'],'the contract as documented is false; the exact condition is proved')
C['C12']=('proved',['C12_index','C12_constructed'],'every order of the marking writes and every interleaving of the gap repair loops; constructed structures over exact arithmetic')
C['C13']=('proved',['C13_layers_hand_out'],'exact arithmetic, SupportedInput')
C['C14']=('proved',['C14_layers','C14_comparison_levels'],'exact arithmetic, SupportedInput')
C['C15']=('proved',['C15_sequential','C15_any_float','C15_release_threshold'],'exact arithmetic for SupportedInput, and every float type under InputOK; a release build with alpha=infinity makes exactly the type I calls')
C['C16']=('proved',['C16_same_calls','C16_start_level','C16_parallel','C16_call'],'every start level with D*level<=31, every distribution of iterations to threads, up to 2^23 threads')
C['C17']=('proved',['C17_simple_graph','C17_any_float'],'assumes geometric samples below 2^63')
C['C22']=('proved',['C22_decoding','C22_loop'],'assumes geometric samples below 2^63 (no wrap of the 64 bit counter)')
C['C24']=('proved',['C24_nothing_lost','C24_mutual_exclusion','C24_no_deadlock'],'all interleavings at the granularity push/lock/append one edge/unlock/clear')
C['C25']=('proved',['C25_reproducible','C25_same_list','C25_seeds'],'')
C['C33']=('proved',['C33_unsupported','C33_dispatch'],'')
C['C18'] = ('proved', ['C18_threshold_exact'], 'exact arithmetic, every supported input, every execution of generateEdges; both build types')
C['C19'] = ('proved', ['C19_bound_dominates'], 'bound in (0,1]; equality with 1 is possible (C57) and is then redirected to type I')
C['C23'] = ('proved', ['C23_complete_graph'], 'uniform random numbers are assumed to be below 1')
C['C57'] = ('proved', ['C57_weak_bound', 'C57_assertion_can_fire'], 'settled negatively: the assertion can fire (witness with 16 unit weights); it holds with >= instead of >')
C['C20'] = ('proved', ['C20_skipping_is_bernoulli'], 'the law of the selected edges of one type II call, for every cell pair and every layer pair')
C['C21'] = ('proved', ['C21_distribution', 'C21_skipped_pair'], 'the full joint law of the returned graph; the exception (cell pairs with expected < 1e-6 are skipped) is part of the statement and shown to be real')
C['C36'] = ('proved', ['C36_tree', 'C36_cellForPoint', 'C36_touching', 'C36_dist'], 'cellForPoint and dist over exact arithmetic')
C['C37'] = ('proved', ['C37_distance', 'C37_metric', 'C37_origin'], 'exact arithmetic; a point of radius 0 yields NaN and never satisfies isDistanceBelowR (C37_origin)')
C['C38'] = ('proved', ['C38_terminates', 'C38_sound'], 'exact arithmetic')
C['C39'] = ('proved', ['C39_layers_hand_out'], 'exact arithmetic, HypInput')
C['C40'] = ('proved', ['C40_sequential', 'C40_release_threshold'], 'exact arithmetic, HypInput; a release build with T=0 makes exactly the type I calls')
C['C41'] = ('proved', ['C41_same_calls', 'C41_parallel'], 'every start level 1..31, any number of workers')
C['C42'] = ('proved', ['C42_task_count'], '2 to 2^25 threads')
C['C43'] = ('proved', ['C43_each_task_once'], 'all interleavings of the steps listed in Model/HyperGenerate.lean, sequentially consistent memory')
C['C44'] = ('proved', ['C44_fair_terminates', 'C44_hang', 'C44_returns_iff', 'C44_small_disk_hangs'], 'the original claim (always terminates) is false; the exact condition is proved')
C['C45'] = ('proved', ['C45_threshold_exact'], 'exact arithmetic, HypInput, every execution, both build types')
C['C46'] = ('proved', ['C46_exact_iff', 'C46_type_two'], 'exact arithmetic; the condition 2 T ln 99 <= R is necessary and sufficient')
C['C61'] = ('proved', ['C61_distribution','C61_skipped_pair'], 'the full joint law of the returned graph; one thread or a start level for which the call returns; the exception (cell pairs with expected < 1e-6 are skipped) is part of the statement and shown to be real')
C['C47'] = ('proved', ['C47_bound_dominates'], 'exact arithmetic, HypInput')
C['C48'] = ('proved', ['C48_reproducible', 'C48_seeds'], '')
C['C49'] = ('proved', ['C49_simple_graph', 'C49_defined'], '')
C['C28'] = ('proved', ['C28_unchanged', 'C28_multiplies', 'C28_rejects_iff', 'C28_estimator'], '')
C['C29'] = ('proved', ['C29_accuracy', 'C29_bracket', 'C29_returns', 'C29_diverges'], 'accuracy for every float type; bracket, termination and divergence over exact arithmetic')
C['C30'] = ('proved', ['C30_queries', 'C30_stable', 'C30_total', 'C30_subnormal_wrong'], 'every float type whose comparisons are those of extended real values; the restriction to normal doubles is shown to be necessary')
C['C31'] = ('proved', ['C31_estimate', 'C31_exact', 'C31_debug', 'C31_not_exact'], 'exact arithmetic; the original claim (equality) is false, witness C31_not_exact')
C['C32'] = ('proved', ['C32_scaled_threshold', 'C32_scaled_girg', 'C32_threshold', 'C32_girg'], 'exact arithmetic')
C['C58'] = ('proved', ['C58_estimate', 'C58_debug'], 'exact arithmetic')
C['C65'] = ('proved', ['C65_hrg', 'C65_girg'], 'exact arithmetic; in floating point the order of the OpenMP reductions in scaleWeights could change the scaling factor with several threads')
C['C59'] = ('proved', ['C59_returns_iff', 'C59_degree'], 'exact arithmetic')
C['C26'] = ('proved', ['C26_executions', 'C26_range', 'C26_law', 'C26_single_node'], 'executions for every float type, any schedule and engine; range and law over exact arithmetic')
C['C27'] = ('proved', ['C27_executions', 'C27_range'], 'executions for every float type; range over exact arithmetic')
C['C50'] = ('proved', ['C50_executions', 'C50_empty_undefined', 'C50_range'], 'the original claim (total for n=0) is false with parallel=true, witness C50_empty_undefined')
C['C51'] = ('proved', ['C51_inverts', 'C51_monotone', 'C51_positive', 'C51_half', 'C51_overflow'], 'exact arithmetic; alpha = 1/2 gives an infinite radius, n >= 2^30 overflows')
C['C52'] = ('proved', ['C52_accuracy', 'C52_bracket', 'C52_returns', 'C52_debug', 'C52_hang', 'C52_cold', 'C52_zero', 'C52_dense_hangs'], 'accuracy for every float type, the rest exact arithmetic; a release build hangs on dense targets')
C['C53'] = ('proved', ['C53_radius', 'C53_weight', 'C53_weight_range', 'C53_angle'], 'exact arithmetic')
C['C34'] = ('proved', ['C34_round_trip', 'C34_injective', 'C34_layout'], '')
C['C35'] = ('proved', ['C35_round_trip', 'C35_errors', 'C35_accuracy'], 'structure for every way of printing numbers that prints no separator characters; accuracy for correctly rounded printing')
C['C60'] = ('proved', ['C60_round_trip'], 'correctly rounded fixed printing; a printer with this property exists (exactPrinter_rounded)')
C['C54'] = ('proved', ['C54_value', 'C54_absent'], '')
C['C55'] = ('proved', ['C55_real', 'C55_alpha', 'C55_special', 'C55_int'], 'NaN passes every check (C55_special)')
C['C56'] = ('proved', ['C56_multisets', 'C56_edges', 'C56_counts', 'C56_reverse', 'C56_reverse_large', 'C56_unify'], '')
C['C62'] = ('proved', ['C62_hrg_settings', 'C62_girg_settings', 'C62_hrg_ranges', 'C62_girg_ranges', 'C62_hrg_exits', 'C62_girg_exits'], 'settings and exits for every float type; ranges over exact arithmetic')
C['C63'] = ('proved', ['C63_output', 'C63_radius', 'C63_returns_iff'], 'exact arithmetic; real parameters (NaN passes the checks, C62), estimated radius between 4/3 (automatic without -nkr) and 41.25; a run may hang with several threads, C63_returns_iff says when')
C['C64'] = ('proved', ['C64_output', 'C64_exception', 'C64_nan', 'C64_returns_iff'], 'exact arithmetic; real ple and deg (NaN passes the checks, C62); the graph is described if the drawn weights satisfy an explicit size condition, automatic for small n (size_small); C64_returns_iff for release builds')
C['C65'] = ('proved', ['C65_hrg', 'C65_girg'], 'exact arithmetic; in floating point the order of the OpenMP reductions in scaleWeights could change the scaling factor with several threads')
C['C59'] = ('proved', ['C59_returns_iff', 'C59_degree', 'C59_factor'], 'exact arithmetic')
C['C66'] = ('proved', ['C66_rounded_simple_graph', 'C66_rounded_coverage'], 'for every arithmetic with the stated error bounds; instances B64.rounded (IEEE binary64) and XR.rounded (exact)')
C['C67'] = ('proved', ['C67_rounded_threshold', 'C67_double', 'margin_bound', 'surely_exact'], 'release builds (debug builds also run the calls that release builds leave out)')
C['C68'] = ('proved', ['C68_undefined', 'C68_missing_edge', 'C68_returns'], 'exact arithmetic; radii between 1/2 and 2/3 are neither claimed to work nor to fail')
C['C69'] = ('proved', ['C69_intsort', 'C69_counting', 'C69_scattering', 'C69_accesses'], 'per phase between the barriers; accesses within one phase to the plain arrays')
C['C70'] = ('proved', ['C70_index', 'C70_hyper', 'C70_accesses'], 'the repair loop has a data race (finding)')
C['C71'] = ('proved', ['C71_flag', 'C71_tasks', 'C71_accesses'], 'the unsynchronised test of the flag is a data race, also on the task list (finding)')
C['C72'] = ('proved', ['C72_constructor', 'C72_run', 'C72_aborts_iff', 'C72_no_abort', 'C72_counters', 'C72_points_in_cell'], 'exact arithmetic; the assertions of WeightScaling.cpp are in C91, those of the timers in C86')
C['C73'] = ('proved', ['C73_constructor', 'C73_run', 'C73_no_abort', 'C73_call', 'C73_shortcut_aborts', 'C73_counters', 'C73_runs_exist'], 'exact arithmetic; C73_call covers the sampling calls of executions that hang (C44); the assertion of the timers is in C86')
C['C74'] = ('proved', ['C74_sandwich', 'C74_monotone'], 'exact arithmetic; sum of the weights below 2^29 k (so that the GIRG input is supported)')
C['C75'] = ('proved', ['C75_output', 'C75_bounds', 'C75_found', 'C75_monotone', 'C75_returns', 'C75_settings', 'C75_exits'], 'exact arithmetic; real parameters (NaN passes the checks, C62); rows are related to the graphs under an explicit size condition on the points (SizeOk); text on the terminal only as the values printed')
C['C76'] = ('proved', ['C76_output', 'C76_dense', 'C76_returns', 'C76_settings', 'C76_exits'], 'exact arithmetic; real alpha (NaN passes the checks, C62); containment statements under an explicit size condition on the points (SizeOk); lists of 2^31 and more edges excluded')
C['C77'] = ('proved', ['C77_counter', 'C77_shared_id', 'C77_counts', 'C77_hyper_counts', 'C77_girg', 'C77_girg_returns', 'C77_main', 'C77_main_returns', 'C77_hyper', 'C77_hyper_returns'], 'counting for every floating point type, the rest in exact arithmetic; edge numbers of bench_girg under an explicit size condition on the weights; measured times and main of bench_hyper (which skips sizes depending on them) are not modelled')
C['C78'] = ('proved', ['C78_smaller_team_hangs', 'C78_full_team', 'C78_hyper_never_returns', 'C78_hyper_returns_iff', 'C78_girg_any_team'], 'the hang for every floating point type; C78_hyper_returns_iff and C78_girg_any_team in exact arithmetic')
C['C79'] = ('proved', ['C79_rounded_simple_graph', 'C79_rounded_defined', 'C79_rounded_coverage', 'C79_levels', 'C79_rounded_returns_iff', 'C79_double', 'C79_centre_undefined'], 'for every arithmetic with the stated error bounds; instances B64.rounded/B64.elem (IEEE binary64) and XR.rounded/XR.elem (exact)')
C['C80'] = ('proved', ['C80_rounded_threshold', 'C80_rounded_exact', 'C80_double'], 'for every arithmetic with the stated error bounds; instance IEEE binary64')
C['C81'] = ('proved', ['C81_sdeposit', 'C81_bmi2', 'C81_agree', 'C81_out_of_range'], '')
C['C82'] = ('proved', ['C82_main', 'C82_returns', 'C82_sizes'], 'the measured times are arbitrary values')
C['C83'] = ('proved', ['C83_undefined', 'C83_genhrg', 'C83_radius', 'C83_bench', 'C83_needs_timeout'], 'exact arithmetic; for temperature 0 the radii between 42.6 and 44.2 are not covered')
C['C84'] = ('proved', ['C84_decisions', 'C84_centre'], 'exact arithmetic')
C['C85'] = ('proved', ['C85_positions', 'C85_angles', 'C85_radii', 'C85_returns', 'C85_hyperbolic', 'C85_hyperbolic_graph', 'C85_girg', 'C85_double'], 'weights: C88')
C['C86'] = ('proved', ['C86_restart', 'C86_autostart', 'C86_never', 'C86_abort', 'C86_lines', 'C86_order', 'C86_rounded'], '')
C['C87'] = ('proved', ['C87_off', 'C87_spatialTree', 'C87_hyperbolicTree', 'C87_generate', 'C87_benchGirg', 'C87_benchHyper'], 'the text form of the numbers is not modelled')
C['C88'] = ('proved', ['C88_range', 'C88_graph', 'C88_double'], 'pow is assumed to have a relative error of at most 2^-51')
C['C89'] = ('proved', ['C89_counts', 'C89_recursion', 'C89_index', 'C89_pairs', 'C89_threshold', 'C89_expected'], 'exact arithmetic; work of the counting functions of Model/Work, which C89_counts ties to the sampling functions; sorting and node copies while the structure is built are not counted')
C['C90'] = ('proved', ['C90_counts', 'C90_recursion', 'C90_index', 'C90_pairs', 'C90_threshold', 'C90_expected', 'C90_radius', 'C90_linear'], 'exact arithmetic; work of the counting functions of Model/HyperWork, which C90_counts ties to the sampling functions; sorting, the search for the levels and the filter tables while the structure is built are not counted')
C['C91'] = ('proved', ['C91_feasible', 'C91_infeasible', 'C91_release', 'C91_extreme'], 'exact arithmetic')
C['C92'] = ('proved', ['C92_weights', 'C92_positions', 'C92_nodes', 'C92_overlap', 'C92_same_seed', 'C92_radii', 'C92_angles', 'C92_polar', 'C92_points'], 'exact arithmetic, ideal engines')
C['C93'] = ('proved', ['C93_requested', 'C93_expected', 'C93_expected_threshold', 'C93_positions', 'C93_positions_threshold'], 'exact arithmetic, ideal engines')
C['C94'] = ('proved', ['C94_requested_threshold', 'C94_requested', 'C94_threshold', 'C94_expected', 'C94_points'], 'exact arithmetic, ideal engines; temperatures between 0 and 2^-52 are not covered (see C46)')
C['C95'] = ('proved', ['C95_proportional', 'C95_threshold', 'C95_expected', 'C95_positions', 'C95_positions_threshold'], 'exact arithmetic, ideal engines')
C['C96'] = ('proved', ['C96_threshold', 'C96_expected', 'C96_points'], 'exact arithmetic, ideal engines; temperatures between 0 and 2^-52 are not covered (see C46)')
C['C97'] = ('proved', ['C97_positions', 'C97_points'], 'exact arithmetic, ideal random numbers; alpha = infinity and T = 0 are deterministic for fixed positions (C18, C45)')
C['C98'] = ('proved', ['C98_threshold', 'C98_alpha'], 'exact arithmetic, ideal engines; probabilities over the random positions as upper integrals')
C['C99'] = ('proved', ['C99_threshold', 'C99_expected'], 'exact arithmetic, ideal engines; for T > 0 probabilities over the random points as upper integrals')
C['C100'] = ('proved', ['C100_upper', 'C100_lower'], 'exact arithmetic, ideal engines; the constants are explicit but not sharp; probabilities over the random nodes as upper integral (upper bound) and lower integral (lower bound)')
C['C101'] = ('proved', ['C101_threshold', 'C101_expected'], 'exact arithmetic, ideal engines; the constants are explicit but not sharp; probabilities over the random points as upper integral (upper bound) and lower integral (lower bound)')
C['C102'] = ('proved', ['C102_probabilities', 'C102_clustering'], 'exact arithmetic, ideal engines; probabilities over the random positions as upper integral (two edges) and lower integral (triangle); fixed weights')
C['C103'] = ('proved', ['C103_threshold', 'C103_expected'], 'exact arithmetic, ideal engines; for T > 0 probabilities over the random points as upper integral (two edges) and lower integral (triangle)')
C['C104'] = ('proved', ['C104_girg', 'C104_hyper'], 'exact arithmetic, ideal random numbers')
C['C105'] = ('proved', ['C105_threshold', 'C105_alpha', 'C105_requested'], 'exact arithmetic, ideal engines; probabilities over the random positions as upper integrals; fixed weights')
C['C106'] = ('proved', ['C106_threshold', 'C106_expected', 'C106_requested_threshold', 'C106_requested'], 'exact arithmetic, ideal engines; probabilities over the random points as (upper) integrals')
C['C107'] = ('proved', ['C107_contains', 'C107_double', 'C107_exact'], 'rounding as in C67; quotients and powers of numbers that are at least 1 are assumed not to be rounded below 1 (RoundedAbove), proved for binary64 with correctly rounded pow')
C['C108'] = ('proved', ['C108_all_threshold', 'C108_all_alpha', 'C108_max_girg', 'C108_max_threshold', 'C108_max_expected'], 'exact arithmetic, ideal engines; union bounds over the nodes with the bounds of C98, C100, C99 and C101; the lower bound on the maximum degree of hyperbolic random graphs from the independence of the radii; no lower bound on the maximum degree of GIRGs')
C['C109'] = ('proved', ['C109_threshold', 'C109_degree_threshold', 'C109_alpha', 'C109_hyper_threshold', 'C109_hyper_probability', 'C109_hyper_expected'], 'exact arithmetic, ideal engines; exact laws for alpha = infinity and T = 0; for finite alpha and for positive temperatures (with 2 T log 99 <= R) bounds with an error of 10^-6 per factor, since pairs with connection probability below 10^-6 may be skipped')
C['C110'] = ('proved', ['C110_threshold', 'C110_renamed', 'C110_hyper', 'C110_alpha', 'C110_temperature'], 'exact arithmetic, ideal engines; equal laws for alpha = infinity and temperature 0, up to 10^-6 per pair of chosen nodes and run for finite alpha and positive temperature (pairs with connection probability below 10^-6 may be skipped, depending on names)')
C['C111'] = ('proved', ['C111_girg', 'C111_hyper'], 'exact arithmetic, ideal random numbers; alpha = infinity and T = 0 are C18, C45')
C['C112'] = ('proved', ['C112_threshold', 'C112_alpha', 'C112_hyper', 'C112_hyper_expected'], 'exact arithmetic, ideal engines; for finite alpha and positive temperatures the expectation is the mean over the points of the sum of the probabilities of the nodes, with an error of 10^-6 per factor, since pairs with connection probability below 10^-6 may be skipped')
C['C113'] = ('proved', ['C113_threshold', 'C113_hyper'], 'exact arithmetic, ideal engines; alpha = infinity and temperature 0; the bound is of the order of n for bounded expected degrees, and useful when the sum of the squares of the expected degrees is small against n^2')
C['C114'] = ('proved', ['C114_threshold', 'C114_hyper', 'C114_components'], 'exact arithmetic, ideal engines; alpha = infinity and temperature 0; the bound is of the order of n for bounded expected degrees, and useful when the sum of the squares of the expected degrees is small against n^2')
