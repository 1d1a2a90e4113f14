{
 "claims": [
  {
   "property": "C01",
   "status": "proved",
   "theorems": [
    "Girgs.Props.C01_deposit_is_interleaving",
    "Girgs.Props.C01_extract_is_deinterleaving"
   ],
   "note": ""
  },
  {
   "property": "C02",
   "status": "proved",
   "theorems": [
    "Girgs.Props.C02_extract_deposit",
    "Girgs.Props.C02_deposit_extract"
   ],
   "note": ""
  },
  {
   "property": "C03",
   "status": "proved",
   "theorems": [
    "Girgs.Props.C03_bmi2_agrees",
    "Girgs.Props.C03_range_needed"
   ],
   "note": ""
  },
  {
   "property": "C04",
   "status": "proved",
   "theorems": [
    "Girgs.Props.C04_levels_tile",
    "Girgs.Props.C04_firstCellOfLevel",
    "Girgs.Props.C04_children",
    "Girgs.Props.C04_cellOfLevel",
    "Girgs.Props.C04_level_exists_unique",
    "Girgs.Props.C04_assertLower_portable"
   ],
   "note": ""
  },
  {
   "property": "C05",
   "status": "proved",
   "theorems": [
    "Girgs.Props.C05_point_in_cell",
    "Girgs.Props.C05_nesting"
   ],
   "note": "exact arithmetic"
  },
  {
   "property": "C06",
   "status": "proved",
   "theorems": [
    "Girgs.Props.C06_touching_iff",
    "Girgs.Props.C06_refl_symm",
    "Girgs.Props.C06_children_of_nontouching"
   ],
   "note": ""
  },
  {
   "property": "C07",
   "status": "proved",
   "theorems": [
    "Girgs.Props.C07_cell_distance"
   ],
   "note": "exact arithmetic"
  },
  {
   "property": "C08",
   "status": "proved",
   "theorems": [
    "Girgs.Props.C08_distance_formula",
    "Girgs.Props.C08_torus_metric"
   ],
   "note": "exact arithmetic"
  },
  {
   "property": "C09",
   "status": "proved",
   "theorems": [
    "Girgs.Props.C09_pow_to_the"
   ],
   "note": "exact arithmetic"
  },
  {
   "property": "C10",
   "status": "proved",
   "theorems": [
    "Girgs.Props.C10_intsort",
    "Girgs.Props.C10_thread_independent",
    "Girgs.Props.C10_keys_below_max"
   ],
   "note": "every interleaving of scatter writes and every schedule of bucket sorts; vectors up to 2^34 elements"
  },
  {
   "property": "C11",
   "status": "proved",
   "theorems": [
    "Girgs.Props.C11_contract",
    "Girgs.Props.C11_contract_violated",
    "Girgs.Props.C11_exact"
   ],
   "note": "the contract as documented is false; the exact condition is proved"
  },
  {
   "property": "C12",
   "status": "proved",
   "theorems": [
    "Girgs.Props.C12_index",
    "Girgs.Props.C12_constructed"
   ],
   "note": "every order of the marking writes and every interleaving of the gap repair loops; constructed structures over exact arithmetic"
  },
  {
   "property": "C13",
   "status": "proved",
   "theorems": [
    "Girgs.Props.C13_layers_hand_out"
   ],
   "note": "exact arithmetic, SupportedInput"
  },
  {
   "property": "C14",
   "status": "proved",
   "theorems": [
    "Girgs.Props.C14_layers",
    "Girgs.Props.C14_comparison_levels"
   ],
   "note": "exact arithmetic, SupportedInput"
  },
  {
   "property": "C15",
   "status": "proved",
   "theorems": [
    "Girgs.Props.C15_sequential",
    "Girgs.Props.C15_any_float",
    "Girgs.Props.C15_release_threshold"
   ],
   "note": "exact arithmetic for SupportedInput, and every float type under InputOK; a release build with alpha=infinity makes exactly the type I calls"
  },
  {
   "property": "C16",
   "status": "proved",
   "theorems": [
    "Girgs.Props.C16_same_calls",
    "Girgs.Props.C16_start_level",
    "Girgs.Props.C16_parallel",
    "Girgs.Props.C16_call"
   ],
   "note": "every start level with D*level<=31, every distribution of iterations to threads, up to 2^23 threads"
  },
  {
   "property": "C17",
   "status": "proved",
   "theorems": [
    "Girgs.Props.C17_simple_graph",
    "Girgs.Props.C17_any_float"
   ],
   "note": "assumes geometric samples below 2^63"
  },
  {
   "property": "C18",
   "status": "proved",
   "theorems": [
    "Girgs.Props.C18_threshold_exact"
   ],
   "note": "exact arithmetic, every supported input, every execution of generateEdges; both build types"
  },
  {
   "property": "C19",
   "status": "proved",
   "theorems": [
    "Girgs.Props.C19_bound_dominates"
   ],
   "note": "bound in (0,1]; equality with 1 is possible (C57) and is then redirected to type I"
  },
  {
   "property": "C20",
   "status": "proved",
   "theorems": [
    "Girgs.Props.C20_skipping_is_bernoulli"
   ],
   "note": "the law of the selected edges of one type II call, for every cell pair and every layer pair"
  },
  {
   "property": "C21",
   "status": "proved",
   "theorems": [
    "Girgs.Props.C21_distribution",
    "Girgs.Props.C21_skipped_pair"
   ],
   "note": "the full joint law of the returned graph; the exception (cell pairs with expected < 1e-6 are skipped) is part of the statement and shown to be real"
  },
  {
   "property": "C22",
   "status": "proved",
   "theorems": [
    "Girgs.Props.C22_decoding",
    "Girgs.Props.C22_loop"
   ],
   "note": "assumes geometric samples below 2^63 (no wrap of the 64 bit counter)"
  },
  {
   "property": "C23",
   "status": "proved",
   "theorems": [
    "Girgs.Props.C23_complete_graph"
   ],
   "note": "uniform random numbers are assumed to be below 1"
  },
  {
   "property": "C24",
   "status": "proved",
   "theorems": [
    "Girgs.Props.C24_nothing_lost",
    "Girgs.Props.C24_mutual_exclusion",
    "Girgs.Props.C24_no_deadlock"
   ],
   "note": "all interleavings at the granularity push/lock/append one edge/unlock/clear"
  },
  {
   "property": "C25",
   "status": "proved",
   "theorems": [
    "Girgs.Props.C25_reproducible",
    "Girgs.Props.C25_same_list",
    "Girgs.Props.C25_seeds"
   ],
   "note": ""
  },
  {
   "property": "C26",
   "status": "proved",
   "theorems": [
    "Girgs.Props.C26_executions",
    "Girgs.Props.C26_range",
    "Girgs.Props.C26_law",
    "Girgs.Props.C26_single_node"
   ],
   "note": "executions for every float type, any schedule and engine; range and law over exact arithmetic"
  },
  {
   "property": "C27",
   "status": "proved",
   "theorems": [
    "Girgs.Props.C27_executions",
    "Girgs.Props.C27_range"
   ],
   "note": "executions for every float type; range over exact arithmetic"
  },
  {
   "property": "C28",
   "status": "proved",
   "theorems": [
    "Girgs.Props.C28_unchanged",
    "Girgs.Props.C28_multiplies",
    "Girgs.Props.C28_rejects_iff",
    "Girgs.Props.C28_estimator"
   ],
   "note": ""
  },
  {
   "property": "C29",
   "status": "proved",
   "theorems": [
    "Girgs.Props.C29_accuracy",
    "Girgs.Props.C29_bracket",
    "Girgs.Props.C29_returns",
    "Girgs.Props.C29_diverges"
   ],
   "note": "accuracy for every float type; bracket, termination and divergence over exact arithmetic"
  },
  {
   "property": "C30",
   "status": "proved",
   "theorems": [
    "Girgs.Props.C30_queries",
    "Girgs.Props.C30_stable",
    "Girgs.Props.C30_total",
    "Girgs.Props.C30_subnormal_wrong"
   ],
   "note": "every float type whose comparisons are those of extended real values; the restriction to normal doubles is shown to be necessary"
  },
  {
   "property": "C31",
   "status": "proved",
   "theorems": [
    "Girgs.Props.C31_estimate",
    "Girgs.Props.C31_exact",
    "Girgs.Props.C31_debug",
    "Girgs.Props.C31_not_exact"
   ],
   "note": "exact arithmetic; the original claim (equality) is false, witness C31_not_exact"
  },
  {
   "property": "C32",
   "status": "proved",
   "theorems": [
    "Girgs.Props.C32_scaled_threshold",
    "Girgs.Props.C32_scaled_girg",
    "Girgs.Props.C32_threshold",
    "Girgs.Props.C32_girg"
   ],
   "note": "exact arithmetic"
  },
  {
   "property": "C33",
   "status": "proved",
   "theorems": [
    "Girgs.Props.C33_unsupported",
    "Girgs.Props.C33_dispatch"
   ],
   "note": ""
  },
  {
   "property": "C34",
   "status": "proved",
   "theorems": [
    "Girgs.Props.C34_round_trip",
    "Girgs.Props.C34_injective",
    "Girgs.Props.C34_layout"
   ],
   "note": ""
  },
  {
   "property": "C35",
   "status": "proved",
   "theorems": [
    "Girgs.Props.C35_round_trip",
    "Girgs.Props.C35_errors",
    "Girgs.Props.C35_accuracy"
   ],
   "note": "structure for every way of printing numbers that prints no separator characters; accuracy for correctly rounded printing"
  },
  {
   "property": "C36",
   "status": "proved",
   "theorems": [
    "Girgs.Props.C36_tree",
    "Girgs.Props.C36_cellForPoint",
    "Girgs.Props.C36_touching",
    "Girgs.Props.C36_dist"
   ],
   "note": "cellForPoint and dist over exact arithmetic"
  },
  {
   "property": "C37",
   "status": "proved",
   "theorems": [
    "Girgs.Props.C37_distance",
    "Girgs.Props.C37_metric",
    "Girgs.Props.C37_origin"
   ],
   "note": "exact arithmetic; a point of radius 0 yields NaN and never satisfies isDistanceBelowR (C37_origin)"
  },
  {
   "property": "C38",
   "status": "proved",
   "theorems": [
    "Girgs.Props.C38_terminates",
    "Girgs.Props.C38_sound"
   ],
   "note": "exact arithmetic"
  },
  {
   "property": "C39",
   "status": "proved",
   "theorems": [
    "Girgs.Props.C39_layers_hand_out"
   ],
   "note": "exact arithmetic, HypInput"
  },
  {
   "property": "C40",
   "status": "proved",
   "theorems": [
    "Girgs.Props.C40_sequential",
    "Girgs.Props.C40_release_threshold"
   ],
   "note": "exact arithmetic, HypInput; a release build with T=0 makes exactly the type I calls"
  },
  {
   "property": "C41",
   "status": "proved",
   "theorems": [
    "Girgs.Props.C41_same_calls",
    "Girgs.Props.C41_parallel"
   ],
   "note": "every start level 1..31, any number of workers"
  },
  {
   "property": "C42",
   "status": "proved",
   "theorems": [
    "Girgs.Props.C42_task_count"
   ],
   "note": "2 to 2^25 threads"
  },
  {
   "property": "C43",
   "status": "proved",
   "theorems": [
    "Girgs.Props.C43_each_task_once"
   ],
   "note": "all interleavings of the steps listed in Model/HyperGenerate.lean, sequentially consistent memory"
  },
  {
   "property": "C44",
   "status": "proved",
   "theorems": [
    "Girgs.Props.C44_fair_terminates",
    "Girgs.Props.C44_hang",
    "Girgs.Props.C44_returns_iff",
    "Girgs.Props.C44_small_disk_hangs"
   ],
   "note": "the original claim (always terminates) is false; the exact condition is proved"
  },
  {
   "property": "C45",
   "status": "proved",
   "theorems": [
    "Girgs.Props.C45_threshold_exact"
   ],
   "note": "exact arithmetic, HypInput, every execution, both build types"
  },
  {
   "property": "C46",
   "status": "proved",
   "theorems": [
    "Girgs.Props.C46_exact_iff",
    "Girgs.Props.C46_type_two"
   ],
   "note": "exact arithmetic; the condition 2 T ln 99 <= R is necessary and sufficient"
  },
  {
   "property": "C47",
   "status": "proved",
   "theorems": [
    "Girgs.Props.C47_bound_dominates"
   ],
   "note": "exact arithmetic, HypInput"
  },
  {
   "property": "C48",
   "status": "proved",
   "theorems": [
    "Girgs.Props.C48_reproducible",
    "Girgs.Props.C48_seeds"
   ],
   "note": ""
  },
  {
   "property": "C49",
   "status": "proved",
   "theorems": [
    "Girgs.Props.C49_simple_graph",
    "Girgs.Props.C49_defined"
   ],
   "note": ""
  },
  {
   "property": "C50",
   "status": "proved",
   "theorems": [
    "Girgs.Props.C50_executions",
    "Girgs.Props.C50_empty_undefined",
    "Girgs.Props.C50_range"
   ],
   "note": "the original claim (total for n=0) is false with parallel=true, witness C50_empty_undefined"
  },
  {
   "property": "C51",
   "status": "proved",
   "theorems": [
    "Girgs.Props.C51_inverts",
    "Girgs.Props.C51_monotone",
    "Girgs.Props.C51_positive",
    "Girgs.Props.C51_half",
    "Girgs.Props.C51_overflow"
   ],
   "note": "exact arithmetic; alpha = 1/2 gives an infinite radius, n >= 2^30 overflows"
  },
  {
   "property": "C52",
   "status": "proved",
   "theorems": [
    "Girgs.Props.C52_accuracy",
    "Girgs.Props.C52_bracket",
    "Girgs.Props.C52_returns",
    "Girgs.Props.C52_debug",
    "Girgs.Props.C52_hang",
    "Girgs.Props.C52_cold",
    "Girgs.Props.C52_zero",
    "Girgs.Props.C52_dense_hangs"
   ],
   "note": "accuracy for every float type, the rest exact arithmetic; a release build hangs on dense targets"
  },
  {
   "property": "C53",
   "status": "proved",
   "theorems": [
    "Girgs.Props.C53_radius",
    "Girgs.Props.C53_weight",
    "Girgs.Props.C53_weight_range",
    "Girgs.Props.C53_angle"
   ],
   "note": "exact arithmetic"
  },
  {
   "property": "C54",
   "status": "proved",
   "theorems": [
    "Girgs.Props.C54_value",
    "Girgs.Props.C54_absent"
   ],
   "note": ""
  },
  {
   "property": "C55",
   "status": "proved",
   "theorems": [
    "Girgs.Props.C55_real",
    "Girgs.Props.C55_alpha",
    "Girgs.Props.C55_special",
    "Girgs.Props.C55_int"
   ],
   "note": "NaN passes every check (C55_special)"
  },
  {
   "property": "C56",
   "status": "proved",
   "theorems": [
    "Girgs.Props.C56_multisets",
    "Girgs.Props.C56_edges",
    "Girgs.Props.C56_counts",
    "Girgs.Props.C56_reverse",
    "Girgs.Props.C56_reverse_large",
    "Girgs.Props.C56_unify"
   ],
   "note": ""
  },
  {
   "property": "C57",
   "status": "proved",
   "theorems": [
    "Girgs.Props.C57_weak_bound",
    "Girgs.Props.C57_assertion_can_fire"
   ],
   "note": "settled negatively: the assertion can fire (witness with 16 unit weights); it holds with >= instead of >"
  },
  {
   "property": "C58",
   "status": "proved",
   "theorems": [
    "Girgs.Props.C58_estimate",
    "Girgs.Props.C58_debug"
   ],
   "note": "exact arithmetic"
  },
  {
   "property": "C59",
   "status": "proved",
   "theorems": [
    "Girgs.Props.C59_returns_iff",
    "Girgs.Props.C59_degree",
    "Girgs.Props.C59_factor"
   ],
   "note": "exact arithmetic"
  },
  {
   "property": "C60",
   "status": "proved",
   "theorems": [
    "Girgs.Props.C60_round_trip"
   ],
   "note": "correctly rounded fixed printing; a printer with this property exists (exactPrinter_rounded)"
  },
  {
   "property": "C61",
   "status": "proved",
   "theorems": [
    "Girgs.Props.C61_distribution",
    "Girgs.Props.C61_skipped_pair"
   ],
   "note": "the full joint law of the returned graph; one thread or a start level for which the call returns; the exception (cell pairs with expected < 1e-6 are skipped) is part of the statement and shown to be real"
  },
  {
   "property": "C62",
   "status": "proved",
   "theorems": [
    "Girgs.Props.C62_hrg_settings",
    "Girgs.Props.C62_girg_settings",
    "Girgs.Props.C62_hrg_ranges",
    "Girgs.Props.C62_girg_ranges",
    "Girgs.Props.C62_hrg_exits",
    "Girgs.Props.C62_girg_exits"
   ],
   "note": "settings and exits for every float type; ranges over exact arithmetic"
  },
  {
   "property": "C63",
   "status": "proved",
   "theorems": [
    "Girgs.Props.C63_output",
    "Girgs.Props.C63_radius",
    "Girgs.Props.C63_returns_iff"
   ],
   "note": "exact arithmetic; real parameters (NaN passes the checks, C62), estimated radius between 4/3 (automatic without -nkr) and 41.25; a run may hang with several threads, C63_returns_iff says when"
  },
  {
   "property": "C64",
   "status": "proved",
   "theorems": [
    "Girgs.Props.C64_output",
    "Girgs.Props.C64_exception",
    "Girgs.Props.C64_nan",
    "Girgs.Props.C64_returns_iff"
   ],
   "note": "exact arithmetic; real ple and deg (NaN passes the checks, C62); the graph is described if the drawn weights satisfy an explicit size condition, automatic for small n (size_small); C64_returns_iff for release builds"
  },
  {
   "property": "C65",
   "status": "proved",
   "theorems": [
    "Girgs.Props.C65_hrg",
    "Girgs.Props.C65_girg"
   ],
   "note": "exact arithmetic; in floating point the order of the OpenMP reductions in scaleWeights could change the scaling factor with several threads"
  },
  {
   "property": "C66",
   "status": "proved",
   "theorems": [
    "Girgs.Props.C66_rounded_simple_graph",
    "Girgs.Props.C66_rounded_coverage"
   ],
   "note": "for every arithmetic with the stated error bounds; instances B64.rounded (IEEE binary64) and XR.rounded (exact)"
  },
  {
   "property": "C67",
   "status": "proved",
   "theorems": [
    "Girgs.Props.C67_rounded_threshold",
    "Girgs.Props.C67_double",
    "Girgs.Props.margin_bound",
    "Girgs.Props.surely_exact"
   ],
   "note": "release builds (debug builds also run the calls that release builds leave out)"
  },
  {
   "property": "C68",
   "status": "proved",
   "theorems": [
    "Girgs.Props.C68_undefined",
    "Girgs.Props.C68_missing_edge",
    "Girgs.Props.C68_returns"
   ],
   "note": "exact arithmetic; radii between 1/2 and 2/3 are neither claimed to work nor to fail"
  },
  {
   "property": "C69",
   "status": "proved",
   "theorems": [
    "Girgs.Props.C69_intsort",
    "Girgs.Props.C69_counting",
    "Girgs.Props.C69_scattering",
    "Girgs.Props.C69_accesses"
   ],
   "note": "per phase between the barriers; accesses within one phase to the plain arrays"
  },
  {
   "property": "C70",
   "status": "proved",
   "theorems": [
    "Girgs.Props.C70_index",
    "Girgs.Props.C70_hyper",
    "Girgs.Props.C70_accesses"
   ],
   "note": "the repair loop has a data race (finding)"
  },
  {
   "property": "C71",
   "status": "proved",
   "theorems": [
    "Girgs.Props.C71_flag",
    "Girgs.Props.C71_tasks",
    "Girgs.Props.C71_accesses"
   ],
   "note": "the unsynchronised test of the flag is a data race, also on the task list (finding)"
  },
  {
   "property": "C72",
   "status": "proved",
   "theorems": [
    "Girgs.Props.C72_constructor",
    "Girgs.Props.C72_run",
    "Girgs.Props.C72_aborts_iff",
    "Girgs.Props.C72_no_abort",
    "Girgs.Props.C72_counters",
    "Girgs.Props.C72_points_in_cell"
   ],
   "note": "exact arithmetic; the assertions of WeightScaling.cpp are in C91, those of the timers in C86"
  },
  {
   "property": "C73",
   "status": "proved",
   "theorems": [
    "Girgs.Props.C73_constructor",
    "Girgs.Props.C73_run",
    "Girgs.Props.C73_no_abort",
    "Girgs.Props.C73_call",
    "Girgs.Props.C73_shortcut_aborts",
    "Girgs.Props.C73_counters",
    "Girgs.Props.C73_runs_exist"
   ],
   "note": "exact arithmetic; C73_call covers the sampling calls of executions that hang (C44); the assertion of the timers is in C86"
  },
  {
   "property": "C74",
   "status": "proved",
   "theorems": [
    "Girgs.Props.C74_sandwich",
    "Girgs.Props.C74_monotone"
   ],
   "note": "exact arithmetic; sum of the weights below 2^29 k (so that the GIRG input is supported)"
  },
  {
   "property": "C75",
   "status": "proved",
   "theorems": [
    "Girgs.Props.C75_output",
    "Girgs.Props.C75_bounds",
    "Girgs.Props.C75_found",
    "Girgs.Props.C75_monotone",
    "Girgs.Props.C75_returns",
    "Girgs.Props.C75_settings",
    "Girgs.Props.C75_exits"
   ],
   "note": "exact arithmetic; real parameters (NaN passes the checks, C62); rows are related to the graphs under an explicit size condition on the points (SizeOk); text on the terminal only as the values printed"
  },
  {
   "property": "C76",
   "status": "proved",
   "theorems": [
    "Girgs.Props.C76_output",
    "Girgs.Props.C76_dense",
    "Girgs.Props.C76_returns",
    "Girgs.Props.C76_settings",
    "Girgs.Props.C76_exits"
   ],
   "note": "exact arithmetic; real alpha (NaN passes the checks, C62); containment statements under an explicit size condition on the points (SizeOk); lists of 2^31 and more edges excluded"
  },
  {
   "property": "C77",
   "status": "proved",
   "theorems": [
    "Girgs.Props.C77_counter",
    "Girgs.Props.C77_shared_id",
    "Girgs.Props.C77_counts",
    "Girgs.Props.C77_hyper_counts",
    "Girgs.Props.C77_girg",
    "Girgs.Props.C77_girg_returns",
    "Girgs.Props.C77_main",
    "Girgs.Props.C77_main_returns",
    "Girgs.Props.C77_hyper",
    "Girgs.Props.C77_hyper_returns"
   ],
   "note": "counting for every floating point type, the rest in exact arithmetic; edge numbers of bench_girg under an explicit size condition on the weights; measured times and main of bench_hyper (which skips sizes depending on them) are not modelled"
  },
  {
   "property": "C78",
   "status": "proved",
   "theorems": [
    "Girgs.Props.C78_smaller_team_hangs",
    "Girgs.Props.C78_full_team",
    "Girgs.Props.C78_hyper_never_returns",
    "Girgs.Props.C78_hyper_returns_iff",
    "Girgs.Props.C78_girg_any_team"
   ],
   "note": "the hang for every floating point type; C78_hyper_returns_iff and C78_girg_any_team in exact arithmetic"
  },
  {
   "property": "C79",
   "status": "proved",
   "theorems": [
    "Girgs.Props.C79_rounded_simple_graph",
    "Girgs.Props.C79_rounded_defined",
    "Girgs.Props.C79_rounded_coverage",
    "Girgs.Props.C79_levels",
    "Girgs.Props.C79_rounded_returns_iff",
    "Girgs.Props.C79_double",
    "Girgs.Props.C79_centre_undefined"
   ],
   "note": "for every arithmetic with the stated error bounds; instances B64.rounded/B64.elem (IEEE binary64) and XR.rounded/XR.elem (exact)"
  },
  {
   "property": "C80",
   "status": "proved",
   "theorems": [
    "Girgs.Props.C80_rounded_threshold",
    "Girgs.Props.C80_rounded_exact",
    "Girgs.Props.C80_double"
   ],
   "note": "for every arithmetic with the stated error bounds; instance IEEE binary64"
  },
  {
   "property": "C81",
   "status": "proved",
   "theorems": [
    "Girgs.Props.C81_sdeposit",
    "Girgs.Props.C81_bmi2",
    "Girgs.Props.C81_agree",
    "Girgs.Props.C81_out_of_range"
   ],
   "note": ""
  },
  {
   "property": "C82",
   "status": "proved",
   "theorems": [
    "Girgs.Props.C82_main",
    "Girgs.Props.C82_returns",
    "Girgs.Props.C82_sizes"
   ],
   "note": "the measured times are arbitrary values"
  },
  {
   "property": "C83",
   "status": "proved",
   "theorems": [
    "Girgs.Props.C83_undefined",
    "Girgs.Props.C83_genhrg",
    "Girgs.Props.C83_radius",
    "Girgs.Props.C83_bench",
    "Girgs.Props.C83_needs_timeout"
   ],
   "note": "exact arithmetic; for temperature 0 the radii between 42.6 and 44.2 are not covered"
  },
  {
   "property": "C84",
   "status": "proved",
   "theorems": [
    "Girgs.Props.C84_decisions",
    "Girgs.Props.C84_centre"
   ],
   "note": "exact arithmetic"
  },
  {
   "property": "C85",
   "status": "proved",
   "theorems": [
    "Girgs.Props.C85_positions",
    "Girgs.Props.C85_angles",
    "Girgs.Props.C85_radii",
    "Girgs.Props.C85_returns",
    "Girgs.Props.C85_hyperbolic",
    "Girgs.Props.C85_hyperbolic_graph",
    "Girgs.Props.C85_girg",
    "Girgs.Props.C85_double"
   ],
   "note": "weights: C88"
  },
  {
   "property": "C86",
   "status": "proved",
   "theorems": [
    "Girgs.Props.C86_restart",
    "Girgs.Props.C86_autostart",
    "Girgs.Props.C86_never",
    "Girgs.Props.C86_abort",
    "Girgs.Props.C86_lines",
    "Girgs.Props.C86_order",
    "Girgs.Props.C86_rounded"
   ],
   "note": ""
  },
  {
   "property": "C87",
   "status": "proved",
   "theorems": [
    "Girgs.Props.C87_off",
    "Girgs.Props.C87_spatialTree",
    "Girgs.Props.C87_hyperbolicTree",
    "Girgs.Props.C87_generate",
    "Girgs.Props.C87_benchGirg",
    "Girgs.Props.C87_benchHyper"
   ],
   "note": "the text form of the numbers is not modelled"
  },
  {
   "property": "C88",
   "status": "proved",
   "theorems": [
    "Girgs.Props.C88_range",
    "Girgs.Props.C88_graph",
    "Girgs.Props.C88_double"
   ],
   "note": "pow is assumed to have a relative error of at most 2^-51"
  },
  {
   "property": "C89",
   "status": "proved",
   "theorems": [
    "Girgs.Props.C89_counts",
    "Girgs.Props.C89_recursion",
    "Girgs.Props.C89_index",
    "Girgs.Props.C89_pairs",
    "Girgs.Props.C89_threshold",
    "Girgs.Props.C89_expected"
   ],
   "note": "exact arithmetic; work of the counting functions of Model/Work, which C89_counts ties to the sampling functions; sorting and node copies while the structure is built are not counted"
  },
  {
   "property": "C90",
   "status": "proved",
   "theorems": [
    "Girgs.Props.C90_counts",
    "Girgs.Props.C90_recursion",
    "Girgs.Props.C90_index",
    "Girgs.Props.C90_pairs",
    "Girgs.Props.C90_threshold",
    "Girgs.Props.C90_expected",
    "Girgs.Props.C90_radius",
    "Girgs.Props.C90_linear"
   ],
   "note": "exact arithmetic; work of the counting functions of Model/HyperWork, which C90_counts ties to the sampling functions; sorting, the search for the levels and the filter tables while the structure is built are not counted"
  },
  {
   "property": "C91",
   "status": "proved",
   "theorems": [
    "Girgs.Props.C91_feasible",
    "Girgs.Props.C91_infeasible",
    "Girgs.Props.C91_release",
    "Girgs.Props.C91_extreme"
   ],
   "note": "exact arithmetic"
  },
  {
   "property": "C92",
   "status": "proved",
   "theorems": [
    "Girgs.Props.C92_weights",
    "Girgs.Props.C92_positions",
    "Girgs.Props.C92_nodes",
    "Girgs.Props.C92_overlap",
    "Girgs.Props.C92_same_seed",
    "Girgs.Props.C92_radii",
    "Girgs.Props.C92_angles",
    "Girgs.Props.C92_polar",
    "Girgs.Props.C92_points"
   ],
   "note": "exact arithmetic, ideal engines"
  },
  {
   "property": "C93",
   "status": "proved",
   "theorems": [
    "Girgs.Props.C93_requested",
    "Girgs.Props.C93_expected",
    "Girgs.Props.C93_expected_threshold",
    "Girgs.Props.C93_positions",
    "Girgs.Props.C93_positions_threshold"
   ],
   "note": "exact arithmetic, ideal engines"
  },
  {
   "property": "C94",
   "status": "proved",
   "theorems": [
    "Girgs.Props.C94_requested_threshold",
    "Girgs.Props.C94_requested",
    "Girgs.Props.C94_threshold",
    "Girgs.Props.C94_expected",
    "Girgs.Props.C94_points"
   ],
   "note": "exact arithmetic, ideal engines; temperatures between 0 and 2^-52 are not covered (see C46)"
  },
  {
   "property": "C95",
   "status": "proved",
   "theorems": [
    "Girgs.Props.C95_proportional",
    "Girgs.Props.C95_threshold",
    "Girgs.Props.C95_expected",
    "Girgs.Props.C95_positions",
    "Girgs.Props.C95_positions_threshold"
   ],
   "note": "exact arithmetic, ideal engines"
  },
  {
   "property": "C96",
   "status": "proved",
   "theorems": [
    "Girgs.Props.C96_threshold",
    "Girgs.Props.C96_expected",
    "Girgs.Props.C96_points"
   ],
   "note": "exact arithmetic, ideal engines; temperatures between 0 and 2^-52 are not covered (see C46)"
  },
  {
   "property": "C97",
   "status": "proved",
   "theorems": [
    "Girgs.Props.C97_positions",
    "Girgs.Props.C97_points"
   ],
   "note": "exact arithmetic, ideal random numbers; alpha = infinity and T = 0 are deterministic for fixed positions (C18, C45)"
  },
  {
   "property": "C98",
   "status": "proved",
   "theorems": [
    "Girgs.Props.C98_threshold",
    "Girgs.Props.C98_alpha"
   ],
   "note": "exact arithmetic, ideal engines; probabilities over the random positions as upper integrals"
  },
  {
   "property": "C99",
   "status": "proved",
   "theorems": [
    "Girgs.Props.C99_threshold",
    "Girgs.Props.C99_expected"
   ],
   "note": "exact arithmetic, ideal engines; for T > 0 probabilities over the random points as upper integrals"
  },
  {
   "property": "C100",
   "status": "proved",
   "theorems": [
    "Girgs.Props.C100_upper",
    "Girgs.Props.C100_lower"
   ],
   "note": "exact arithmetic, ideal engines; the constants are explicit but not sharp; probabilities over the random nodes as upper integral (upper bound) and lower integral (lower bound)"
  },
  {
   "property": "C101",
   "status": "proved",
   "theorems": [
    "Girgs.Props.C101_threshold",
    "Girgs.Props.C101_expected"
   ],
   "note": "exact arithmetic, ideal engines; the constants are explicit but not sharp; probabilities over the random points as upper integral (upper bound) and lower integral (lower bound)"
  },
  {
   "property": "C102",
   "status": "proved",
   "theorems": [
    "Girgs.Props.C102_probabilities",
    "Girgs.Props.C102_clustering"
   ],
   "note": "exact arithmetic, ideal engines; probabilities over the random positions as upper integral (two edges) and lower integral (triangle); fixed weights"
  },
  {
   "property": "C103",
   "status": "proved",
   "theorems": [
    "Girgs.Props.C103_threshold",
    "Girgs.Props.C103_expected"
   ],
   "note": "exact arithmetic, ideal engines; for T > 0 probabilities over the random points as upper integral (two edges) and lower integral (triangle)"
  },
  {
   "property": "C104",
   "status": "proved",
   "theorems": [
    "Girgs.Props.C104_girg",
    "Girgs.Props.C104_hyper"
   ],
   "note": "exact arithmetic, ideal random numbers"
  },
  {
   "property": "C105",
   "status": "proved",
   "theorems": [
    "Girgs.Props.C105_threshold",
    "Girgs.Props.C105_alpha",
    "Girgs.Props.C105_requested"
   ],
   "note": "exact arithmetic, ideal engines; probabilities over the random positions as upper integrals; fixed weights"
  },
  {
   "property": "C106",
   "status": "proved",
   "theorems": [
    "Girgs.Props.C106_threshold",
    "Girgs.Props.C106_expected",
    "Girgs.Props.C106_requested_threshold",
    "Girgs.Props.C106_requested"
   ],
   "note": "exact arithmetic, ideal engines; probabilities over the random points as (upper) integrals"
  },
  {
   "property": "C107",
   "status": "proved",
   "theorems": [
    "Girgs.Props.C107_contains",
    "Girgs.Props.C107_double",
    "Girgs.Props.C107_exact"
   ],
   "note": "rounding as in C67; quotients and powers of numbers that are at least 1 are assumed not to be rounded below 1 (RoundedAbove), proved for binary64 with correctly rounded pow"
  },
  {
   "property": "C108",
   "status": "proved",
   "theorems": [
    "Girgs.Props.C108_all_threshold",
    "Girgs.Props.C108_all_alpha",
    "Girgs.Props.C108_max_girg",
    "Girgs.Props.C108_max_threshold",
    "Girgs.Props.C108_max_expected"
   ],
   "note": "exact arithmetic, ideal engines; union bounds over the nodes with the bounds of C98, C100, C99 and C101; the lower bound on the maximum degree of hyperbolic random graphs from the independence of the radii; no lower bound on the maximum degree of GIRGs"
  },
  {
   "property": "C109",
   "status": "proved",
   "theorems": [
    "Girgs.Props.C109_threshold",
    "Girgs.Props.C109_degree_threshold",
    "Girgs.Props.C109_alpha",
    "Girgs.Props.C109_hyper_threshold",
    "Girgs.Props.C109_hyper_probability",
    "Girgs.Props.C109_hyper_expected"
   ],
   "note": "exact arithmetic, ideal engines; exact laws for alpha = infinity and T = 0; for finite alpha and for positive temperatures (with 2 T log 99 <= R) bounds with an error of 10^-6 per factor, since pairs with connection probability below 10^-6 may be skipped"
  },
  {
   "property": "C110",
   "status": "proved",
   "theorems": [
    "Girgs.Props.C110_threshold",
    "Girgs.Props.C110_renamed",
    "Girgs.Props.C110_hyper",
    "Girgs.Props.C110_alpha",
    "Girgs.Props.C110_temperature"
   ],
   "note": "exact arithmetic, ideal engines; equal laws for alpha = infinity and temperature 0, up to 10^-6 per pair of chosen nodes and run for finite alpha and positive temperature (pairs with connection probability below 10^-6 may be skipped, depending on names)"
  },
  {
   "property": "C111",
   "status": "proved",
   "theorems": [
    "Girgs.Props.C111_girg",
    "Girgs.Props.C111_hyper"
   ],
   "note": "exact arithmetic, ideal random numbers; alpha = infinity and T = 0 are C18, C45"
  },
  {
   "property": "C112",
   "status": "proved",
   "theorems": [
    "Girgs.Props.C112_threshold",
    "Girgs.Props.C112_alpha",
    "Girgs.Props.C112_hyper",
    "Girgs.Props.C112_hyper_expected"
   ],
   "note": "exact arithmetic, ideal engines; for finite alpha and positive temperatures the expectation is the mean over the points of the sum of the probabilities of the nodes, with an error of 10^-6 per factor, since pairs with connection probability below 10^-6 may be skipped"
  },
  {
   "property": "C113",
   "status": "proved",
   "theorems": [
    "Girgs.Props.C113_threshold",
    "Girgs.Props.C113_hyper"
   ],
   "note": "exact arithmetic, ideal engines; alpha = infinity and temperature 0; the bound is of the order of n for bounded expected degrees, and useful when the sum of the squares of the expected degrees is small against n^2"
  },
  {
   "property": "C114",
   "status": "proved",
   "theorems": [
    "Girgs.Props.C114_threshold",
    "Girgs.Props.C114_hyper",
    "Girgs.Props.C114_components"
   ],
   "note": "exact arithmetic, ideal engines; alpha = infinity and temperature 0; the bound is of the order of n for bounded expected degrees, and useful when the sum of the squares of the expected degrees is small against n^2"
  }
 ]
}