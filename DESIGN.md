# Formal model of chistopher/girgs in Lean 4 — design

The table at the end is generated by `tools/design.py` from `properties.jsonl` and `MANIFEST.json`.

## Layout

* `lean/Verif/Base/` – machine integers and undefined behaviour (`Machine`), abstract floating point (`CFloat`), exact extended reals (`XR`), interleavings.
* `lean/Verif/Model/` – the model, function by function; every definition cites the file and lines in /repo it models and says where it simplifies.
* `lean/Verif/Spec/` – small specifications that do not mention the model: Morton interleaving, cell tree, torus metric, hyperbolic distance, graph of a
  relation, stable sorting, merging, random graph laws, expected degrees, text formats, command lines.
* `lean/Verif/Proofs/` – helper lemmas.
* `lean/Verif/Props/` – the property theorems (one file per topic), each followed by concrete instances that meet the hypotheses.
* `seeded/LOG.jsonl` – experiments with wrong programs (edited definition, edit, broken claim, theorems that failed, theorems tightened).

## Modelling decisions

* **Undefined behaviour is an outcome.** Functions that can shift too far, index out of range, convert an unrepresentable double or overflow an `int`
  return `Option`; `none` means undefined behaviour or a failed assertion. That a result is `some _` is a safety theorem.
* **Integers.** `unsigned`/`uint32_t` arithmetic wraps modulo 2^32; bit manipulation is on `BitVec 32/64`. `size_t` is unbounded except where the code
  depends on wrapping (type II counter, `num_terms`); the theorems carry the corresponding size conditions.
* **Floating point.** The model is generic in a type `F` with the operations of `double` (`CFloat F`, no axioms about the operations). Theorems stated for
  every `F` therefore hold for IEEE doubles with any rounding: this covers the combinatorial statements (which pairs are examined, simple graph, edge buffer,
  task queue, reproducibility, accuracy of searches at the returned value, command line). Theorems about numerical content use `F = XR`: real numbers with
  IEEE-style infinities and NaN but no rounding. Numeric theorems are statements about exact arithmetic unless they say otherwise.
* **Rounding** is modelled for `generateEdges` of girgs (C66, C67, C107) and of hypergirgs (C79, C80): `Spec/Rounding.lean` lists the error bounds of an arithmetic (`Rounded F u lam`), and
  `Base/B64.lean` defines IEEE binary64 (round to nearest, ties to even, subnormals, overflow) as a `CFloat`; `B64.rounded` proves that it has the bounds
  `u = 2^-53`, `lam = 2^-43`. In `B64` the C library functions are correctly rounded (trusted; C67 needs only `log2` with the bounds of `Rounded`; C107 also a `pow` that does not round powers of numbers above 1 below 1, `RoundedAbove`; C79 and C80 need
  `cosh`, `sinh`, `acosh`, `exp`, `cos`, `sin` with the bounds of `RoundedElem` in `Spec/HRounding.lean`) and there is a single zero. For all other numeric properties rounding is not modelled.
* **Random numbers.** Engines and distributions are arbitrary state machines; theorems quantify over all of them (with the ranges the C++ standard
  guarantees where needed: `UnitRng`, `IntervalEngine`, `GeoBounded`). The distribution theorems (C20, C21, C26_law, C61, C89, C90, C92, C93, C94, C95, C96, C97, C98, C99, C100, C101, C102, C103, C104, C105, C106, C108, C109, C110, C111, C112, C113, C114) use ideal random numbers (`IdealRng`, `IdealEngine`;
  independent engines of different threads are a hypothesis, as is `IndependentStates` for the seeds): `PMF` and measures from Mathlib.
* **Concurrency.** Threads are step-wise programs; an execution is any interleaving of their steps. Memory is sequentially consistent. Data races (C69-C71) are pairs of
  adjacent conflicting steps in such an execution, or (C71) conflicting events not ordered by happens-before; the accesses declared for a step are proved to be those it makes. OpenMP's
  `schedule(static)` is an arbitrary partition of the iterations into one chunk per thread; reductions combine private copies in any order.
* **Executions are relations.** `GenerateEdges env rng gens weights positions alpha out notice` and similar propositions say "some execution returns `out`"; a theorem
  `∀ out, … → …` therefore speaks about every schedule, and existence of an execution is proved separately (so that the statements are not vacuous).

## What is modelled

| file in /repo/source | model |
|---|---|
| girgs/include/girgs/BitManipulation*.{h,inl} | Model/BitManipulation (all; BMI2 intrinsics by their specification) |
| girgs/…/SpatialTreeCoordinateHelper.{h,inl} | Model/CoordHelper (all) |
| girgs/…/Node.h, Helper.h | Model/Node (all) |
| girgs/…/IntSort.h, hypergirgs/…/IntSort.h | Model/IntSort (all for `Key = unsigned`, 8 bit radix, trivially copyable elements) |
| girgs/…/WeightLayer.h | Model/WeightLayer (all) |
| girgs/…/SpatialTree.{h,inl} | Model/{SpatialTree, BuildPartition, GenerateEdges, Asserts} (timers: Model/Timer; counted work: Model/Work) |
| girgs/…/ScopedTimer.h, hypergirgs/…/ScopedTimer.h | Model/Timer (all) |
| girgs/source/Generator.cpp | Model/{Samplers, WeightScaling, Generator, EdgeBuffer, Output} (all) |
| girgs/source/WeightScaling.cpp | Model/{WeightScaling, ScalingAborts} (all) |
| girgs/…/Hyperbolic.h | Model/Radius (all) |
| hypergirgs/…/AngleHelper.{h,cpp} | Model/AngleHelper (all) |
| hypergirgs/…/Point.h, DistanceFilter.h | Model/HPoint (all) |
| hypergirgs/…/RadiusLayer.{h,cpp} | Model/{RadiusLayer, HyperBuild} (all) |
| hypergirgs/…/HyperbolicTree.{h,inl} | Model/{HyperTree, HyperBuild, HyperGenerate, HAsserts} (timers: Model/Timer; counted work: Model/HyperWork) |
| hypergirgs/source/Generator.cpp | Model/{Radius, Samplers, HyperGenerate, EdgeBuffer} (all) |
| cli/gengirg/main.cpp, cli/genhrg/main.cpp | Model/{Cli, Tools, Output} (parameters, checks, calls, files; not the text on the terminal) |
| examples/inclusion_single, inclusion_range | Model/{Examples, Inclusion} (all except the progress messages on `clog`) |
| examples/bench_girg, bench_hyper | Model/{Bench, BenchHyper, Timer} (all except the messages) |
| benchmarks/bmi-benchmarks | Model/BmiBench (the deposit functions, not the timing loop) |
| benchmarks/math-benchmarks | Model/MathBench (the two edge decisions, not the timing loops) |

Not modelled: source/benchmarks except the deposit functions and the edge decisions, tests, CMake; terminal output except the profiling lines; write errors after a file was opened; exceptions for lack of memory; the C++
weak memory model (what a program with a data race may do); rounding errors except in C66, C67, C79, C80, C85, C86, C88 and C107; the contents of `std::mt19937_64`/distributions beyond the interfaces above.

## Trusted base

* Lean's kernel (4.33.0) and Mathlib as installed.
* Axioms: every claimed theorem depends on at most `propext`, `Classical.choice` and `Quot.sound` (checked with `#print axioms` for all of them; a few need only
  `propext` and `Quot.sound`: C03_range_needed, C24_mutual_exclusion, C34_layout, C52_accuracy, C56_reverse, or only `propext`: C56_counts, C56_unify). No other axioms, no compiled
  evaluation.
* The reading of the C++ sources documented in the comments of `Model/`, and the specifications in `Spec/`.

## Findings about the code (all proved on the model, witnesses in `Props/`)

* `intsort` with `max_key = 2^k`, `k ≥ 8`, and a key equal to `max_key`: out of bounds access although documented as allowed (C11).
* `hypergirgs::generateEdges` with at least two threads never returns when the recursion is not deeper than the parallel start level, e.g. for every `R ≤ 2` (C44).
* The distance filter changes sampling decisions if `R < 2 T ln 99` (cosh of a negative distance in the table; C46).
* Cell pairs with an expected number of type II edges below 1e-6 are skipped, so some pairs are never connected (C21, C61).
* The degree estimators subtract self pairs with an off-by-one, underestimating by less than 1/n (C31, C58); `scaleWeights` never returns for desired degrees ≤ 0 or > n-1 (C59).
* A debug build of `scaleWeights` aborts (WeightScaling.cpp:56) for desired degrees above n-1, where the release build hangs, and for feasible degrees if the weights spread over more than hundreds of binary orders of magnitude (C91).
* Generator.h asks for a weight seed that differs from the position seed. With several threads that is not enough: thread t uses seed + t, so seeds that differ by less than the number of threads reuse random numbers, and weights are functions of coordinates (C92). The defaults of gengirg (12 and 130) are affected for 119 threads and 1190000 nodes or more.
* `LazySorter` returns wrong positions for subnormal weights because `m_lower` starts at `DBL_MIN` (C30).
* The debug assertion `dist_lower_bound > w_upper_bound` can fire on valid input (C57); it is the only one of the GIRG sampler that can (C72). In the hyperbolic sampler the assertion behind the acceptance shortcut (HyperbolicTree.inl:331) fires for `R < 2 T ln 99`, and the assertions about `R ≥ 1` and radii below `R` reject inputs the release build handles (C73).
* `hypergirgs::generateEdges` never returns if OpenMP provides fewer threads than `omp_get_max_threads()`, for example when it is called inside a parallel region (C78).
* `hypergirgs::generateEdges` is undefined for disk radii from 41.34 on (C83): there are more than 2^31 cells, which are numbered with an `int` in `RadiusLayer::buildPartition`, or
  `1 << level` overflows. genhrg accepts such parameters (`-n 50000000 -alpha 0.6 -t 0.9`), and bench_hyper reaches them unless it is slow. The other theorems assume R <= 41.25.
* In a disk of integral radius, `hypergirgs::generateEdges` reads `level_of_layer` out of bounds for a point with a positive radius of at most 2^-55: `R - radius` is rounded to `R` (C79).
* The level computed by `partitioningBaseLevel` for two layers depends on the order of the layers if a comparison is decided by rounding (`(v*sinh(r1))*sinh(r2)` is not symmetric); C79 needs that it does not (`SymmetricLevels`, which follows from `ClearLevels`).
* A point of radius 0 yields NaN and never gets an edge (C37_origin).
* `sampleRadii`/`sampleAngles` with n = 0 and parallel = true request 0 threads / divide by zero (C50).
* genhrg accepts `alpha = 0.5` and then uses an infinite radius (C51_half); `calculateRadius` overflows `int` for n ≥ 2^30 (C51_overflow);
  `calculateRadiusLikeNetworKit` hangs in release builds for dense targets (C52_dense_hangs) and aborts in debug builds.
* NaN passes every range check of the command line tools (C55).
* `generateWeights` returns weights below 1 for n = 1 (C26_single_node).
* `saveDot` with fewer positions than weights reads out of bounds (C35).
* `HyperbolicTree` does not support small disks: for `1 < R < 4/3` every run with a point in the middle level is undefined, for `R ≤ 1/2` edges are missing (C68).
* Data races in the sense of C++: the unsynchronised read of `tasks_generated` (HyperbolicTree.inl:127) races with its write, and a thread that takes this way reads the task list in a
  race with its creation (C71); the loops that fill the gaps of the cell index read the first entry of the next thread's chunk while it is written (C70). Both are harmless under
  sequential consistency (C12, C43).
* `inclusion_range` hangs (inside `scaleWeights`) if the average degree h of the drawn graph exceeds 1/2 and 3h/2 > n-1: the search starts above the largest possible degree (C76_dense).

Properties whose first formulation turned out to be false of the code were restated with the exact condition, and the failing case is proved as a theorem of its own
(C11, C21, C31, C44, C46, C50, C51, C52, C55, C57).

## Properties, models and proofs

Statements are in `properties.jsonl`; theorems are in `lean/Verif/Props/`.

| id | property | modelled | proof | status: theorems |
|---|---|---|---|---|
| C01 | Morton coding is bit interleaving | `BitManipulation` generic code on `BitVec 32` | OR-linearity of deposit/extract, complete table over single bits for each D, then extensionality over bits | proved: `C01_deposit_is_interleaving`, `C01_extract_is_deinterleaving`  |
| C02 | Morton round trip | same | bit specification of C01 composed with itself | proved: `C02_extract_deposit`, `C02_deposit_extract`  |
| C03 | BMI2 and generic builds agree | `_pdep_u32`/`_pext_u32` by their Intel pseudo code | bit specification of both; `C03_range_needed` shows that the range condition matters | proved: `C03_bmi2_agrees`, `C03_range_needed`  |
| C04 | Cell numbering is a complete 2^D-ary tree | `SpatialTreeCoordinateHelper` with 32 bit wrap-around | geometric sums, base 2^D digits | proved: `C04_levels_tile`, `C04_firstCellOfLevel`, `C04_children`, `C04_cellOfLevel`, `C04_level_exists_unique`, `C04_assertLower_portable`  |
| C05 | A point lies in the cell cellForPoint assigns to it, on all levels consistently | `cellForPoint`, `bounds` | floor arithmetic on exact reals; nestedness by the Morton bit specification | proved: `C05_point_in_cell`, `C05_nesting` — exact arithmetic |
| C06 | touching decides geometric adjacency on the torus | `touching` | case analysis modulo 2^l; periodic boxes on the torus | proved: `C06_touching_iff`, `C06_refl_symm`, `C06_children_of_nontouching`  |
| C07 | Cell distance is a tight lower bound of point distance | `dist` | interval arithmetic on the torus | proved: `C07_cell_distance` — exact arithmetic |
| C08 | Node::distance is the torus max-norm metric | `Node::distance` | induction over the dimensions | proved: `C08_distance_formula`, `C08_torus_metric` — exact arithmetic |
| C09 | pow_to_the<D> is the D-th power | `pow_to_the` | induction on D | proved: `C09_pow_to_the` — exact arithmetic |
| C10 | intsort sorts, stably, and independently of the thread count | `IntSortImpl` with counters, queue pointers, scatter writes, MSD and LSD passes | counting-sort lemma, commuting disjoint writes, invariant over all schedules, stable LSD induction | proved: `C10_intsort`, `C10_thread_independent`, `C10_keys_below_max` — every interleaving of scatter writes and every schedule of bucket sorts; vectors up to 2^34 elements |
| C11 | intsort accepts keys up to and including max_key, exactly unless max_key is a power of two from 256 on | same | exact characterisation of the out of bounds access | proved: `C11_contract`, `C11_contract_violated`, `C11_exact` — the contract as documented is false; the exact condition is proved |
| C12 | The cell index built by the parallel preprocessing is the exact prefix sum, under every schedule | `buildPartition` incl. marking and gap repair, interleaved step by step | invariant over all interleavings | proved: `C12_index`, `C12_constructed` — every order of the marking writes and every interleaving of the gap repair loops; constructed structures over exact arithmetic |
| C13 | A weight layer hands out exactly the nodes of its layer in the queried cell | `WeightLayer` | prefix sums of sorted cell numbers | proved: `C13_layers_hand_out` — exact arithmetic, SupportedInput |
| C14 | Layers and comparison levels are chosen soundly | constructor of `SpatialTree` | real logarithms against truncating division | proved: `C14_layers`, `C14_comparison_levels` — exact arithmetic, SupportedInput |
| C15 | Every node pair is examined exactly once (sequential) | `visitCellPair`, `sampleTypeI`, `sampleTypeII` | induction over the recursion; every pair of cells has a unique covering call | proved: `C15_sequential`, `C15_any_float`, `C15_release_threshold` — exact arithmetic for SupportedInput, and every float type under InputOK; a release build with alpha=infinity makes exactly the type I calls |
| C16 | Every node pair is examined exactly once (parallel) | `visitCellPair_sequentialStart`, `visitCellPairSample` | permutation equality of call lists, induction over levels | proved: `C16_same_calls`, `C16_start_level`, `C16_parallel`, `C16_call` — every start level with D*level<=31, every distribution of iterations to threads, up to 2^23 threads |
| C17 | generateEdges returns a simple graph | `girgs::generateEdges` end to end | C15/C16 + C22 + C24 | proved: `C17_simple_graph`, `C17_any_float` — assumes geometric samples below 2^63 |
| C18 | Threshold model is exact | same | C17 + geometry of non-touching cells | proved: `C18_threshold_exact` — exact arithmetic, every supported input, every execution of generateEdges; both build types |
| C19 | The type II acceptance bound dominates every true edge probability | type II bound | monotonicity of real powers | proved: `C19_bound_dominates` — bound in (0,1]; equality with 1 is possible (C57) and is then redirected to type I |
| C20 | Geometric skipping is Bernoulli sampling | type II loop with ideal random numbers (`PMF`/measure) | memorylessness, induction on N | proved: `C20_skipping_is_bernoulli` — the law of the selected edges of one type II call, for every cell pair and every layer pair |
| C21 | Each pair becomes an edge independently with the documented probability (negligible pairs excepted) | whole call with independent ideal generators per thread | product measures; union of independent calls over a partition of the pairs | proved: `C21_distribution`, `C21_skipped_pair` — the full joint law of the returned graph; the exception (cell pairs with expected < 1e-6 are skipped) is part of the statement and shown to be real |
| C22 | The r-th pair decoding enumerates the product without repetition | type II loop | strict monotonicity of r, divMod bijection | proved: `C22_decoding`, `C22_loop` — assumes geometric samples below 2^63 (no wrap of the 64 bit counter) |
| C23 | alpha = 0 yields the complete graph | as C17 | type II bound is 1, type I accepts | proved: `C23_complete_graph` — uniform random numbers are assumed to be below 1 |
| C24 | Edge buffering loses and duplicates nothing under concurrency | `addEdge`/`flush` as a transition system | inductive invariant over all interleavings, progress | proved: `C24_nothing_lost`, `C24_mutual_exclusion`, `C24_no_deadlock` — all interleavings at the granularity push/lock/append one edge/unlock/clear |
| C25 | Reproducibility for fixed seed and thread count | seeding + C24 | permutation argument; blocks below the flush size keep thread order | proved: `C25_reproducible`, `C25_same_list`, `C25_seeds`  |
| C26 | generateWeights returns n weights in [1, n/2] with a truncated power law | `generateWeights`, OpenMP static loop | writes of distinct cells commute; monotone power; inverse distribution function | proved: `C26_executions`, `C26_range`, `C26_law`, `C26_single_node` — executions for every float type, any schedule and engine; range and law over exact arithmetic |
| C27 | generatePositions returns n points of [0,1)^d | `generatePositions` | as C26 | proved: `C27_executions`, `C27_range` — executions for every float type; range over exact arithmetic |
| C28 | scaleWeights multiplies every weight by the returned factor, or rejects alpha | `scaleWeights` | case analysis, map over the list | proved: `C28_unchanged`, `C28_multiplies`, `C28_rejects_iff`, `C28_estimator`  |
| C29 | The degree search meets its accuracy when it returns | `exponentialSearch` | loop invariant, continuity, bisection | proved: `C29_accuracy`, `C29_bracket`, `C29_returns`, `C29_diverges` — accuracy for every float type; bracket, termination and divergence over exact arithmetic |
| C30 | LazySorter returns the elements above a threshold in descending order, for every query sequence | `LazySorter` | invariant over all query sequences | proved: `C30_queries`, `C30_stable`, `C30_total`, `C30_subnormal_wrong` — every float type whose comparisons are those of extended real values; the restriction to normal doubles is shown to be necessary |
| C31 | The threshold degree estimator is the expected average degree, up to less than 1/n | `estimateWeightScalingThreshold` incl. parallel reduction | two-pointer scan = count; expected degree as an integral over the torus | proved: `C31_estimate`, `C31_exact`, `C31_debug`, `C31_not_exact` — exact arithmetic; the original claim (equality) is false, witness C31_not_exact |
| C32 | Scaling weights realises the constant c | — | real algebra over the documented rules | proved: `C32_scaled_threshold`, `C32_scaled_girg`, `C32_threshold`, `C32_girg` — exact arithmetic |
| C33 | Unsupported dimensions produce no edges | dispatch of `generateEdges` | case split | proved: `C33_unsupported`, `C33_dispatch`  |
| C34 | Edge list files can be read back | edge list writers | decimal print/parse round trip | proved: `C34_round_trip`, `C34_injective`, `C34_layout`  |
| C35 | saveDot writes every node and every edge exactly once | `saveDot` | token level reader, round trip | proved: `C35_round_trip`, `C35_errors`, `C35_accuracy` — structure for every way of printing numbers that prints no separator characters; accuracy for correctly rounded printing |
| C36 | Circular cell numbering of hypergirgs | `AngleHelper` | as C04-C07 for D=1 on the circle | proved: `C36_tree`, `C36_cellForPoint`, `C36_touching`, `C36_dist` — cellForPoint and dist over exact arithmetic |
| C37 | The precomputed point form decides the hyperbolic distance | `Point` | hyperbolic law of cosines | proved: `C37_distance`, `C37_metric`, `C37_origin` — exact arithmetic; a point of radius 0 yields NaN and never satisfies isDistanceBelowR (C37_origin) |
| C38 | Hyperbolic comparison levels are sound and found in finite time | `partitioningBaseLevel` as a loop | monotonicity in angle and radius; halving | proved: `C38_terminates`, `C38_sound` — exact arithmetic |
| C39 | Radius layers hand out exactly the points of their layer in the queried cell | `RadiusLayer::buildPartition` | as C12/C13 | proved: `C39_layers_hand_out` — exact arithmetic, HypInput |
| C40 | Hyperbolic sampler examines every pair exactly once (sequential) | recursion of `HyperbolicTree` | as C15 | proved: `C40_sequential`, `C40_release_threshold` — exact arithmetic, HypInput; a release build with T=0 makes exactly the type I calls |
| C41 | Hyperbolic sampler examines every pair exactly once (parallel) | round robin share and tasks | as C16 | proved: `C41_same_calls`, `C41_parallel` — every start level 1..31, any number of workers |
| C42 | The number of parallel tasks is exactly as precomputed | `visitCellPairCreateTasks` | closed form by induction over levels | proved: `C42_task_count` — 2 to 2^25 threads |
| C43 | The task queue processes every task exactly once under every interleaving | task queue as transition system | invariant over all interleavings, incl. spurious wake-ups | proved: `C43_each_task_once` — all interleavings of the steps listed in Model/HyperGenerate.lean, sequentially consistent memory |
| C44 | hypergirgs::generateEdges returns iff the recursion is deeper than the parallel start level, or there is one thread | same | ranking function under fairness; stuck state when no task list is created | proved: `C44_fair_terminates`, `C44_hang`, `C44_returns_iff`, `C44_small_disk_hangs` — the original claim (always terminates) is false; the exact condition is proved |
| C45 | Hyperbolic threshold model is exact | `hypergirgs::generateEdges` end to end | C41 + C38 + C37 | proved: `C45_threshold_exact` — exact arithmetic, HypInput, every execution, both build types |
| C46 | The distance filter never changes a sampling decision, exactly when 2*T*ln(99) <= R | `DistanceFilter` tables | monotonicity of the table, exact condition for negative distances | proved: `C46_exact_iff`, `C46_type_two` — exact arithmetic; the condition 2 T ln 99 <= R is necessary and sufficient |
| C47 | Hyperbolic type II bound dominates every true connection probability | type II bound | angle lower bounds from the number of cells between | proved: `C47_bound_dominates` — exact arithmetic, HypInput |
| C48 | Hyperbolic sampling is schedule independent | generators per share/task | permutation argument over schedules | proved: `C48_reproducible`, `C48_seeds`  |
| C49 | hypergirgs::generateEdges returns a simple graph | as C45 | as C17 | proved: `C49_simple_graph`, `C49_defined`  |
| C50 | sampleRadii and sampleAngles return n values in range | `sampleHelper` | as C26; monotone inverse | proved: `C50_executions`, `C50_empty_undefined`, `C50_range` — the original claim (total for n=0) is false with parallel=true, witness C50_empty_undefined |
| C51 | calculateRadius inverts the degree formula | `calculateRadius` | real analysis | proved: `C51_inverts`, `C51_monotone`, `C51_positive`, `C51_half`, `C51_overflow` — exact arithmetic; alpha = 1/2 gives an infinite radius, n >= 2^30 overflows |
| C52 | NetworKit radius search meets its accuracy when it returns | `searchTargetRadiusForColdGraphs`, `getExpectedDegree` | loop invariants, intermediate values, bounds on the degree function | proved: `C52_accuracy`, `C52_bracket`, `C52_returns`, `C52_debug`, `C52_hang`, `C52_cold`, `C52_zero`, `C52_dense_hangs` — accuracy for every float type, the rest exact arithmetic; a release build hangs on dense targets |
| C53 | HRG/GIRG parameter conversion round trips | `Hyperbolic.h` | log/exp algebra | proved: `C53_radius`, `C53_weight`, `C53_weight_range`, `C53_angle` — exact arithmetic |
| C54 | Command line parsing keeps the last value of every option | `parseArgs` | list recursion against a positional specification | proved: `C54_value`, `C54_absent`  |
| C55 | Range checks accept exactly the documented interval | `rangeCheck` | case analysis on extended reals | proved: `C55_real`, `C55_alpha`, `C55_special`, `C55_int` — NaN passes every check (C55_special) |
| C56 | edge_diff computes both graph differences | `edge_diff` etc. | merge induction on sorted lists, multisets | proved: `C56_multisets`, `C56_edges`, `C56_counts`, `C56_reverse`, `C56_reverse_large`, `C56_unify`  |
| C57 | The type II bounds are ordered, and the strict debug assertion on them can fire | type II bounds | inequality + concrete witness | proved: `C57_weak_bound`, `C57_assertion_can_fire` — settled negatively: the assertion can fire (witness with 16 unit weights); it holds with >= instead of > |
| C58 | The general degree estimator is the expected average degree, up to less than 1/n | `estimateWeightScaling` | as C31 with the integral of the finite-alpha probability | proved: `C58_estimate`, `C58_debug` — exact arithmetic |
| C59 | scaleWeights achieves the desired expected average degree, and returns exactly for feasible degrees | `scaleWeights` end to end | C29 + C31 + C58 | proved: `C59_returns_iff`, `C59_degree`, `C59_factor` — exact arithmetic |
| C60 | Coordinate files of genhrg can be read back | coordinate writer | decimal round trip with rounding error | proved: `C60_round_trip` — correctly rounded fixed printing; a printer with this property exists (exactPrinter_rounded) |
| C61 | hypergirgs::generateEdges samples the hyperbolic random graph model | whole hyperbolic call with ideal generators | as C21; a pair of opposite points that is never connected shows that the exception is real | proved: `C61_distribution`, `C61_skipped_pair` — the full joint law of the returned graph; one thread or a start level for which the call returns; the exception (cell pairs with expected < 1e-6 are skipped) is part of the statement and shown to be real |
| C62 | Parameters and exits of the command line tools | `main` of both tools | C54, C55 | proved: `C62_hrg_settings`, `C62_girg_settings`, `C62_hrg_ranges`, `C62_girg_ranges`, `C62_hrg_exits`, `C62_girg_exits` — settings and exits for every float type; ranges over exact arithmetic |
| C63 | genhrg from command line to files | `main` of genhrg | composition of C45, C49, C50, C51, C60, C34 | proved: `C63_output`, `C63_radius`, `C63_returns_iff` — exact arithmetic; real parameters (NaN passes the checks, C62), estimated radius between 4/3 (automatic without -nkr) and 41.25; a run may hang with several threads, C63_returns_iff says when |
| C64 | gengirg from command line to files | `main` of gengirg | composition of C17, C18, C26, C27, C34, C35, C59 | proved: `C64_output`, `C64_exception`, `C64_nan`, `C64_returns_iff` — exact arithmetic; real ple and deg (NaN passes the checks, C62); the graph is described if the drawn weights satisfy an explicit size condition, automatic for small n (size_small); C64_returns_iff for release builds |
| C65 | Same command line and non-negative seeds: same files | `main` of both tools | composition of C25, C48, C26, C27, C50 | proved: `C65_hrg`, `C65_girg` — exact arithmetic; in floating point the order of the OpenMP reductions in scaleWeights could change the scaling factor with several threads |
| C66 | Rounding cannot break the sampler: always a simple graph | constructor and recursion with rounding | error analysis of the header; exact scaling by powers of two; C15, C17 for any float type | proved: `C66_rounded_simple_graph`, `C66_rounded_coverage` — for every arithmetic with the stated error bounds; instances B64.rounded (IEEE binary64) and XR.rounded (exact) |
| C67 | Threshold graphs are correct up to rounding | threshold sampler with rounding | error analysis of both sides of the rule and of the level bounds; release build makes type I calls only | proved: `C67_rounded_threshold`, `C67_double`, `margin_bound`, `surely_exact` — release builds (debug builds also run the calls that release builds leave out) |
| C68 | Disk radii hypergirgs does not support | constructor and sampler for disks of radius below 4/3 | levels computed exactly in the two cases; (a) the fold over layer pairs fails, (b) edges come from type I calls only, and cells of opposite quarters do not touch | proved: `C68_undefined`, `C68_missing_edge`, `C68_returns` — exact arithmetic; radii between 1/2 and 2/3 are neither claimed to work nor to fail |
| C69 | The parallel radix sort is free of data races | the three phases of intsort as regions with declared accesses | counting rows are private; scatter addresses are positions in the sorted order, injective; bucket threads stay in their buckets (invariant of C10) | proved: `C69_intsort`, `C69_counting`, `C69_scattering`, `C69_accesses` — per phase between the barriers; accesses within one phase to the plain arrays |
| C70 | Data races while the cell index is built | marking and repair loops as regions with declared accesses | marks have distinct addresses; invariant of C12 bounds the accesses of each thread by its chunk plus one; races reached by an explicit schedule | proved: `C70_index`, `C70_hyper`, `C70_accesses` — the repair loop has a data race (finding) |
| C71 | Data races in the task queue of the hyperbolic sampler | task queue as region and as traces of events with happens-before | invariant of C44 for adjacent conflicts; invariant over traces (who has locked the mutex since the unlock) for the task list; explicit racy trace for every thread count | proved: `C71_flag`, `C71_tasks`, `C71_accesses` — the unsynchronised test of the flag is a data race, also on the task list (finding) |
| C72 | Debug assertions of the GIRG sampler | every assertion instance a debug build evaluates, as a list of file, line and truth value | case by case from the invariants of the constructed tree; counting of the pairs of all calls for the final assertion; the tight case of the type II bounds for line 245 | proved: `C72_constructor`, `C72_run`, `C72_aborts_iff`, `C72_no_abort`, `C72_counters`, `C72_points_in_cell` — exact arithmetic; the assertions of WeightScaling.cpp are in C91, those of the timers in C86 |
| C73 | Debug assertions of the hyperbolic sampler | every assertion instance a debug build of the hyperbolic sampler evaluates, for every schedule of the task queue | case by case from the invariants of the constructed tree and the geometry of the cells; a type I call for two coinciding points exists in every execution and its shortcut fails for draws between p(0) and 0.99 | proved: `C73_constructor`, `C73_run`, `C73_no_abort`, `C73_call`, `C73_shortcut_aborts`, `C73_counters`, `C73_runs_exist` — exact arithmetic; C73_call covers the sampling calls of executions that hang (C44); the assertion of the timers is in C86 |
| C74 | A GIRG contains, or is contained in, the hyperbolic random graph of the same points | conversion of points, both samplers | two-sided estimates of sin² and cosh between hyperbolic distance and torus distance times weights; C45 and C17 | proved: `C74_sandwich`, `C74_monotone` — exact arithmetic; sum of the weights below 2^29 k (so that the GIRG input is supported) |
| C75 | What inclusion_single prints | `main` of inclusion_single | composition of C45, C17, C59, C56, C74; monotonicity of the expected degree for the bounds | proved: `C75_output`, `C75_bounds`, `C75_found`, `C75_monotone`, `C75_returns`, `C75_settings`, `C75_exits` — exact arithmetic; real parameters (NaN passes the checks, C62); rows are related to the graphs under an explicit size condition on the points (SizeOk); text on the terminal only as the values printed |
| C76 | What inclusion_range prints | `main` of inclusion_range | invariant of the bisections; composition as in C75; induction over the loops | proved: `C76_output`, `C76_dense`, `C76_returns`, `C76_settings`, `C76_exits` — exact arithmetic; real alpha (NaN passes the checks, C62); containment statements under an explicit size condition on the points (SizeOk); lists of 2^31 and more edges excluded |
| C77 | What the benchmark programs count | `CounterPerThread` (read and write of a counter are separate steps), `measure` and `main` of bench_girg, `benchmark` of bench_hyper | invariant: every counter holds the number of completed calls of its thread; composition of C17, C18, C24, C26, C27, C45, C49 - C52, C59 | proved: `C77_counter`, `C77_shared_id`, `C77_counts`, `C77_hyper_counts`, `C77_girg`, `C77_girg_returns`, `C77_main`, `C77_main_returns`, `C77_hyper`, `C77_hyper_returns` — counting for every floating point type, the rest in exact arithmetic; edge numbers of bench_girg under an explicit size condition on the weights; measured times and main of bench_hyper (which skips sizes depending on them) are not modelled |
| C78 | Teams smaller than requested | the parallel regions of both samplers with the team size as a parameter (Model/Team) | invariant of the task queue without a creator: the flag stays unset and nobody gets past the wait; C17, C18, C44 | proved: `C78_smaller_team_hangs`, `C78_full_team`, `C78_hyper_never_returns`, `C78_hyper_returns_iff`, `C78_girg_any_team` — the hang for every floating point type; C78_hyper_returns_iff and C78_girg_any_team in exact arithmetic |
| C79 | Rounding cannot break the hyperbolic sampler | constructor, levels, cells and look-up tables of the hyperbolic sampler with rounding | error analysis of the distance computation and of the level loop; exactness of the halvings and of the layer bounds; the proofs of C39 - C44 and C49 for any float type | proved: `C79_rounded_simple_graph`, `C79_rounded_defined`, `C79_rounded_coverage`, `C79_levels`, `C79_rounded_returns_iff`, `C79_double`, `C79_centre_undefined` — for every arithmetic with the stated error bounds; instances B64.rounded/B64.elem (IEEE binary64) and XR.rounded/XR.elem (exact) |
| C80 | Hyperbolic threshold graph up to rounding | points, distance test and recursion of the hyperbolic sampler with rounding | relative error calculus for the distance test; type II pairs: error of the level comparison, of the layers and of the cells, convexity of the distance in the radii | proved: `C80_rounded_threshold`, `C80_rounded_exact`, `C80_double` — for every arithmetic with the stated error bounds; instance IEEE binary64 |
| C81 | Alternative bit deposit of the benchmark | the alternative deposit of the benchmark (64 bit pdep) | both deposits are linear for bitwise or; tables for single bits, checked by the kernel | proved: `C81_sdeposit`, `C81_bmi2`, `C81_agree`, `C81_out_of_range`  |
| C82 | What bench_hyper runs and skips | main of bench_hyper with arbitrary measured times | loop invariant for seed and skip limit; both directions | proved: `C82_main`, `C82_returns`, `C82_sizes` — the measured times are arbitrary values |
| C83 | Too large disks are undefined behaviour | constructor of the hyperbolic sampler, genhrg, bench_hyper | sharp lower bounds for the levels of the outer layers; the number of cells is between 2^31 and 2^32, or a shift overflows | proved: `C83_undefined`, `C83_genhrg`, `C83_radius`, `C83_bench`, `C83_needs_timeout` — exact arithmetic; for temperature 0 the radii between 42.6 and 44.2 are not covered |
| C84 | The two edge decisions of the math benchmark agree | the two decision functors of math-benchmarks | both reduce to the textbook probability; at the centre the quotient is NaN | proved: `C84_decisions`, `C84_centre` — exact arithmetic |
| C85 | Sampled nodes are valid input in floating point arithmetic | samplers of nodes, both edge samplers, with rounding | error bound for acosh of a rounded cosh; the product of a double below 1 with a double y is rounded to a number below y | proved: `C85_positions`, `C85_angles`, `C85_radii`, `C85_returns`, `C85_hyperbolic`, `C85_hyperbolic_graph`, `C85_girg`, `C85_double` — weights: C88 |
| C86 | Timers measure from the last start to the end of the scope | class ScopedTimer with an arbitrary clock | induction over the calls of methods | proved: `C86_restart`, `C86_autostart`, `C86_never`, `C86_abort`, `C86_lines`, `C86_order`, `C86_rounded`  |
| C87 | Profiling prints fixed lines, and the times of the benchmarks are consistent | use of the timers in the library and in the benchmark programs | evaluation of the nested scopes; monotonicity of the clock | proved: `C87_off`, `C87_spatialTree`, `C87_hyperbolicTree`, `C87_generate`, `C87_benchGirg`, `C87_benchHyper` — the text form of the numbers is not modelled |
| C88 | Sampled weights are valid input in floating point arithmetic | generateWeights with rounding, pow with a relative error | error bounds for the base and the two exponents; the base never exceeds 1 | proved: `C88_range`, `C88_graph`, `C88_double` — pow is assumed to have a relative error of at most 2^-51 |
| C89 | The GIRG sampler does linear work in expectation | the sampler with counters: calls, iterations, pairs looked at | potential over the recursion levels; every looked-at pair is charged to 5 times its connection probability with weights scaled by 4^(D+1) | proved: `C89_counts`, `C89_recursion`, `C89_index`, `C89_pairs`, `C89_threshold`, `C89_expected` — exact arithmetic; work of the counting functions of Model/Work, which C89_counts ties to the sampling functions; sorting and node copies while the structure is built are not counted |
| C90 | The hyperbolic sampler does linear work in expectation | the hyperbolic sampler with counters: calls, iterations, pairs looked at | comparison levels bound the cells by exp((R-i-j)/2); looked-at pairs are charged to 5 times a GIRG connection probability on the circle with weights exp(-r/2); expectation of exp(-r/2) for sampled radii | proved: `C90_counts`, `C90_recursion`, `C90_index`, `C90_pairs`, `C90_threshold`, `C90_expected`, `C90_radius`, `C90_linear` — exact arithmetic; work of the counting functions of Model/HyperWork, which C90_counts ties to the sampling functions; sorting, the search for the levels and the filter tables while the structure is built are not counted |
| C91 | Debug assertions of scaleWeights | the search with the outcome of a failed assertion, for debug and release builds | invariant of the lazily sorted vector: its bound is never below DBL_MIN, and equal once all is sorted; the runs agree while thresholds are normal | proved: `C91_feasible`, `C91_infeasible`, `C91_release`, `C91_extreme` — exact arithmetic |
| C92 | Sampled nodes are independent, with the documented distributions, if the seed ranges do not overlap | as C26, C27, C50, with the initial states of the engines as random variables | the draws of one ideal engine are independent (product formula by induction on the number of draws), families of engines by independence of blocks; the entry of the result owned by a thread is one draw, the map from entries to draws is injective | proved: `C92_weights`, `C92_positions`, `C92_nodes`, `C92_overlap`, `C92_same_seed`, `C92_radii`, `C92_angles`, `C92_polar`, `C92_points` — exact arithmetic, ideal engines |
| C93 | The generated graph has the requested expected average degree | as C21, C27, C59; the expected number of edges as a sum over the distribution of the result | expected length of the list of successful coins; integrated over uniform positions with the closed forms of C59; the part of the connection probability below 10^-6 is again a connection probability, with larger weights | proved: `C93_requested`, `C93_expected`, `C93_expected_threshold`, `C93_positions`, `C93_positions_threshold` — exact arithmetic, ideal engines |
| C94 | The hyperbolic random graph has the requested expected average degree | as C45, C61, C50, C51; the expected number of edges as a sum over the distribution of the result | the mean of the connection probability over the angle of one point (sin bounds, substitution), then over the radii (exponential moments of the radial density); the integral of 1/(1+v^(1/T)) from the Beta function; all pairs have the same mean | proved: `C94_requested_threshold`, `C94_requested`, `C94_threshold`, `C94_expected`, `C94_points` — exact arithmetic, ideal engines; temperatures between 0 and 2^-52 are not covered (see C46) |
| C95 | The expected degree of a node of a GIRG is proportional to its weight | as C93; the expected degree of a node as a sum over the distribution of the result | linearity: the expected number of kept coins with the node; mean connection probability of a pair of uniform positions (C93) row by row | proved: `C95_proportional`, `C95_threshold`, `C95_expected`, `C95_positions`, `C95_positions_threshold` — exact arithmetic, ideal engines |
| C96 | The expected degree of a node of a hyperbolic random graph is proportional to exp(-r/2) | as C94; the expected degree of a node as a sum over the distribution of the result | as C94, but with the radius of one point fixed; integrals over the outcomes with radius in any measurable set | proved: `C96_threshold`, `C96_expected`, `C96_points` — exact arithmetic, ideal engines; temperatures between 0 and 2^-52 are not covered (see C46) |
| C97 | For fixed positions, edge numbers and degrees are concentrated around their expectations | as C93 and C94; the probability of an event of the number of returned edges among given pairs | the result is distributed like independent coins (C20, C61): exponential moments and Bernstein/Chernoff bounds for sums of independent coins | proved: `C97_positions`, `C97_points` — exact arithmetic, ideal random numbers; alpha = infinity and T = 0 are deterministic for fixed positions (C18, C45) |
| C98 | The degree of a node of a GIRG is concentrated around its expectation | as C95; upper integral over the positions of the probability of an event of the degree | exponential moments of the degree: given the own position the other positions are independent, and the mean connection probability does not depend on the own position | proved: `C98_threshold`, `C98_alpha` — exact arithmetic, ideal engines; probabilities over the random positions as upper integrals |
| C99 | The degree of a node of a hyperbolic random graph is concentrated around the value given by its radius | as C96; the degree over the outcomes with radius in a set | exponential moments of the degree given the own point: the points are independent with a common law, the mean connection probability at the own point is bounded as in C96 | proved: `C99_threshold`, `C99_expected` — exact arithmetic, ideal engines; for T > 0 probabilities over the random points as upper integrals |
| C100 | The degrees of generated GIRGs follow a power law with the requested exponent | generateWeights, scaleWeights, generatePositions and generateEdges composed, over the random outcomes of all of them | scale factor bounded on both sides by the requested average degree; exponential moments of the degree for fixed weights; tail of the product of a weight and the sum of the others from independence, an exponential moment of the sum and the layer cake formula | proved: `C100_upper`, `C100_lower` — exact arithmetic, ideal engines; the constants are explicit but not sharp; probabilities over the random nodes as upper integral (upper bound) and lower integral (lower bound) |
| C101 | The degrees of generated hyperbolic random graphs follow a power law with exponent 2α+1 | the point samplers and generateEdges composed, over the random outcomes of both | the radius at which the leading term of the degree is K/6 or 4K splits the disk; distribution function of the radius between exponentials; concentration of the degree given the radius (C99) on either side | proved: `C101_threshold`, `C101_expected` — exact arithmetic, ideal engines; the constants are explicit but not sharp; probabilities over the random points as upper integral (upper bound) and lower integral (lower bound) |
| C102 | Generated GIRGs have constant clustering | generatePositions and generateEdges composed, over the random outcomes of both | for fixed positions the probability of two edges at u is the limit of the exponential tail bounds of C97; pairs within the threshold distance are connected almost surely; the triangle inequality of C08 for neighbours within half the threshold distance; independent uniform positions | proved: `C102_probabilities`, `C102_clustering` — exact arithmetic, ideal engines; probabilities over the random positions as upper integral (two edges) and lower integral (triangle); fixed weights |
| C103 | Generated hyperbolic random graphs have constant clustering | sampleRadii, sampleAngles and generateEdges composed, over the random points | at T = 0 two nodes are connected iff their distance is below R (C45); given the radii, the angle to the outer node is uniform and the connection threshold angle is at most twice the angle at which the neighbour is half close; two neighbours half close to an outer node are connected; for T > 0 the joint law of C104 and a comparison of the mean connection probability with the mass of the points within distance R | proved: `C103_threshold`, `C103_expected` — exact arithmetic, ideal engines; for T > 0 probabilities over the random points as upper integral (two edges) and lower integral (triangle) |
| C104 | Edges are independent: the joint law of any edges and non-edges | generateEdges of both libraries, as in C21 and C61 | the result is distributed like a list of independent coins, one per pair (C21, C61); induction over the coins | proved: `C104_girg`, `C104_hyper` — exact arithmetic, ideal random numbers |
| C105 | The average degree of a generated GIRG is close to the requested one with high probability | scaleWeights, generatePositions and generateEdges composed, over the random positions | on the torus the connection probabilities of two different pairs of nodes are uncorrelated, even if they share a node (the mean over the other endpoint does not depend on the position); so the variance of the sum is at most its mean (Chebyshev), combined with C18 (threshold) or with C97 given the positions, and with C59 for the requested degree | proved: `C105_threshold`, `C105_alpha`, `C105_requested` — exact arithmetic, ideal engines; probabilities over the random positions as upper integrals; fixed weights |
| C106 | The average degree of a generated hyperbolic random graph is close to the requested one with high probability | calculateRadius, the samplers and hypergirgs::generateEdges composed, over the random points | the covariance of the connection probabilities of two pairs is 0 if they share no node, otherwise at most the mean square of the mean connection probability of a point (hrgSpread, from the node bound of C96 and the moments of the radial law); this bounds the variance of the sum (Chebyshev), combined with the mean of C94 and with C45 (T = 0) or C97 given the points (T > 0), and with C51 for the requested degree | proved: `C106_threshold`, `C106_expected`, `C106_requested_threshold`, `C106_requested` — exact arithmetic, ideal engines; probabilities over the random points as (upper) integrals |
| C107 | In floating point arithmetic, graphs with finite alpha contain the threshold graph | girgs::generateEdges in an arithmetic with rounding (Rounded, RoundedAbove), any alpha > 0, any uniform numbers below 1 | a close pair is not covered by a type II call (as for C67), so the type I call that covers it compares a number below 1 with a power of a quotient that is at least 1 | proved: `C107_contains`, `C107_double`, `C107_exact` — rounding as in C67; quotients and powers of numbers that are at least 1 are assumed not to be rounded below 1 (RoundedAbove), proved for binary64 with correctly rounded pow |
| C108 | All degrees at once and the maximum degree | as C98, C100, C99 and C101; the probability of an event of the whole graph | union bound over the nodes for probabilities and upper integrals; for small maximum degrees: with high probability some radius is small (independent radii), and a node with small radius has high degree (C99) | proved: `C108_all_threshold`, `C108_all_alpha`, `C108_max_girg`, `C108_max_threshold`, `C108_max_expected` — exact arithmetic, ideal engines; union bounds over the nodes with the bounds of C98, C100, C99 and C101; the lower bound on the maximum degree of hyperbolic random graphs from the independence of the radii; no lower bound on the maximum degree of GIRGs |
| C109 | Exact law of the neighbourhood and of the degree of a node | as C98 and C99; a graph of a relation (C18, C45) for threshold rules, independent coins (C104) for finite alpha | the mean of a product over the other nodes is the mean of the product of the conditional means, given the own point (independence of the points); the degree is d for exactly one neighbourhood of size d | proved: `C109_threshold`, `C109_degree_threshold`, `C109_alpha`, `C109_hyper_threshold`, `C109_hyper_probability`, `C109_hyper_expected` — exact arithmetic, ideal engines; exact laws for alpha = infinity and T = 0; for finite alpha and for positive temperatures (with 2 T log 99 <= R) bounds with an error of 10^-6 per factor, since pairs with connection probability below 10^-6 may be skipped |
| C110 | The law of a generated graph does not depend on the names of the nodes, seeds, threads or schedules | as C109: the points and a graph of a relation (C18, C45) | points chosen by an injection among independent equally distributed points have the product law, and the graph is a function of them | proved: `C110_threshold`, `C110_renamed`, `C110_hyper`, `C110_alpha`, `C110_temperature` — exact arithmetic, ideal engines; equal laws for alpha = infinity and temperature 0, up to 10^-6 per pair of chosen nodes and run for finite alpha and positive temperature (pairs with connection probability below 10^-6 may be skipped, depending on names) |
| C111 | Distance of a generated graph to the documented random graph | as C104: the coins of the pairs | the graph spanned by nodes is a set of independent pairs; the laws of two random sets differ by at most the sum of the differences of the probabilities (induction over the pairs) | proved: `C111_girg`, `C111_hyper` — exact arithmetic, ideal random numbers; alpha = infinity and T = 0 are C18, C45 |
| C112 | Expected number of nodes of a given degree | as C109 | the mean of a sum of indicators is the sum of the probabilities of C109; in the hyperbolic case all nodes have the same law | proved: `C112_threshold`, `C112_alpha`, `C112_hyper`, `C112_hyper_expected` — exact arithmetic, ideal engines; for finite alpha and positive temperatures the expectation is the mean over the points of the sum of the probabilities of the nodes, with an error of 10^-6 per factor, since pairs with connection probability below 10^-6 may be skipped |
| C113 | The degree distribution is concentrated | as C109 | the inequality of Efron and Stein for functions of independent points, by induction; removing a node changes only its own degree and the ones of its neighbours; second moments of degrees; Chebyshev | proved: `C113_threshold`, `C113_hyper` — exact arithmetic, ideal engines; alpha = infinity and temperature 0; the bound is of the order of n for bounded expected degrees, and useful when the sum of the squares of the expected degrees is small against n^2 |
| C114 | The number of connected components and similar functions of the graph are concentrated | as C109 | as C113, for functions of the graph; isolating a node splits its component into at most one more part than its degree | proved: `C114_threshold`, `C114_hyper`, `C114_components` — exact arithmetic, ideal engines; alpha = infinity and temperature 0; the bound is of the order of n for bounded expected degrees, and useful when the sum of the squares of the expected degrees is small against n^2 |
