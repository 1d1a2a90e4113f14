# Formal model of chistopher/girgs in Lean 4 — design

The table at the end is generated by `tools/design.py` from `properties.jsonl` and `MANIFEST.json`.

## Layout

* `lean/Verif/Base/` – machine integers and undefined behaviour (`Machine`), abstract floating point (`CFloat`), exact extended reals (`XR`), interleavings.
* `lean/Verif/Model/` – the model, function by function; every definition cites the file and lines in /repo it models and says where it simplifies.
* `lean/Verif/Spec/` – small specifications that do not mention the model: Morton interleaving, cell tree, torus metric, hyperbolic distance, graph of a
  relation, stable sorting, merging, random graph laws, expected degrees, text formats, command lines.
* `lean/Verif/Proofs/` – helper lemmas.
* `lean/Verif/Props/` – the property theorems (one file per topic), each followed by concrete instances that meet the hypotheses.
* `seeded/LOG.jsonl` – experiments with wrong programs (edited definition, edit, broken claim, theorems that failed, theorems tightened).

## Modelling decisions

* **Undefined behaviour is an outcome.** Functions that can shift too far, index out of range, convert an unrepresentable double or overflow an `int`
  return `Option`; `none` means undefined behaviour or a failed assertion. That a result is `some _` is a safety theorem.
* **Integers.** `unsigned`/`uint32_t` arithmetic wraps modulo 2^32; bit manipulation is on `BitVec 32/64`. `size_t` is unbounded except where the code
  depends on wrapping (type II counter, `num_terms`); the theorems carry the corresponding size conditions.
* **Floating point.** The model is generic in a type `F` with the operations of `double` (`CFloat F`, no axioms about the operations). Theorems stated for
  every `F` therefore hold for IEEE doubles with any rounding: this covers the combinatorial statements (which pairs are examined, simple graph, edge buffer,
  task queue, reproducibility, accuracy of searches at the returned value, command line). Theorems about numerical content use `F = XR`: real numbers with
  IEEE-style infinities and NaN but no rounding. Numeric theorems are statements about exact arithmetic unless they say otherwise.
* **Rounding** is modelled for `generateEdges` of girgs (C66, C67, C107) and of hypergirgs (C79, C80): `Spec/Rounding.lean` lists the error bounds of an arithmetic (`Rounded F u lam`), and
  `Base/B64.lean` defines IEEE binary64 (round to nearest, ties to even, subnormals, overflow) as a `CFloat`; `B64.rounded` proves that it has the bounds
  `u = 2^-53`, `lam = 2^-43`. In `B64` the C library functions are correctly rounded (trusted; C67 needs only `log2` with the bounds of `Rounded`; C107 also a `pow` that does not round powers of numbers above 1 below 1, `RoundedAbove`; C79 and C80 need
  `cosh`, `sinh`, `acosh`, `exp`, `cos`, `sin` with the bounds of `RoundedElem` in `Spec/HRounding.lean`) and there is a single zero. For all other numeric properties rounding is not modelled.
* **Random numbers.** Engines and distributions are arbitrary state machines; theorems quantify over all of them (with the ranges the C++ standard
  guarantees where needed: `UnitRng`, `IntervalEngine`, `GeoBounded`). The distribution theorems (C20, C21, C26_law, C61, C89, C90, C92, C93, C94, C95, C96, C97, C98, C99, C100, C101, C102, C103, C104, C105, C106, C108, C109, C110, C111, C112, C113, C114) use ideal random numbers (`IdealRng`, `IdealEngine`;
  independent engines of different threads are a hypothesis, as is `IndependentStates` for the seeds): `PMF` and measures from Mathlib.
* **Concurrency.** Threads are step-wise programs; an execution is any interleaving of their steps. Memory is sequentially consistent. Data races (C69-C71) are pairs of
  adjacent conflicting steps in such an execution, or (C71) conflicting events not ordered by happens-before; the accesses declared for a step are proved to be those it makes. OpenMP's
  `schedule(static)` is an arbitrary partition of the iterations into one chunk per thread; reductions combine private copies in any order.
* **Executions are relations.** `GenerateEdges env rng gens weights positions alpha out notice` and similar propositions say "some execution returns `out`"; a theorem
  `∀ out, … → …` therefore speaks about every schedule, and existence of an execution is proved separately (so that the statements are not vacuous).

## What is modelled

| file in /repo/source | model |
|---|---|
| girgs/include/girgs/BitManipulation*.{h,inl} | Model/BitManipulation (all; BMI2 intrinsics by their specification) |
| girgs/…/SpatialTreeCoordinateHelper.{h,inl} | Model/CoordHelper (all) |
| girgs/…/Node.h, Helper.h | Model/Node (all) |
| girgs/…/IntSort.h, hypergirgs/…/IntSort.h | Model/IntSort (all for `Key = unsigned`, 8 bit radix, trivially copyable elements) |
| girgs/…/WeightLayer.h | Model/WeightLayer (all) |
| girgs/…/SpatialTree.{h,inl} | Model/{SpatialTree, BuildPartition, GenerateEdges, Asserts} (timers: Model/Timer; counted work: Model/Work) |
| girgs/…/ScopedTimer.h, hypergirgs/…/ScopedTimer.h | Model/Timer (all) |
| girgs/source/Generator.cpp | Model/{Samplers, WeightScaling, Generator, EdgeBuffer, Output} (all) |
| girgs/source/WeightScaling.cpp | Model/{WeightScaling, ScalingAborts} (all) |
| girgs/…/Hyperbolic.h | Model/Radius (all) |
| hypergirgs/…/AngleHelper.{h,cpp} | Model/AngleHelper (all) |
| hypergirgs/…/Point.h, DistanceFilter.h | Model/HPoint (all) |
| hypergirgs/…/RadiusLayer.{h,cpp} | Model/{RadiusLayer, HyperBuild} (all) |
| hypergirgs/…/HyperbolicTree.{h,inl} | Model/{HyperTree, HyperBuild, HyperGenerate, HAsserts} (timers: Model/Timer; counted work: Model/HyperWork) |
| hypergirgs/source/Generator.cpp | Model/{Radius, Samplers, HyperGenerate, EdgeBuffer} (all) |
| cli/gengirg/main.cpp, cli/genhrg/main.cpp | Model/{Cli, Tools, Output} (parameters, checks, calls, files; not the text on the terminal) |
| examples/inclusion_single, inclusion_range | Model/{Examples, Inclusion} (all except the progress messages on `clog`) |
| examples/bench_girg, bench_hyper | Model/{Bench, BenchHyper, Timer} (all except the messages) |
| benchmarks/bmi-benchmarks | Model/BmiBench (the deposit functions, not the timing loop) |
| benchmarks/math-benchmarks | Model/MathBench (the two edge decisions, not the timing loops) |

Not modelled: source/benchmarks except the deposit functions and the edge decisions, tests, CMake; terminal output except the profiling lines; write errors after a file was opened; exceptions for lack of memory; the C++
weak memory model (what a program with a data race may do); rounding errors except in C66, C67, C79, C80, C85, C86, C88 and C107; the contents of `std::mt19937_64`/distributions beyond the interfaces above.

## Trusted base

* Lean's kernel (4.33.0) and Mathlib as installed.
* Axioms: every claimed theorem depends on at most `propext`, `Classical.choice` and `Quot.sound` (checked with `#print axioms` for all of them; a few need only
  `propext` and `Quot.sound`: C03_range_needed, C24_mutual_exclusion, C34_layout, C52_accuracy, C56_reverse, or only `propext`: C56_counts, C56_unify). No other axioms, no compiled
  evaluation.
* The reading of the C++ sources documented in the comments of `Model/`, and the specifications in `Spec/`.

## Findings about the code (all proved on the model, witnesses in `Props/`)

* `intsort` with `max_key = 2^k`, `k ≥ 8`, and a key equal to `max_key`: out of bounds access although documented as allowed (C11).
* `hypergirgs::generateEdges` with at least two threads never returns when the recursion is not deeper than the parallel start level, e.g. for every `R ≤ 2` (C44).
* The distance filter changes sampling decisions if `R < 2 T ln 99` (cosh of a negative distance in the table; C46).
* Cell pairs with an expected number of type II edges below 1e-6 are skipped, so some pairs are never connected (C21, C61).
* The degree estimators subtract self pairs with an off-by-one, underestimating by less than 1/n (C31, C58); `scaleWeights` never returns for desired degrees ≤ 0 or > n-1 (C59).
* A debug build of `scaleWeights` aborts (WeightScaling.cpp:56) for desired degrees above n-1, where the release build hangs, and for feasible degrees if the weights spread over more than hundreds of binary orders of magnitude (C91).
* Generator.h asks for a weight seed that differs from the position seed. With several threads that is not enough: thread t uses seed + t, so seeds that differ by less than the number of threads reuse random numbers, and weights are functions of coordinates (C92). The defaults of gengirg (12 and 130) are affected for 119 threads and 1190000 nodes or more.
* `LazySorter` returns wrong positions for subnormal weights because `m_lower` starts at `DBL_MIN` (C30).
* The debug assertion `dist_lower_bound > w_upper_bound` can fire on valid input (C57); it is the only one of the GIRG sampler that can (C72). In the hyperbolic sampler the assertion behind the acceptance shortcut (HyperbolicTree.inl:331) fires for `R < 2 T ln 99`, and the assertions about `R ≥ 1` and radii below `R` reject inputs the release build handles (C73).
* `hypergirgs::generateEdges` never returns if OpenMP provides fewer threads than `omp_get_max_threads()`, for example when it is called inside a parallel region (C78).
* `hypergirgs::generateEdges` is undefined for disk radii from 41.34 on (C83): there are more than 2^31 cells, which are numbered with an `int` in `RadiusLayer::buildPartition`, or
  `1 << level` overflows. genhrg accepts such parameters (`-n 50000000 -alpha 0.6 -t 0.9`), and bench_hyper reaches them unless it is slow. The other theorems assume R <= 41.25.
* In a disk of integral radius, `hypergirgs::generateEdges` reads `level_of_layer` out of bounds for a point with a positive radius of at most 2^-55: `R - radius` is rounded to `R` (C79).
* The level computed by `partitioningBaseLevel` for two layers depends on the order of the layers if a comparison is decided by rounding (`(v*sinh(r1))*sinh(r2)` is not symmetric); C79 needs that it does not (`SymmetricLevels`, which follows from `ClearLevels`).
* A point of radius 0 yields NaN and never gets an edge (C37_origin).
* `sampleRadii`/`sampleAngles` with n = 0 and parallel = true request 0 threads / divide by zero (C50).
* genhrg accepts `alpha = 0.5` and then uses an infinite radius (C51_half); `calculateRadius` overflows `int` for n ≥ 2^30 (C51_overflow);
  `calculateRadiusLikeNetworKit` hangs in release builds for dense targets (C52_dense_hangs) and aborts in debug builds.
* NaN passes every range check of the command line tools (C55).
* `generateWeights` returns weights below 1 for n = 1 (C26_single_node).
* `saveDot` with fewer positions than weights reads out of bounds (C35).
* `HyperbolicTree` does not support small disks: for `1 < R < 4/3` every run with a point in the middle level is undefined, for `R ≤ 1/2` edges are missing (C68).
* Data races in the sense of C++: the unsynchronised read of `tasks_generated` (HyperbolicTree.inl:127) races with its write, and a thread that takes this way reads the task list in a
  race with its creation (C71); the loops that fill the gaps of the cell index read the first entry of the next thread's chunk while it is written (C70). Both are harmless under
  sequential consistency (C12, C43).
* `inclusion_range` hangs (inside `scaleWeights`) if the average degree h of the drawn graph exceeds 1/2 and 3h/2 > n-1: the search starts above the largest possible degree (C76_dense).

Properties whose first formulation turned out to be false of the code were restated with the exact condition, and the failing case is proved as a theorem of its own
(C11, C21, C31, C44, C46, C50, C51, C52, C55, C57).
