{"id": "C01", "title": "Morton coding is bit interleaving", "statement": "BitManipulation<D>::deposit places bit k of coordinate d at bit D*k+d of the result and nothing else; BitManipulation<D>::extract puts bit D*k+d of the cell at bit k of coordinate d and nothing else (D = 1..5, the dimensions generateEdges dispatches to).", "quantifier": "every 32-bit cell (extract) and every coordinate tuple accepted by the documented range (deposit), for every D in 1..5", "why_tests_cant": "the input space is 2^32 cells / up to 2^32 tuples per dimension; the unit tests sample about 10^4 random words", "anchors": ["source/girgs/include/girgs/BitManipulationGeneric.inl: ExtractionHelper, Extract, Deposit", "source/girgs/include/girgs/BitManipulation.h: BitPattern"]}
{"id": "C02", "title": "Morton round trip", "statement": "extract(deposit(c)) = c for every in-range coordinate tuple c, and deposit(extract(x)) = x for every cell x below 2^(D*floor(32/D)).", "quantifier": "all in-range coordinate tuples and all representable cells, D = 1..5", "why_tests_cant": "XRef test samples 10^4 random cells per dimension", "anchors": ["source/girgs/include/girgs/BitManipulationGeneric.inl: Deposit, Extract"]}
{"id": "C03", "title": "BMI2 and generic builds agree", "statement": "Compiling with USE_BMI2 never changes a result: the pdep/pext implementation of deposit and extract agrees with the portable implementation on every in-range coordinate tuple and on every cell.", "quantifier": "all cells; all in-range coordinate tuples; D = 1..5", "why_tests_cant": "two independent implementations must agree on 2^32 inputs; tests sample each separately", "anchors": ["source/girgs/include/girgs/BitManipulationBMI2.inl: Implementation", "source/girgs/include/girgs/BitManipulationGeneric.inl: Implementation"]}
{"id": "C04", "title": "Cell numbering is a complete 2^D-ary tree", "statement": "firstCellOfLevel, numCellsInLevel, parent, firstChild, lastChild describe one complete 2^D-ary tree numbered level by level: levels tile the ids without gap or overlap, the children of a cell are exactly the ids whose parent is that cell, and they lie on the next level; cellOfLevel returns the level-local index of any cell id. No 32-bit operation wraps while D*(level+1) < 32.", "quantifier": "every dimension D >= 1 and every level with D*(level+1) <= 31, every cell of it", "why_tests_cant": "tests walk the first few levels only; the bit trick of cellOfLevel must hold for all 2^32 ids", "anchors": ["source/girgs/include/girgs/SpatialTreeCoordinateHelper.h", "source/girgs/include/girgs/SpatialTreeCoordinateHelper.inl: cellOfLevel"]}
{"id": "C05", "title": "A point lies in the cell cellForPoint assigns to it, on all levels consistently", "statement": "For a point in [0,1)^D, cellForPoint(point, l) is a valid level-local cell index, bounds() of that cell contains the point (half open), no other cell of that level contains it, and the cell on level l is the parent of the cell on level l+1.", "quantifier": "every point of [0,1)^D and every level with D*(level+1) <= 31, D = 1..5", "why_tests_cant": "a continuum of points; the test draws 100 random points", "anchors": ["source/girgs/include/girgs/SpatialTreeCoordinateHelper.inl: cellForPoint, bounds"]}
{"id": "C06", "title": "touching decides geometric adjacency on the torus", "statement": "touching(A,B,l) is true exactly if the closed boxes of A and B intersect on the torus, i.e. if in every dimension their grid coordinates differ by at most 1 modulo 2^l; it is reflexive and symmetric; and cells whose parents do not touch do not touch.", "quantifier": "every pair of cells on every level, D = 1..5", "why_tests_cant": "the only unit test checks one pair", "anchors": ["source/girgs/include/girgs/SpatialTreeCoordinateHelper.inl: touching"]}
{"id": "C07", "title": "Cell distance is a tight lower bound of point distance", "statement": "dist(A,B,l) never exceeds the torus max-norm distance (Node::distance) of any point in A and any point in B; it is 0 iff the cells touch, and at least 2^-l otherwise.", "quantifier": "every pair of cells on every level and every pair of points inside them, D = 1..5", "why_tests_cant": "a lower bound over a continuum of points; tests check eight literals", "anchors": ["source/girgs/include/girgs/SpatialTreeCoordinateHelper.inl: dist", "source/girgs/include/girgs/Node.h: Node::distance"]}
{"id": "C08", "title": "Node::distance is the torus max-norm metric", "statement": "For points of [0,1)^D Node::distance is symmetric, between 0 and 1/2, zero exactly for equal points, satisfies the triangle inequality, is invariant under translating both points around the torus, and equals max_d min(|x_d-y_d|, 1-|x_d-y_d|).", "quantifier": "all pairs/triples of points of [0,1)^D, every D", "why_tests_cant": "metric axioms quantify over a continuum", "anchors": ["source/girgs/include/girgs/Node.h: Node::distance"]}
{"id": "C09", "title": "pow_to_the<D> is the D-th power", "statement": "pow_to_the<D>(x) equals x multiplied D times, for every compile-time D.", "quantifier": "every D >= 0 and every x (exact arithmetic)", "why_tests_cant": "templates are instantiated for nine D only", "anchors": ["source/girgs/include/girgs/Helper.h: pow_helper, pow_to_the"]}
{"id": "C10", "title": "intsort sorts, stably, and independently of the thread count", "statement": "intsort(v, key, max_key) leaves a permutation of v ordered by key in which elements of equal key keep their relative order - whatever the number of threads, and for every interleaving of the threads' scatter writes; every access to the counters, queues and buffers is in bounds. Precondition: every key < 2^ceil(log2(max_key)), in particular every key < max_key.", "quantifier": "every input vector, key function, max_key, thread count and schedule", "why_tests_cant": "radix sort has boundary cases in the key width, pass count, chunking and thread interleavings that tests sample sparsely (and in the real library only for more than 2^17 elements per thread)", "anchors": ["source/girgs/include/girgs/IntSort.h: IntSortImpl, intsort", "source/hypergirgs/include/hypergirgs/IntSort.h"]}
{"id": "C11", "title": "intsort accepts keys up to and including max_key, exactly unless max_key is a power of two from 256 on", "statement": "The documented contract ('undefined behaviour if there exists a key larger than max_key') holds for every max_key that is not 2^k with k >= 8: such calls are sorted without undefined behaviour. For max_key = 2^k, k >= 8, it is violated: any call on at least two elements one of which has key max_key accesses memory out of bounds.", "quantifier": "every max_key and every input whose keys are <= max_key", "why_tests_cant": "needs max_key to be a power of two >= 256 and a key equal to it", "anchors": ["source/girgs/include/girgs/IntSort.h: ilog2, IntSortImpl, intsort"]}
{"id": "C12", "title": "The cell index built by the parallel preprocessing is the exact prefix sum, under every schedule", "statement": "After preprocessing, for every cell id c the index array holds the number of nodes whose cell id is smaller than c - for every number of threads, every chunking of the id range and every interleaving of the gap-repair loops of the threads (including the unsynchronised read at chunk borders); no access is out of bounds.", "quantifier": "every multiset of cell ids, every thread count and every interleaving", "why_tests_cant": "a race at chunk borders that only shows under particular interleavings", "anchors": ["source/girgs/include/girgs/SpatialTree.inl: buildPartition", "source/hypergirgs/source/RadiusLayer.cpp: buildPartition"]}
{"id": "C13", "title": "A weight layer hands out exactly the nodes of its layer in the queried cell", "statement": "For every layer and every cell on a level not deeper than the layer's target level, cellIterators/pointsInCell/kthPoint enumerate exactly the nodes of that layer whose cell on that level is the queried one, each once.", "quantifier": "every layer, level and cell of every constructed data structure", "why_tests_cant": "Lemma 4.1 of the paper as implemented by prefix-sum arithmetic over all cells", "anchors": ["source/girgs/include/girgs/WeightLayer.h: WeightLayer", "source/girgs/include/girgs/SpatialTree.inl: buildPartition"]}
{"id": "C14", "title": "Layers and comparison levels are chosen soundly", "statement": "Every node of weight w is in the layer i with 2^i*w0 <= w < 2^(i+1)*w0; a pair of layers is compared on a level that exists, is not deeper than the target level of either layer, and whose cells have volume at least w_u*w_v/W for every pair of nodes from those layers unless it is the root level.", "quantifier": "all positive weight vectors", "why_tests_cant": "relates real logarithms, truncating integer division and the max with zero for all weight vectors", "anchors": ["source/girgs/include/girgs/SpatialTree.inl: SpatialTree, weightLayerTargetLevel, partitioningBaseLevel"]}
{"id": "C15", "title": "Every node pair is examined exactly once (sequential)", "statement": "With one thread, generateEdges submits every unordered pair of distinct nodes to exactly one sampling call (type I or type II), in one orientation, and never a node with itself. (A release build with alpha = infinity leaves out the type II calls, which could not produce an edge.)", "quantifier": "all weights, positions, dimensions", "why_tests_cant": "the debug-only counter assertion checks a sum on the executed input; double and missing pairs could cancel out", "anchors": ["source/girgs/include/girgs/SpatialTree.inl: visitCellPair, sampleTypeI, sampleTypeII"]}
{"id": "C16", "title": "Every node pair is examined exactly once (parallel)", "statement": "The sawed-off parallel recursion performs exactly the same sampling calls as the sequential recursion (as a multiset), for every number of threads and every parallel start level; so every unordered pair is examined exactly once. (A release build with alpha = infinity leaves out the type II calls, which could not produce an edge.)", "quantifier": "all inputs and all thread counts", "why_tests_cant": "thread counts and tree depths interact (tree shallower than the parallel level, etc.)", "anchors": ["source/girgs/include/girgs/SpatialTree.inl: generateEdges, visitCellPair_sequentialStart"]}
{"id": "C17", "title": "generateEdges returns a simple graph", "statement": "The edge list returned by girgs::generateEdges contains no self loop, no edge twice (in either orientation), and only indices in [0,n) - for every random generator behaviour, thread count and schedule.", "quantifier": "all inputs, all random bit streams, all thread counts and schedules", "why_tests_cant": "a multigraph edge may appear only for rare random streams or schedules", "anchors": ["source/girgs/source/Generator.cpp: generateEdges", "source/girgs/include/girgs/SpatialTree.inl"]}
{"id": "C18", "title": "Threshold model is exact", "statement": "For alpha = infinity girgs::generateEdges returns u--v iff dist(u,v)^D < w_u*w_v/W (exact arithmetic), each such pair once, whatever the seed, the thread count and the schedule.", "quantifier": "all positive weights, all positions in [0,1)^D, D = 1..5, all seeds, thread counts and schedules", "why_tests_cant": "the test compares n=100 random nodes against brute force; pruning of non-touching cells must be sound for all inputs", "anchors": ["source/girgs/source/Generator.cpp: generateEdges", "source/girgs/include/girgs/SpatialTree.inl"]}
{"id": "C19", "title": "The type II acceptance bound dominates every true edge probability", "statement": "Whenever nodes u (layer i) and v (layer j) are in non-touching cells A and B for which type II sampling is performed, (w_u*w_v/W / dist^D)^alpha is at most the bound used for skipping, and that bound is in (0,1], so the acceptance probability p/bound is a probability.", "quantifier": "all inputs, all reachable cell pairs, all alpha > 0", "why_tests_cant": "a violated bound silently biases the graph distribution", "anchors": ["source/girgs/include/girgs/SpatialTree.inl: sampleTypeII"]}
{"id": "C20", "title": "Geometric skipping is Bernoulli sampling", "statement": "Jumping by 1+Geometric(p) over r = 0..N-1 selects a random subset with exactly the distribution of N independent coin flips with probability p; accepting a selected pair when a uniform number of [0,p) is below q <= p yields probability q for the pair.", "quantifier": "every N and every p in (0,1]", "why_tests_cant": "a distributional statement; tests can only estimate means", "anchors": ["source/girgs/include/girgs/SpatialTree.inl: sampleTypeII", "source/hypergirgs/include/hypergirgs/HyperbolicTree.inl: sampleTypeII"]}
{"id": "C21", "title": "Each pair becomes an edge independently with the documented probability (negligible pairs excepted)", "statement": "For finite alpha > 0 and ideal random numbers girgs::generateEdges connects the pairs independently, pair u,v with probability min(1,(w_u*w_v/W / dist^D)^alpha), whatever the thread count and the partition of the parallel loop - except for pairs in cell pairs whose expected number of edges is below 1e-6: those (their documented probability is below 1e-6) are never connected.", "quantifier": "all inputs and pairs", "why_tests_cant": "a probability for every pair of every input", "anchors": ["source/girgs/include/girgs/Generator.h: generateEdges", "source/girgs/include/girgs/SpatialTree.inl: sampleTypeI, sampleTypeII"]}
{"id": "C22", "title": "The r-th pair decoding enumerates the product without repetition", "statement": "The loop over r in type II sampling visits strictly increasing r below |A|*|B|, and r -> (r mod |A|, r div |A|) is a bijection onto A x B, so no pair is drawn twice, all accesses are in bounds and the loop terminates - as long as the 64-bit counter does not wrap.", "quantifier": "all cell sizes and all sequences of geometric samples", "why_tests_cant": "needs huge geometric samples to fail", "anchors": ["source/girgs/include/girgs/SpatialTree.inl: sampleTypeII", "source/hypergirgs/include/hypergirgs/HyperbolicTree.inl: sampleTypeII"]}
{"id": "C23", "title": "alpha = 0 yields the complete graph", "statement": "For alpha = 0 girgs::generateEdges returns every unordered pair exactly once.", "quantifier": "all weights, positions with distinct points or not, random streams, thread counts", "why_tests_cant": "tests try n = 100 only", "anchors": ["source/girgs/include/girgs/SpatialTree.inl: sampleTypeI, sampleTypeII"]}
{"id": "C24", "title": "Edge buffering loses and duplicates nothing under concurrency", "statement": "For every number of threads, every sequence of callbacks per thread and every interleaving of the steps push / lock / append / unlock / clear, the vector returned by generateEdges is a permutation of all edges passed to the callback, and the edges of one thread keep their order.", "quantifier": "all thread counts, edge sequences, block sizes >= 1 and interleavings", "why_tests_cant": "interleavings at block boundaries (2^20 edges) are hardly ever exercised by tests", "anchors": ["source/girgs/source/Generator.cpp: generateEdges (addEdge, flush)", "source/hypergirgs/source/Generator.cpp: generateEdges"]}
{"id": "C25", "title": "Reproducibility for fixed seed and thread count", "statement": "With a non-negative seed and a fixed thread count, girgs::generateEdges returns the same multiset of edges in every execution, independent of the schedule; if no thread buffers a full block the returned list itself is always the same. Thread k draws from the engine seeded with seed + k, so no two threads start from the same seed.", "quantifier": "all inputs, seeds, thread counts, schedules", "why_tests_cant": "schedules cannot be enumerated by tests", "anchors": ["source/girgs/include/girgs/SpatialTree.inl: generateEdges", "source/girgs/source/Generator.cpp: generateEdges"]}
{"id": "C26", "title": "generateWeights returns n weights in [1, n/2] with a truncated power law", "statement": "For n >= 2 and ple > 1 generateWeights(n, ple, seed) returns n weights, each at least 1 and at most n/2 (hence in [1,n) as documented), whatever the random numbers in [0,1) and the number of threads; every entry is written exactly once, from the next random number of the thread that owns it; a uniform random number yields a weight with distribution function (1-y^(1-ple))/(1-(n/2)^(1-ple)). For n = 1 weights below 1 are possible.", "quantifier": "all n >= 2, ple > 1, random streams, thread counts", "why_tests_cant": "bounds over a continuum of random numbers", "anchors": ["source/girgs/source/Generator.cpp: generateWeights"]}
{"id": "C27", "title": "generatePositions returns n points of [0,1)^d", "statement": "generatePositions(n,d,seed) returns n vectors of length d with every coordinate in [0,1); each (i,d) entry is written exactly once, by the thread that owns i in the static schedule, in increasing order per thread.", "quantifier": "all n, d, random streams, thread counts", "why_tests_cant": "static schedule partitions for all n and thread counts", "anchors": ["source/girgs/source/Generator.cpp: generatePositions"]}
{"id": "C28", "title": "scaleWeights multiplies every weight by the returned factor, or rejects alpha", "statement": "scaleWeights either throws (exactly when alpha is NaN, <= 0 or = 1, leaving the weights unchanged) or multiplies every weight by the value it returns; the threshold estimator is used iff alpha > 8.", "quantifier": "all weights and all alpha including infinity and NaN", "why_tests_cant": "case split over all doubles", "anchors": ["source/girgs/source/Generator.cpp: scaleWeights"]}
{"id": "C29", "title": "The degree search meets its accuracy when it returns", "statement": "If the exponential/binary search behind scaleWeights returns c then |f(c)-desired| <= 0.02 for the searched function f; throughout the search 0 < lower < upper and c lies strictly between; for continuous f that is below the target near 0 and at least the target somewhere above, it does return; if f stays below the target it never returns.", "quantifier": "every function f, every target", "why_tests_cant": "termination and post-condition for arbitrary f", "anchors": ["source/girgs/source/WeightScaling.cpp: exponentialSearch"]}
{"id": "C30", "title": "LazySorter returns the elements above a threshold in descending order, for every query sequence", "statement": "After any sequence of sort_downto queries the underlying vector is a permutation of the input; each query returns a position such that the elements before it are sorted descending and >= the threshold and no element after it is > the threshold; later queries never change the elements before a returned position (so cached powers stay valid). Release builds answer every query. Holds for weights from the smallest normal to the largest double; fails for subnormal weights.", "quantifier": "every weight vector and every history of thresholds", "why_tests_cant": "stateful behaviour over unbounded query histories", "anchors": ["source/girgs/source/WeightScaling.cpp: LazySorter, estimateWeightScaling (pow_weights)"]}
{"id": "C31", "title": "The threshold degree estimator is the expected average degree, up to less than 1/n", "statement": "Let E(c) be the expected average degree of the threshold GIRG with weights scaled by c^d and independent uniform positions. At any positive points c, in any order of evaluation, for any distribution of the iterations among threads, the function searched by estimateWeightScalingThreshold is defined and has a value v with E(c) - 1/n < v <= E(c). It equals E(c) if no weight a satisfies (2c)^d*a*a/W < 1 <= (2c)^d*a*b/W for another weight b; it differs otherwise (off-by-one in the correction for u = v).", "quantifier": "all weight vectors of normal doubles, all histories of c > 0, all dimensions, thread schedules", "why_tests_cant": "closed form with a two-pointer scan; an off-by-one shifts the result by O(1/n) only", "anchors": ["source/girgs/source/WeightScaling.cpp: estimateWeightScalingThreshold"]}
{"id": "C32", "title": "Scaling weights realises the constant c", "statement": "If scaleWeights returns, then for the constant c found by its search: for alpha > 8 (or infinite) all weights have been multiplied by c^d, which turns the threshold rule dist^d < w_u*w_v/W into dist < c*(w_u*w_v/W)^(1/d) for the old weights; for alpha <= 8 they have been multiplied by c^(1/alpha), which turns the connection probability (w_u*w_v/W/dist^d)^alpha into c*(w_u*w_v/W/dist^d)^alpha.", "quantifier": "all positive weights, c, alpha, d, distances", "why_tests_cant": "algebraic identity over reals", "anchors": ["source/girgs/source/WeightScaling.cpp: estimateWeightScalingThreshold, estimateWeightScaling", "source/girgs/source/Generator.cpp: scaleWeights"]}
{"id": "C33", "title": "Unsupported dimensions produce no edges", "statement": "girgs::generateEdges dispatches dimensions 1..5 to the sampler of that dimension; any other dimension returns an empty edge list and prints the notice.", "quantifier": "all dimensions", "why_tests_cant": "unbounded dimension", "anchors": ["source/girgs/source/Generator.cpp: generateEdges"]}
{"id": "C34", "title": "Edge list files can be read back", "statement": "The edge list written by both command line tools (n, m, blank line, one 'u v' line per edge) determines n, the number of edges and the edge sequence: parsing it returns exactly the written graph.", "quantifier": "all n and all edge lists", "why_tests_cant": "round trip for unbounded lists and numbers", "anchors": ["source/cli/gengirg/main.cpp: main", "source/cli/genhrg/main.cpp: main"]}
{"id": "C35", "title": "saveDot writes every node and every edge exactly once", "statement": "saveDot writes, in order, one node statement per node carrying its index, weight and coordinates and one edge statement per edge with its two end points, inside one graph block; node count, node texts and edge list can be recovered from the file, and with correctly rounded printing the weights read back within 0.005 and the coordinates within 5e-7. It throws iff the file cannot be opened; with fewer positions than weights its behaviour is undefined.", "quantifier": "all graphs", "why_tests_cant": "round trip for unbounded lists", "anchors": ["source/girgs/source/Generator.cpp: saveDot"]}
{"id": "C36", "title": "Circular cell numbering of hypergirgs", "statement": "AngleHelper's numbering is a complete binary tree; cellForPoint(angle,l) is the cell whose bounds contain the angle and is nested across levels; touching is adjacency on the circle; cellsBetween is the number of cells strictly between on the shorter arc and dist is a lower bound of the angular distance of points in the cells.", "quantifier": "every level < 31, every pair of cells, every angle in [0,2*pi)", "why_tests_cant": "all levels, cells and a continuum of angles", "anchors": ["source/hypergirgs/include/hypergirgs/AngleHelper.h", "source/hypergirgs/source/AngleHelper.cpp"]}
{"id": "C37", "title": "The precomputed point form decides the hyperbolic distance", "statement": "For radii > 0: Point::hyperbolicDistanceCosh equals cosh of hyperbolicDistance; isDistanceBelowR(p,q,cosh R) holds iff hyperbolicDistance(p,q) < R; both are symmetric; hyperbolicDistance is 0 for identical points and at least |r1-r2|.", "quantifier": "all polar coordinates with positive radius, all R >= 0", "why_tests_cant": "a real identity over a continuum", "anchors": ["source/hypergirgs/include/hypergirgs/Point.h: Point, hyperbolicDistance"]}
{"id": "C38", "title": "Hyperbolic comparison levels are sound and found in finite time", "statement": "RadiusLayer::partitioningBaseLevel(r1,r2,R) terminates iff some halving of the angle brings the distance down to R (always if |r1-r2| < R); two points with radii in [r1,R] and [r2,R] in non-touching cells of any level up to the returned one have distance > R.", "quantifier": "all radii 0 < r1,r2 <= R, all points", "why_tests_cant": "needs monotonicity of hyperbolic distance along radii within the disc", "anchors": ["source/hypergirgs/include/hypergirgs/RadiusLayer.h: partitioningBaseLevel"]}
{"id": "C39", "title": "Radius layers hand out exactly the points of their layer in the queried cell", "statement": "After RadiusLayer::buildPartition every point is in exactly one layer (by radius band) and one cell, pruned layers are empty, and cellIterators/pointsInCell/kthPoint enumerate exactly the points of a layer in a cell.", "quantifier": "all radii in (0,R], all angles, all thread counts and schedules", "why_tests_cant": "index arithmetic over all inputs", "anchors": ["source/hypergirgs/source/RadiusLayer.cpp: buildPartition", "source/hypergirgs/include/hypergirgs/RadiusLayer.h"]}
{"id": "C40", "title": "Hyperbolic sampler examines every pair exactly once (sequential)", "statement": "With one thread hypergirgs::generateEdges submits every unordered pair of distinct points to exactly one sampling call.", "quantifier": "all inputs", "why_tests_cant": "as for girgs", "anchors": ["source/hypergirgs/include/hypergirgs/HyperbolicTree.inl: visitCellPair"]}
{"id": "C41", "title": "Hyperbolic sampler examines every pair exactly once (parallel)", "statement": "The union of the round-robin share of all sampling threads and of all tasks equals the calls of the sequential recursion as a multiset: each call is made by exactly one thread.", "quantifier": "all inputs, all thread counts >= 2, all parallel start levels", "why_tests_cant": "round-robin bookkeeping over recursion for all thread counts", "anchors": ["source/hypergirgs/include/hypergirgs/HyperbolicTree.inl: visitCellPairSample, visitCellPairCreateTasks, generate"]}
{"id": "C42", "title": "The number of parallel tasks is exactly as precomputed", "statement": "visitCellPairCreateTasks produces exactly 10 tasks for start level 2 and 2^(L+1)+3*2^(L-1) tasks for start level L > 2, so the pre-seeded generators are never indexed out of bounds and every task has its own generator.", "quantifier": "every start level L >= 2", "why_tests_cant": "unbounded in L", "anchors": ["source/hypergirgs/include/hypergirgs/HyperbolicTree.inl: generate, visitCellPairCreateTasks, initialize_prngs"]}
{"id": "C43", "title": "The task queue processes every task exactly once under every interleaving", "statement": "With the shared fetch_add counter every task is taken by exactly one thread and each thread stops after the queue is exhausted, for every interleaving and number of threads.", "quantifier": "all thread counts, task counts, interleavings", "why_tests_cant": "interleavings cannot be enumerated", "anchors": ["source/hypergirgs/include/hypergirgs/HyperbolicTree.inl: generate"]}
{"id": "C44", "title": "hypergirgs::generateEdges returns iff the recursion is deeper than the parallel start level, or there is one thread", "statement": "With one thread the call returns. With t >= 2 threads and start level L = ceil(log2(2t)) it returns (under fair scheduling) iff two points of radius R-1 at angle pi/2^(L-1) are more than R apart; otherwise no task list is created and all other threads wait forever (in particular for every R <= 2).", "quantifier": "all supported inputs, thread counts, schedules including spurious wake-ups, random sources", "why_tests_cant": "depends on the relation between tree depth and thread count", "anchors": ["source/hypergirgs/include/hypergirgs/HyperbolicTree.inl: generate"]}
{"id": "C45", "title": "Hyperbolic threshold model is exact", "statement": "For T = 0 hypergirgs::generateEdges returns u--v iff hyperbolicDistance(u,v) < R (exact arithmetic), each pair once, whatever seed, thread count and schedule.", "quantifier": "all radii in (0,R], angles in [0,2*pi), thread counts, schedules", "why_tests_cant": "pruning soundness over a continuum", "anchors": ["source/hypergirgs/source/Generator.cpp: generateEdges", "source/hypergirgs/include/hypergirgs/HyperbolicTree.inl"]}
{"id": "C46", "title": "The distance filter never changes a sampling decision, exactly when 2*T*ln(99) <= R", "statement": "Deciding with the lookup table (coshDistForProb_upperBound / coshDistForProb_lowerBound) and falling back to the exact formula in between gives for every random number and distance the same decision as rnd * (1+exp((d-R)/(2T))) < 1, if and only if 2*T*ln(99) <= R; for the tables of skipping (type II) calls it always does.", "quantifier": "all R, T, max_prob, random numbers and distances", "why_tests_cant": "approximation table must be conservative everywhere", "anchors": ["source/hypergirgs/include/hypergirgs/DistanceFilter.h", "source/hypergirgs/include/hypergirgs/HyperbolicTree.inl: sampleTypeI, sampleTypeII"]}
{"id": "C47", "title": "Hyperbolic type II bound dominates every true connection probability", "statement": "For points in non-touching cells on a level up to the comparison level, the connection probability 1/(1+exp((d-R)/(2T))) is at most the bound of the filter chosen by the number of cells between, which is the only distance class (1 or 2) that can occur; the filter look-up is in bounds.", "quantifier": "all inputs and reachable type II cell pairs", "why_tests_cant": "monotonicity over a continuum; index arithmetic", "anchors": ["source/hypergirgs/include/hypergirgs/HyperbolicTree.inl: HyperbolicTree, sampleTypeII"]}
{"id": "C48", "title": "Hyperbolic sampling is schedule independent", "statement": "With fixed seed and thread count hypergirgs::generateEdges returns the same multiset of edges in every execution: the generator of each sampling call depends only on its thread share or task number, not on the schedule. With several threads the generators of the threads and tasks are seeded with consecutive non-overlapping blocks of the numbers of one engine seeded with the given seed.", "quantifier": "all inputs, seeds, thread counts, interleavings", "why_tests_cant": "interleavings cannot be enumerated", "anchors": ["source/hypergirgs/include/hypergirgs/HyperbolicTree.inl: generate, initialize_prngs"]}
{"id": "C49", "title": "hypergirgs::generateEdges returns a simple graph", "statement": "No self loops, no duplicate edges, indices in [0,n), for every random stream, temperature, thread count and schedule.", "quantifier": "all inputs, random streams, thread counts and schedules", "why_tests_cant": "as for girgs", "anchors": ["source/hypergirgs/source/Generator.cpp: generateEdges", "source/hypergirgs/include/hypergirgs/HyperbolicTree.inl"]}
{"id": "C50", "title": "sampleRadii and sampleAngles return n values in range", "statement": "sampleRadii returns n radii in (0,R), sampleAngles n angles in [0,2*pi), sampleRadiiAndAngles both; all executions of a call return the same vectors for a fixed seed and thread count. Assumption: cosh(alpha*R) exceeds the smallest double above 1. The call is defined for every n >= 1 and for n = 0 without parallelism; for n = 0 with parallel = true it requests 0 threads.", "quantifier": "all n, alpha > 0, R > 0, random streams, thread counts", "why_tests_cant": "bounds over a continuum; n = 0 edge case", "anchors": ["source/hypergirgs/source/Generator.cpp: sampleRadiiAndAnglesHelper"]}
{"id": "C51", "title": "calculateRadius inverts the degree formula", "statement": "The radius returned by calculateRadius is the unique R at which the leading order (2/pi) xi^2 n exp(-R/2) (pi T / sin(pi T)) of the expected average degree, xi = alpha/(alpha-1/2), equals deg; it grows with n, shrinks with deg and is at least 2 ln(8/pi) for the parameters of genhrg. For alpha = 1/2 (accepted by genhrg) it is infinite; for n >= 2^30 the behaviour is undefined.", "quantifier": "all 0 < n < 2^30, alpha > 1/2, 0 <= T < 1, deg > 0", "why_tests_cant": "identity over reals, boundary alpha = 1/2", "anchors": ["source/hypergirgs/source/Generator.cpp: calculateRadius", "source/cli/genhrg/main.cpp: main"]}
{"id": "C52", "title": "NetworKit radius search meets its accuracy when it returns", "statement": "If searchTargetRadiusForColdGraphs returns R then the expected degree at R differs from the target by at most epsilon. If the two asserted inequalities hold, the bracket halves, keeps the target between the values at its ends, and the search returns; otherwise a debug build aborts, and a release build does not return if the target exceeds xi^2 n/(2 pi) + epsilon (1/2 < alpha <= 1). For 0 < T < 1 calculateRadiusLikeNetworKit returns the same radius as calculateRadius.", "quantifier": "all n, k, alpha, epsilon", "why_tests_cant": "loop post-condition for arbitrary inputs", "anchors": ["source/hypergirgs/source/Generator.cpp: searchTargetRadiusForColdGraphs, getTargetRadius"]}
{"id": "C53", "title": "HRG/GIRG parameter conversion round trips", "statement": "girgWeightToRadius(radiusToGirgWeight(r,R),R) = r, radiusToGirgWeight(girgWeightToRadius(w,R,s),R) = w/s for w, s > 0, radii in [0,R] become weights in [1,exp(R/2)] in reverse order; girgPositionToAngle and angleToGirgPosition are mutually inverse and map [0,2*pi) to [0,1) and back.", "quantifier": "all reals in range", "why_tests_cant": "identities over reals", "anchors": ["source/girgs/include/girgs/Hyperbolic.h"]}
{"id": "C54", "title": "Command line parsing keeps the last value of every option", "statement": "parseArgs maps every option -k to the argument following its last occurrence as an option (empty if it is the last argument); an argument directly following an option is always its value, even if it starts with '-'; arguments not starting with '-' in option position are ignored.", "quantifier": "all argument vectors", "why_tests_cant": "unbounded argument vectors", "anchors": ["source/cli/gengirg/main.cpp: parseArgs", "source/cli/genhrg/main.cpp: parseArgs"]}
{"id": "C55", "title": "Range checks accept exactly the documented interval", "statement": "For a real value and real bounds, rangeCheck terminates the program with an error iff the value is outside the interval described by min, max and the exclusive flags. With bounds 1 (exclusive) and infinity every value above 1 and infinity itself are accepted. Infinite values are rejected by finite bounds; NaN passes every range check.", "quantifier": "all values including infinities and NaN", "why_tests_cant": "special values", "anchors": ["source/cli/gengirg/main.cpp: rangeCheck", "source/cli/genhrg/main.cpp: rangeCheck"]}
{"id": "C56", "title": "edge_diff computes both graph differences", "statement": "For sorted edge lists edge_diff returns the two multiset differences, in sorted order (for duplicate-free lists: exactly the edges only in the first and only in the second list); the counting version of inclusion_range returns their sizes. createReverseEdges appends the reverse of every edge in order; unifyEdges orders the end points of every edge and changes nothing else.", "quantifier": "all sorted edge lists", "why_tests_cant": "merge loop over unbounded lists", "anchors": ["source/examples/inclusion_single/main.cpp: edge_diff", "source/examples/inclusion_range/main.cpp: edge_diff", "source/examples: createReverseEdges, unifyEdges"]}
{"id": "C57", "title": "The type II bounds are ordered, and the strict debug assertion on them can fire", "statement": "In every type II call the lower bound of the distance term is at least the upper bound of the weight term. Equality is possible, so the assertion dist_lower_bound > w_upper_bound of debug builds can abort on supported input (release builds fall back to testing every pair).", "quantifier": "all supported inputs and all type II calls with non-empty cells", "why_tests_cant": "the boundary case (equality) needs a total weight that is a power of two times the squared minimum weight and cells at minimal distance on the deepest level; tests with random weights never hit it", "anchors": ["source/girgs/include/girgs/SpatialTree.inl: sampleTypeII lines 241-245"]}
{"id": "C58", "title": "The general degree estimator is the expected average degree, up to less than 1/n", "statement": "The same as C31 for estimateWeightScaling: for every alpha > 0 other than 1, the function searched has at c a value v with E(c) - 1/n < v <= E(c), where E(c) is the expected average degree of the GIRG with parameter alpha, weights scaled by c^(1/alpha) and independent uniform positions.", "quantifier": "all weight vectors of normal doubles, alpha, dimensions 1..30, histories of c > 0, thread schedules", "why_tests_cant": "The closed form with rich-club corrections and cached powers must equal an integral over the torus for every weight vector and every evaluation history.", "anchors": ["source/girgs/source/WeightScaling.cpp: estimateWeightScaling"]}
{"id": "C59", "title": "scaleWeights achieves the desired expected average degree, and returns exactly for feasible degrees", "statement": "With at least two nodes scaleWeights returns iff 0 < desired <= n-1 and runs forever otherwise. When it returns, the expected average degree of the GIRG with the scaled weights and uniform positions is at least desired - 0.02 and below desired + 0.02 + 1/n (for 8 < alpha < infinity, where the threshold model is used as approximation, below alpha/(alpha-1) times that).", "quantifier": "all weight vectors of normal doubles, all desired degrees, all accepted alpha, dimensions 1..30, thread schedules", "why_tests_cant": "Termination and accuracy of a search over a discontinuous estimator for every weight vector; the target is an expectation over continuous positions.", "anchors": ["source/girgs/source/Generator.cpp: scaleWeights", "source/girgs/source/WeightScaling.cpp"]}
{"id": "C60", "title": "Coordinate files of genhrg can be read back", "statement": "The coordinate file written by genhrg has one line per node, in node order, with the radius and the angle; given correctly rounded printing both read back with an error of at most 5e-18.", "quantifier": "all radii and angles of equal number", "why_tests_cant": "round trip for unbounded lists and all real values", "anchors": ["source/cli/genhrg/main.cpp: main"]}
{"id": "C61", "title": "hypergirgs::generateEdges samples the hyperbolic random graph model", "statement": "For T > 2^-52, 2 T ln 99 <= R and ideal random numbers, the graph returned by hypergirgs::generateEdges contains every pair of nodes independently with probability p(u,v), where p(u,v) is the documented 1/(1+exp((d-R)/(2T))) for the hyperbolic distance d, except for some pairs whose documented probability is below 10^-6, which may have p(u,v)=0 (for example two points of radius 5.5 on opposite sides of a disk of radius 6 at T=1/20 are never connected); p does not depend on thread count, schedule or build type.", "quantifier": "all supported points, T, R, thread counts, schedules, build types for which the call returns (C44)", "why_tests_cant": "A statement about the joint distribution of exponentially many graphs for every input and every distribution of work to threads; sampling can only refute it statistically.", "anchors": ["source/hypergirgs/include/hypergirgs/HyperbolicTree.inl: generate, sampleTypeI, sampleTypeII", "source/hypergirgs/source/Generator.cpp: generateEdges"]}
{"id": "C62", "title": "Parameters and exits of the command line tools", "statement": "gengirg and genhrg run with exactly the parameter values given on the command line (last occurrence, empty means default) or else the defaults of the help text; they print help or version exactly when asked, fail with an uncaught exception exactly if a value cannot be converted, end with a range error exactly if a converted value is outside its documented range (NaN passes) and then name such a parameter and write nothing.", "quantifier": "all command lines, all machines (thread count, conversion functions), all executions", "why_tests_cant": "unboundedly many command lines; repeated options, missing values and boundary values interact", "anchors": ["source/cli/gengirg/main.cpp: main, parseArgs, rangeCheck", "source/cli/genhrg/main.cpp: main, parseArgs, rangeCheck"]}
{"id": "C63", "title": "genhrg from command line to files", "statement": "A run of genhrg that ends normally has n points with radii in (0,R) and angles in [0,2pi), R being the radius whose expected degree is the requested one, and a simple graph on them, which for -t 0 (default) consists of exactly the pairs at hyperbolic distance less than R; exactly the requested files are written, the edge list file parses back to n and exactly this graph, the coordinate file to these coordinates up to 5e-18 per coordinate. The run can end normally exactly if the files can be opened and the edge sampler returns (always with one thread; with several threads iff the condition of C44 holds).", "quantifier": "all command lines, machines, schedules, random engines with values in range, file systems", "why_tests_cant": "composition of all modules over all command lines and node sets; each run checks one graph only", "anchors": ["source/cli/genhrg/main.cpp: main", "source/hypergirgs/source/Generator.cpp", "source/hypergirgs/source/HyperbolicTree"]}
{"id": "C64", "title": "gengirg from command line to files", "statement": "A run of gengirg that ends normally has n weights from 1 to n/2, a positive factor k and n positions in [0,1)^d such that the expected average degree for the weights k*w is the requested one (up to 0.02 and 1/n; for 8 < alpha < infinity the upper bound is larger by alpha/(alpha-1)); if 2^d*W^2*alpha/(alpha-1) < 2^29*(deg-0.02)*n for the drawn weights with sum W, the edges are a simple graph, for alpha = infinity exactly the threshold graph of k*w and the positions; exactly the requested files are written, .dot first; the edge list file parses back to n and this graph, the dot file to the weights k*w up to 0.005, the positions up to 5e-7 and the same edges. The exception for a bad alpha occurs only for NaN. A release build can end normally exactly if the files can be opened.", "quantifier": "all command lines, machines, schedules, random engines with values in range, file systems", "why_tests_cant": "composition of all modules over all command lines and node sets; each run checks one graph only", "anchors": ["source/cli/gengirg/main.cpp: main", "source/girgs/source/Generator.cpp", "source/girgs/source/WeightScaling.cpp"]}
{"id": "C65", "title": "Same command line and non-negative seeds: same files", "statement": "Two runs of genhrg with the same arguments, the same number of threads and non-negative seeds that end normally write the same files: identical coordinate files and edge list files with the same number of nodes and the same edges up to their order (identical with one thread). Two such runs of gengirg (exact arithmetic, size condition of C64) write dot files with the same nodes, labels and positions and the same edges up to their order, and edge list files with the same edges up to their order; they are identical if there are fewer than 2^20 edges.", "quantifier": "all command lines, machines, pairs of schedules, values of std::random_device, orders of OpenMP reductions", "why_tests_cant": "two runs with the same result say nothing about other schedules", "anchors": ["source/cli/genhrg/main.cpp: main", "source/cli/gengirg/main.cpp: main"]}
{"id": "C66", "title": "Rounding cannot break the sampler: always a simple graph", "statement": "In floating point arithmetic with rounding (every operation with relative error at most 2^-34 in the normal range, monotone, exact for integers up to 2^53 and powers of two; log2 monotone with error at most 1/4; in particular IEEE double), for at most 2^31-1 positive weights below 2^400 with W < 2^28*w_min^2 and w_max < 2^29*w_min and positions in [0,1)^d, 1 <= d <= 5, every alpha: girgs::generateEdges executes nothing undefined (no out of range conversion, shift or array access), returns, and returns a simple graph on the n nodes; the recursion examines every pair exactly once.", "quantifier": "all inputs, rounding errors within the bounds, random engines, thread counts, schedules, builds", "why_tests_cant": "layer and cell computations at powers of two depend on the last bit of the rounding; a test would have to hit such an input", "anchors": ["source/girgs/source/SpatialTree.inl: SpatialTree, generateEdges", "source/girgs/source/Generator.cpp: generateEdges"]}
{"id": "C67", "title": "Threshold graphs are correct up to rounding", "statement": "Under the conditions of C66, in a release build with alpha = infinity, for IEEE doubles: every pair of nodes with (dist+2^-52)^d < (1-e)*w_u*w_v/W is an edge of every result of girgs::generateEdges and no pair with w_u*w_v/W <= (1-e)*(dist-2^-52)^d is one, where e = (n+d+4)*2^-53 + 3*2^-43; dist is the exact distance on the torus and W the exact sum of the weights. For other rounding errors the same holds with the corresponding margin; without rounding the margin is zero.", "quantifier": "all inputs, rounding errors within the bounds, random engines, thread counts, schedules", "why_tests_cant": "whether pairs in far cells may be skipped depends on computed logarithms and sums; wrong results occur only for inputs near the boundaries", "anchors": ["source/girgs/source/SpatialTree.inl: visitCellPair, sampleTypeI", "source/girgs/source/SpatialTree.h", "source/girgs/source/Node.h: distance"]}
{"id": "C68", "title": "Disk radii hypergirgs does not support", "statement": "Defects that delimit the supported inputs. (a) In a disk of radius 1 < R < 4/3 with a point of radius at most R-1, every execution of hypergirgs::generateEdges is undefined (out of range write to the table of layer pairs). (b) In a disk of radius 10^-8 <= R <= 1/2 at temperature 0, two points with angles in [0,pi/2) and [pi,3pi/2) and radii adding up to less than R have distance less than R, but no execution returns the edge between them; with one thread executions exist. Hence the exclusion of these radii in C40-C53 is necessary.", "quantifier": "all points in such disks, temperatures (a), random engines, thread counts, schedules, builds", "why_tests_cant": "a test shows the failure for one input; the claim is that every such input fails, so that the documented precondition is needed", "anchors": ["source/hypergirgs/source/RadiusLayer.cpp: buildPartition", "source/hypergirgs/include/hypergirgs/RadiusLayer.h: partitioningBaseLevel", "source/hypergirgs/include/hypergirgs/HyperbolicTree.inl: HyperbolicTree, visitCellPair"]}
{"id": "C69", "title": "The parallel radix sort is free of data races", "statement": "For every vector of up to 2^34 elements with keys in range, every team size OpenMP may give and every schedule: in each of the three phases of intsort between its barriers (counting digits, scattering into the buffer, sorting buckets) there is no reachable state in which two threads are about to access the same memory location and one of them writes.", "quantifier": "all inputs, team sizes, schedules, reachable states", "why_tests_cant": "a race detector reports races of the executions it sees; whether the ranges of the threads are disjoint depends on input and thread count", "anchors": ["source/girgs/include/girgs/IntSort.h: intsort, IntSortInternal", "source/hypergirgs/include/hypergirgs/IntSort.h"]}
{"id": "C70", "title": "Data races while the cell index is built", "statement": "The marking loop of buildPartition has no data race for any distribution of its iterations. The loops that fill the gaps, run by t threads over M cells, have a data race if and only if t >= 2 and M >= 2 (a defect); every race is between thread r reading and thread r+1 writing the first entry of the chunk of thread r+1, index ceil(M/t)*(r+1), and all neighbouring non-empty chunks have it. (C12: under sequential consistency the result is nevertheless right in every schedule.)", "quantifier": "all cell counts, nodes, thread counts, schedules, reachable states", "why_tests_cant": "race detectors only see executed schedules; that there is no other race is a statement about all schedules", "anchors": ["source/girgs/include/girgs/SpatialTree.inl: buildPartition", "source/hypergirgs/source/RadiusLayer.cpp: buildPartition"]}
{"id": "C71", "title": "Data races in the task queue of the hyperbolic sampler", "statement": "With at least two threads, the only data race on a plain variable of the parallel hypergirgs sampler between adjacent steps is on the flag tasks_generated: written by the last thread under the mutex, read by another thread in the test before it locks the mutex; if there is a task list, this race occurs with every thread count, otherwise there is no race. A thread that locked the mutex happens after the creation of the task list; a thread that skipped the mutex because it saw the flag does not, and for every thread count there is an execution in which it reads the task list in a data race with its creation (a defect).", "quantifier": "all thread counts, task counts, schedules, reachable states and traces", "why_tests_cant": "the race needs a particular timing, and on most hardware shows no effect", "anchors": ["source/hypergirgs/include/hypergirgs/HyperbolicTree.inl: generate"]}
{"id": "C72", "title": "Debug assertions of the GIRG sampler", "statement": "A debug build of girgs::generateEdges, called with supported input, evaluates its assertions without undefined behaviour, and none of them fails, with one exception: the assertion dist_lower_bound > w_upper_bound in type II sampling (SpatialTree.inl:245). The build aborts exactly if the recursion makes a type II call for two non-empty cells for which the two bounds are equal, which requires the total weight to be a power of two times the square of the smallest weight; in all other cases it runs through. In particular the counters of pairs handled by the two kinds of calls add up to n(n-1) (the final assertion), whatever the schedule, and the assertions of the public query pointsInCell hold for every cell of every level up to the target level.", "quantifier": "all supported inputs (dimensions 1 to 5, weights, positions, alpha), thread counts, schedules, random number streams and outcomes", "why_tests_cant": "an assertion that holds on all tested inputs may fail on another: line 245 fails only for special total weights", "anchors": ["source/girgs/include/girgs/SpatialTree.inl: SpatialTree, generateEdges, sampleTypeI, sampleTypeII, weightLayerTargetLevel, partitioningBaseLevel, buildPartition", "source/girgs/include/girgs/WeightLayer.h: pointsInCell, cellIterators, levelledCell", "source/girgs/include/girgs/BitManipulationGeneric.inl: deposit", "source/girgs/include/girgs/IntSort.h: ilog2"]}
{"id": "C73", "title": "Debug assertions of the hyperbolic sampler", "statement": "A debug build of hypergirgs::generateEdges, called with supported input, evaluates its assertions without undefined behaviour. While the partition is built only two of them can fail: layer_height <= R, exactly if the disk radius is below 1, and radii[i] < R, exactly if some point lies on the boundary of the disk. While sampling only the assertion behind the acceptance shortcut of type I sampling (HyperbolicTree.inl:331) can fail, and only if the temperature is above 2^-52 and R < 2 T ln 99; in that case it does fail for some draws, on every input with two coinciding points. Hence with R >= 1, all points inside the disk and 2 T ln 99 <= R a debug build never aborts. The final assertion, that the numbers of ordered pairs counted by type I and type II calls add up to n(n-1), is always evaluated by a call that returns and always holds.", "quantifier": "all supported radii, angles, temperatures and disk radii (exact arithmetic), all numbers of threads and all schedules of the construction and of the task queue, all sequences of random numbers, all assertion instances evaluated", "why_tests_cant": "each execution evaluates millions of assertion instances depending on input, random numbers and schedule; a test run without abort says nothing about other inputs, and the failing ones need specific draws", "anchors": ["source/hypergirgs/include/hypergirgs/HyperbolicTree.inl: generate, sampleTypeI, sampleTypeII", "source/hypergirgs/source/RadiusLayer.cpp: RadiusLayer, buildPartition", "source/hypergirgs/include/hypergirgs/RadiusLayer.h: partitioningBaseLevel, levelledCell, cellIterators, pointsInCell", "source/hypergirgs/include/hypergirgs/Point.h: Point, isDistanceBelowR", "source/hypergirgs/include/hypergirgs/DistanceFilter.h: coshDistForProb_upperBound, coshDistForProb_lowerBound"]}
{"id": "C74", "title": "A GIRG contains, or is contained in, the hyperbolic random graph of the same points", "statement": "Take the points of a hyperbolic random graph (temperature 0, disk radius R), give a point with radius r and angle a the weight exp((R-r)/2) and the position a/2pi, and multiply all weights by k. Let W be the sum of the unscaled weights. Whenever both threshold samplers return: if W <= sqrt 2 * k * exp(R/2), each edge returned by the hyperbolic sampler is also returned by the GIRG sampler; if 2 pi k exp(R/2) <= W, each edge returned by the GIRG sampler is also returned by the hyperbolic sampler. For k <= k' the GIRG for k is a subgraph of the GIRG for k'.", "quantifier": "all supported points (exact arithmetic), all scalings, all executions, seeds and thread counts of the two samplers", "why_tests_cant": "an inequality between two geometries over all point sets; the two samplers share no code, and a sampled inclusion says nothing about the constants", "anchors": ["source/girgs/include/girgs/Hyperbolic.h: radiusToGirgWeight, angleToGirgPosition", "source/examples/inclusion_single/main.cpp: main", "source/girgs/source/Generator.cpp: generateEdges", "source/hypergirgs/source/Generator.cpp: generateEdges"]}
{"id": "C75", "title": "What inclusion_single prints", "statement": "A normal run of inclusion_single prints, for the degrees deg+odeg, deg+odeg+step, ... and then for deg+odeg-step, deg+odeg-2 step, ..., one line each: the degree, the numbers of edges that only the hyperbolic random graph and only the GIRG have, the scaling and the number of edges of the GIRG, where the GIRG is the threshold GIRG of the converted points with a scaling whose expected degree is within 2/100 (plus 1/n) of the printed degree. The first list ends exactly at the first degree whose GIRG contains the hyperbolic random graph, the second at the first one whose GIRG is contained in it. If degrees exist at which containment is certain (C75_bounds gives such degrees) and a GIRG can be generated for all degrees up to them, a release build has a run that ends normally. Exit status and parameters follow from the arguments as documented.", "quantifier": "all command lines with readable numbers, all points the samplers can draw (exact arithmetic, radius between 4/3 and 41.25), all executions", "why_tests_cant": "the searched degrees depend on the drawn points; a test compares one graph with the same program's output", "anchors": ["source/examples/inclusion_single/main.cpp: main, createReverseEdges, edge_diff", "source/girgs/source/Generator.cpp: scaleWeights, generateEdges", "source/girgs/include/girgs/Hyperbolic.h"]}
{"id": "C76", "title": "What inclusion_range prints", "statement": "A normal run of inclusion_range prints, for each repetition and each size n1, 2 n1, 4 n1, ... up to n2, one block of lines about a hyperbolic random graph with n points drawn with the seeds of this repetition and size: its average degree h, and the middles of two intervals of length at most 1/2 (above 1/4 if a search was necessary) inside of [h, 2h] and [h/2, 6h/5]. The ends of the intervals are the initial ends, or degrees for which a threshold GIRG with this expected degree (within 2/100 plus 1/n) on the converted points was generated: at the lower end of the first interval it does not contain the hyperbolic random graph, at the upper end it does; at the lower end of the second interval it is contained in the hyperbolic random graph, at the upper end it is not. The warnings are printed exactly if l1 = h or u2 = 6h/5. If h > 1/2 and 3h/2 > n-1 there is no normal run; if h <= (n-1)/2 for all drawn graphs, the seeds fit into int and the radius search and the hyperbolic sampler return, a release build has a normal run. Exit status and parameters follow from the arguments as documented.", "quantifier": "all command lines with readable numbers, all points the samplers can draw (exact arithmetic, radius between 4/3 and 41.25), all executions", "why_tests_cant": "the bisections depend on the drawn points and on the generated graphs; whether a search interval was left or a degree is impossible shows only for particular inputs", "anchors": ["source/examples/inclusion_range/main.cpp: main, edge_diff, unifyEdges", "source/girgs/source/Generator.cpp: scaleWeights, generateEdges", "source/girgs/include/girgs/Hyperbolic.h"]}
{"id": "C77", "title": "What the benchmark programs count", "statement": "The per-thread counter of the benchmarks returns, whatever the interleaving of the threads, the number of calls of add modulo 2^64, provided every thread passes its own id; two threads that share an id can lose a call. A benchmark therefore counts exactly as many edges as generateEdges would return for the same points, seeds and thread count. A line printed by bench_girg belongs to weights between 1 and n/2, positions in the unit cube and a scaling for which the requested degree is the expected average degree (within 2/100 plus 1/n); the number of edges is the number of pairs connected by the threshold rule (alpha = infinity, weights not too large), and the printed degree is 2 edges / n. bench_girg prints 560 lines with the seeds 1, 2, ..., 560, and a release build ends. A line of bench_hyper belongs to points in the disk of the printed radius, at which the expected degree is the requested one, and at temperature 0 the number of edges is the number of pairs of distance at most R.", "quantifier": "all thread counts and interleavings, all floating point types (counting), all points the samplers can draw (exact arithmetic; radius between 4/3 and 41.25)", "why_tests_cant": "lost updates depend on the schedule; the benchmarks print only the number of edges, so a wrong count is not visible in a run", "anchors": ["source/examples/bench_girg/CounterPerThread.h: CounterPerThread", "source/examples/bench_girg/main.cpp: measure_edge_generation, measure, main", "source/examples/bench_hyper/main.cpp: benchmark"]}
{"id": "C78", "title": "Teams smaller than requested", "statement": "OpenMP may execute a parallel region with fewer threads than requested (dynamic adjustment, thread limit, or a call from inside another parallel region, where the team has one thread although omp_get_max_threads() is larger). girgs::generateEdges tolerates this: for every non-empty team and every split of the loop among its threads it returns a simple graph, and the threshold graph for alpha = infinity. hypergirgs::generateEdges does not: whenever more than one thread is requested and the team is smaller, no execution returns, for every input, because the thread that would create the task list does not exist and all others wait for it.", "quantifier": "all inputs, floating point types (hyperbolic sampler), requested thread counts, team sizes, loop splits and schedules", "why_tests_cant": "tests run with full teams; a hang for every schedule is not observable in finitely many runs", "anchors": ["source/hypergirgs/include/hypergirgs/HyperbolicTree.inl: generate (num_threads, tid + 1 == num_threads)", "source/girgs/include/girgs/SpatialTree.inl: generateEdges"]}
{"id": "C79", "title": "Rounding cannot break the hyperbolic sampler", "statement": "With rounding errors at every floating point operation and in the elementary functions (in particular for IEEE doubles with correctly rounded functions), hypergirgs::generateEdges behaves as in exact arithmetic as far as the structure of the result is concerned: for radii in (2^-53 R, R + 2^-44], angles in [0, 2 pi), temperature 0 or between 1/16 and 2^64, and a disk radius R <= 34 with ceil(R) <= 1.45 R for which no comparison of partitioningBaseLevel is a close call, the data structure is built in exactly one way, the comparison levels are the exact ones, nothing is accessed out of bounds and no conversion to an integer type is undefined, every pair of points is examined exactly once, every returned list is a simple graph, two executions with the same random numbers return the same edges, and the inputs for which it returns are those of exact arithmetic. The bound on the radii is necessary: in a disk of integral radius a point with a radius of at most 2^-55 has a layer number beyond the last layer, and a table is read out of bounds.", "quantifier": "all floating point arithmetics with the stated error bounds (instance: IEEE binary64), all inputs in the stated range, builds, thread counts, schedules and random number sources", "why_tests_cant": "a wrong cell or layer for a single rounding of a single input would show up as a rare crash or a missing pair; tests compare a few graphs only", "anchors": ["source/hypergirgs/source/RadiusLayer.cpp: buildPartition", "source/hypergirgs/include/hypergirgs/RadiusLayer.h: partitioningBaseLevel", "source/hypergirgs/include/hypergirgs/HyperbolicTree.inl", "source/hypergirgs/include/hypergirgs/AngleHelper.h: cellForPoint, dist", "source/hypergirgs/include/hypergirgs/DistanceFilter.h"]}
{"id": "C80", "title": "Hyperbolic threshold graph up to rounding", "statement": "With temperature 0 and rounding errors at every floating point operation and in the elementary functions (in particular for IEEE doubles with correctly rounded functions), hypergirgs::generateEdges returns the threshold graph up to close calls: two points with radii r, s are adjacent if the hyperbolic cosine of their distance is below cosh R by more than 2^-40 (cosh r cosh s + cosh R), and they are not adjacent if it is above cosh R by at least 2^-46 (cosh r cosh s + cosh R). If no pair of points is within these margins, the result is exactly the graph of the pairs at distance below R. In particular the pairs that are skipped without a test because their cells are far apart are not closer than R by more than the margin.", "quantifier": "all floating point arithmetics with the stated error bounds (instance: IEEE binary64), all inputs in the range of C79, builds, thread counts, schedules and random number sources", "why_tests_cant": "tests compare graphs of a few point sets with a naive implementation that rounds in the same way", "anchors": ["source/hypergirgs/include/hypergirgs/Point.h: Point, isDistanceBelowR", "source/hypergirgs/include/hypergirgs/HyperbolicTree.inl: visitCellPair, sampleTypeI, sampleTypeII", "source/hypergirgs/source/RadiusLayer.cpp: partitioningBaseLevel, buildPartition"]}
{"id": "C81", "title": "Alternative bit deposit of the benchmark", "statement": "The deposit implementation in source/benchmarks/bmi-benchmarks that uses fewer pdep instructions (SDeposit<D>, D = 1..5) returns the Morton code of every tuple of 32 bit words, also outside of the documented coordinate range (bit k of the result is bit k/D of coordinate k mod D), and so does the BMI2 build of the library; hence they agree on every input, and the portable build agrees with them in the documented range, but not outside of it for D = 2..5, where the benchmark's random inputs mostly lie.", "quantifier": "all dimensions 1 to 5 and all tuples of 32 bit words", "why_tests_cant": "2^(32 D) inputs; the benchmark draws a few random ones and never compares results", "anchors": ["source/benchmarks/bmi-benchmarks/main.cpp: PImpl::impl_pdep, SDeposit", "source/girgs/include/girgs/BitManipulation.h"]}
{"id": "C82", "title": "What bench_hyper runs and skips", "statement": "Whatever times are measured, bench_hyper consists of 30 groups (5 iterations x temperatures 0, 0.5, 0.9 x exponents 2.2, 3) of 38 pairs of degree and size in a fixed order (sizes floor(10^(4+i/3)), at least 20 times the degree); pair i of group k has seed 380 k + 10 i, whether or not other sizes were skipped, so a run is reproducible from its line; a pair is skipped exactly if an earlier pair of the same group of no larger size took more than 100 seconds; otherwise the printed line is one that the benchmark function can print for these parameters. Conversely every such history is an execution.", "quantifier": "all measured times, all executions of all runs, all thread counts, every arithmetic that computes the sizes (exact arithmetic does)", "why_tests_cant": "the history depends on measured times; a full run takes hours", "anchors": ["source/examples/bench_hyper/main.cpp: main, benchmark"]}
{"id": "C83", "title": "Too large disks are undefined behaviour", "statement": "In exact arithmetic no execution of hypergirgs::generateEdges is defined for a disk radius R >= 124/3 with positive temperature (for temperature 0: with 124/3 <= R <= 42.6 or R >= 44.2), whatever the points: more than 2^31 cells are numbered with an int, or 1 << level overflows. Consequences: genhrg with parameters it accepts (such as -n 50000000 -alpha 0.6 -t 0.9) does not end normally if the expected degree at radius 124/3 is at least the requested one; bench_hyper does not end normally unless some run takes more than 100 seconds, as the two largest sizes with degree 10, exponent 2.2 and temperature 0.9 are undefined.", "quantifier": "all radii of at least 124/3, all point sets, temperatures, thread counts, schedules and random numbers; all accepted command lines; all machines and measured times", "why_tests_cant": "absence of any defined execution; the smallest inputs have tens of millions of points and more than 8 GB of cells", "anchors": ["source/hypergirgs/include/hypergirgs/HyperbolicTree.inl: HyperbolicTree, buildPartition", "source/hypergirgs/include/hypergirgs/RadiusLayer.h", "source/hypergirgs/source/RadiusLayer.cpp: partitioningBaseLevel, buildPartition", "source/cli/genhrg/main.cpp", "source/examples/bench_hyper/main.cpp"]}
{"id": "C84", "title": "The two edge decisions of the math benchmark agree", "statement": "EdgeProbNaive and EdgeProbSimplified of math-benchmarks both decide u < p / maxProb with p = 1/(1+exp((d-R)/(2T))) and d the hyperbolic distance of the two points, hence agree for every random number u, if T > 0, maxProb > 0 and both radii are positive. A point in the centre of the disk (radius 0) makes them disagree: the simplified version gets a NaN, which is replaced by distance 0.", "quantifier": "all positive temperatures and bounds, all radii R, all pairs of points with positive radii, all random numbers (exact arithmetic)", "why_tests_cant": "equality of two decision functions over a continuum of points and random numbers; the benchmark only compares running times", "anchors": ["source/benchmarks/math-benchmarks/main.cpp: EdgeProbNaive, EdgeProbSimplified", "source/hypergirgs/include/hypergirgs/Point.h"]}
{"id": "C85", "title": "Sampled nodes are valid input in floating point arithmetic", "statement": "With rounding errors at every floating point operation and in the elementary functions, and with random numbers as std::uniform_real_distribution of libstdc++ computes them (which may round up to the end of the interval): generatePositions returns coordinates in [0,1); sampleAngles returns angles in [0,2p) for the constant p for pi; for 1/2 <= alpha <= 16 and 1/2 <= R <= 34, sampleRadii returns radii between 2^-33 and R + 2^-44 (rounding may exceed R). These are the ranges in which the guarantees of C66 and C79/C80 hold, so the graphs sampled from them are simple graphs on the n nodes, and threshold graphs up to close calls for temperature 0.", "quantifier": "all floating point arithmetics with the stated error bounds (instance: IEEE binary64 with correctly rounded functions), all sequences of random numbers in [0,1), thread counts, schedules, seeds, numbers of nodes", "why_tests_cant": "the critical random numbers next to the ends of the intervals have probability 2^-53; a test never draws them", "anchors": ["source/girgs/source/Generator.cpp: generatePositions, generateEdges", "source/hypergirgs/source/Generator.cpp: sampleRadii, sampleAngles, sampleRadiiAndAngles, generateEdges"]}
{"id": "C86", "title": "Timers measure from the last start to the end of the scope", "statement": "A ScopedTimer prints a line on destruction iff it has been started (by autostart or by start) and its label is not empty, and sets its variable iff it has been started and has one; the time is the one since the last start, whatever was called before; a timer constructed without arguments and never started does neither. report prints a line with the label of the timer, report(prefix) one with the given prefix, both with the time since the last start. report fails its assertion exactly on a timer that has not been started. With a clock that does not go back the printed time is not negative and at most the stored one. In IEEE arithmetic times below 104 days are exact up to a relative error of 2^-53, and their order is preserved.", "quantifier": "all constructors and arguments, all sequences of calls of methods, all clocks (for the order: all monotone clocks), debug and release builds", "why_tests_cant": "the sequence of calls and the readings of the clock are not bounded and not under the control of a test", "anchors": ["source/girgs/include/girgs/ScopedTimer.h: ScopedTimer", "source/hypergirgs/include/hypergirgs/ScopedTimer.h: ScopedTimer"]}
{"id": "C87", "title": "Profiling prints fixed lines, and the times of the benchmarks are consistent", "statement": "Without profiling the library writes no profiling output and does not read the clock. With profiling the constructors of SpatialTree and HyperbolicTree and generate print exactly the fixed lines, once each, inner parts before the parts that contain them ('Max Connection Prob.' iff T is not 0; 'First Parallel Level' iff there is more than one thread; 'Gen Tasks' iff in addition the tree is deep enough). With a clock that does not go back, all times are not negative and a time is at least the sum of the times of its parts. The benchmark programs set all the (uninitialised) time variables before they print them, and the times of the parts add up to at most the total time.", "quantifier": "all clocks (for sums: all monotone clocks), thread counts, temperatures, numbers of levels, debug and release builds", "why_tests_cant": "a test sees only the clock readings of its own run; that every variable is set on every path is a statement about all paths", "anchors": ["source/girgs/include/girgs/SpatialTree.inl: SpatialTree, buildPartition", "source/hypergirgs/include/hypergirgs/HyperbolicTree.inl: HyperbolicTree, generate", "source/hypergirgs/source/RadiusLayer.cpp: buildPartition", "source/examples/bench_girg/main.cpp: measure", "source/examples/bench_hyper/main.cpp: benchmark"]}
{"id": "C88", "title": "Sampled weights are valid input in floating point arithmetic", "statement": "In IEEE arithmetic, for 2 <= ple <= 32 and 2 <= n <= 2^31, all n weights that generateWeights returns are finite numbers of [1 - eps, (1 + 2^-47) n/2], where eps is the relative error of pow. Hence weights from generateWeights and positions from generatePositions (n < 2^29, 1 to 5 dimensions) are supported input of generateEdges whenever the weights sum up to less than 2^27, which is guaranteed for n <= 16000: it returns, and always a simple graph on the n nodes.", "quantifier": "all n, exponents, dimensions, seeds, random numbers of [0,1), thread counts and schedules, rounding errors within the bounds of the type double and of pow", "why_tests_cant": "whether a rounded weight falls below 1 or above n depends on 2^53 possible random numbers for each n and exponent", "anchors": ["source/girgs/source/Generator.cpp: generateWeights, generatePositions, generateEdges"]}
{"id": "C89", "title": "The GIRG sampler does linear work in expectation", "statement": "Let W be the sum and w0 the smallest of the weights. For supported input generateEdges makes at most 8*6^D*(3W/w0 + W/w0^2) recursive calls and loop iterations, whatever the positions, and its cell index has at most 1 + W/w0 + W/w0^2 entries. For uniformly random positions, alpha > 1 and ideal random numbers, the expected number of node pairs it looks at is at most 10*8^D*alpha/(alpha-1)*W, however the work is split over threads; for alpha = infinity in a release build it is at most 2*8^D*W. The expected work of one thread is at most 24*8^D*alpha/(alpha-1)*(W + W/w0 + W/w0^2): linear in n for weights >= 1 with bounded average.", "quantifier": "all weights, numbers of nodes, dimensions 1 to 5, alpha > 1 or infinite, thread counts and schedules; expectation over the positions and the random numbers", "why_tests_cant": "running times of samples show neither the expectation nor a bound that holds for every number of nodes and every weight sequence", "anchors": ["source/girgs/include/girgs/SpatialTree.inl: generateEdges, visitCellPair, sampleTypeI, sampleTypeII, buildPartition"]}
{"id": "C90", "title": "The hyperbolic sampler does linear work in expectation", "statement": "For supported input hypergirgs::generateEdges makes at most 864*exp(R/2) recursive calls and loop iterations, whatever the points, and its cell index has at most 9*exp(R/2) entries. For given radii, uniformly random angles, temperature T < 1 and ideal random numbers, the expected number of pairs of points it looks at is at most 90/(1-T) times the sum of exp((R-r_u-r_v)/2) over all pairs, however the work is split over threads; for T = 0 at most 18 times that sum, whatever the random numbers. For radii distributed as sampleRadii returns them with alpha > 1/2, and R = 2 ln n + C, the expected work of one thread is at most (864 e^(C/2) + 180/(1-T) (2 alpha/(2 alpha - 1))^2 e^(-C/2)) * n.", "quantifier": "all numbers of points, radii, disk radii in the supported range, temperatures below 1, thread counts and schedules; expectation over angles, radii and random numbers", "why_tests_cant": "running times of samples show neither the expectation nor a bound that holds for every number of points and every radius", "anchors": ["source/hypergirgs/include/hypergirgs/HyperbolicTree.inl: generate, visitCellPair, sampleTypeI, sampleTypeII", "source/hypergirgs/source/Generator.cpp: sampleRadiiAndAnglesHelper"]}
{"id": "C91", "title": "Debug assertions of scaleWeights", "statement": "For weights between 2^-300 and 2^300, alpha infinite or at least 1/64 (and not 1) and a desired degree of at most n-1, no assertion of scaleWeights fails in a debug build, and the debug build ends exactly like the release build: same returned factor and weights, or it runs forever too (degree <= 0). For a desired degree above n-1, where the release build runs forever, a debug build always aborts. Outside of the range of weights a debug build can abort although the degree is feasible and the release build returns (1, 2^-600, 2^-600, degree 2). The release build never reaches undefined behaviour.", "quantifier": "all weight vectors of at least two (for the abort: one) normal doubles, all desired degrees, dimensions 1..30, all accepted alpha, every implementation of std::partition and std::sort, thread partitions", "why_tests_cant": "The failing assertion depends on the history of all thresholds queried by the search; absence of failures must hold for every weight vector and target.", "anchors": ["source/girgs/source/WeightScaling.cpp: exponentialSearch, LazySorter::sort_downto, estimateWeightScalingThreshold, estimateWeightScaling", "source/girgs/source/Generator.cpp: scaleWeights"]}
{"id": "C92", "title": "Sampled nodes are independent, with the documented distributions, if the seed ranges do not overlap", "statement": "If the random engines of different seeds start in independent states and are ideal: the weights returned by generateWeights are independent with the truncated power law; the positions returned by generatePositions are independent and uniform in [0,1)^D; the radii of sampleRadii are independent with density proportional to sinh(alpha r) (cut below the smallest double above cosh 0), the angles of sampleAngles are independent and uniform in [0,2pi), and the points of sampleRadiiAndAngles have independent radii and angles, whatever the number of threads and the schedule. Weights and positions (radii and angles) sampled with two seeds are independent of each other if the two seeds differ by at least the number of threads. If they differ by less, this is false: some weights are a function of coordinates of other nodes; with equal seeds in dimension 1 the weight of every node is a function of its position.", "quantifier": "all numbers of nodes, parameters, dimensions, seeds, thread counts, partitions of the loops and interleavings; all ideal engines", "why_tests_cant": "independence of all entries is a statement about the joint distribution of all outputs; a test sees samples of it, for some thread counts", "anchors": ["source/girgs/source/Generator.cpp: generateWeights, generatePositions", "source/hypergirgs/source/Generator.cpp: sampleRadiiAndAnglesHelper", "source/girgs/include/girgs/Generator.h: weightSeed"]}
{"id": "C93", "title": "The generated graph has the requested expected average degree", "statement": "Pipeline scaleWeights, generatePositions, generateEdges with ideal, independently started random engines, weights from 1 to n/2 as generateWeights returns them, alpha > 1 or infinite, dimension 1..5, desired degree from 1 to n-1, sum of weights not too large for 32 bit cells: the expected average degree of the returned graph (twice the expected number of edges divided by n) is at least desired - 0.02 and less than desired + 0.02 + 1/n for alpha = infinity. For finite alpha the upper bound is the same up to alpha = 8 (times alpha/(alpha-1) above), and the lower bound is smaller by at most 10^-6*(n-1) and by at most the fraction alpha/(alpha-1)*10^(-6(1-1/alpha)), because pairs with tiny probability may be skipped. For fixed positions the expected number of edges is the sum of the connection probabilities of the pairs.", "quantifier": "all weight vectors, numbers of nodes, dimensions, alpha, desired degrees, thread counts, loop partitions, seeds, builds; all ideal engines", "why_tests_cant": "an expectation over all outcomes of the random engines; a test averages some runs of some parameters, and cannot bound the loss by skipped pairs", "anchors": ["source/girgs/source/Generator.cpp: scaleWeights, generatePositions, generateEdges", "source/girgs/source/WeightScaling.cpp: estimateWeightScaling, estimateWeightScalingThreshold", "source/girgs/include/girgs/SpatialTree.inl: sampleTypeI, sampleTypeII"]}
{"id": "C94", "title": "The hyperbolic random graph has the requested expected average degree", "statement": "Pipeline calculateRadius, sampleRadiiAndAngles (or sampleRadii and sampleAngles with disjoint seed ranges), generateEdges with ideal, independently started random engines: the expected average degree of the returned graph (twice the expected number of edges divided by n) is the published leading term for n-1 other nodes, 2/pi*xi^2*(n-1)*exp(-R/2)*(pi T/sin(pi T)), up to explicit relative errors: of order exp(-(gamma-1)R/2) for every gamma with 1 <= gamma <= 2, gamma < 2 alpha, gamma*T <= 1, of order exp(-(alpha-1/2)R), and, for positive temperature, 10^(-6(1-T))/(1-T) from below because pairs with tiny probability may be skipped. So with the radius of calculateRadius, if alpha >= 1, T <= 1/2 and 20 <= R <= 41.25, it is between 95% (97% for T = 0) and 102% of desired*(n-1)/n. For fixed points and T > 0 the expected number of edges is the sum of the connection probabilities of the pairs, except some below 10^-6.", "quantifier": "all numbers of nodes, alpha > 1/2, temperatures T = 0 and 2^-52 < T < 1 with 2 T ln 99 <= R, radii of the supported range, desired degrees, thread counts, loop partitions, seeds, builds; all ideal engines", "why_tests_cant": "an expectation over all outcomes of the random engines and all parameters; a test averages some runs of some parameters, and cannot separate the bias of the formula from a bias of the sampler", "anchors": ["source/hypergirgs/source/Generator.cpp: calculateRadius, sampleRadii, sampleAngles, sampleRadiiAndAngles, generateEdges", "source/hypergirgs/include/hypergirgs/HyperbolicTree.inl: sampleTypeI, sampleTypeII"]}
{"id": "C95", "title": "The expected degree of a node of a GIRG is proportional to its weight", "statement": "Pipeline generatePositions, generateEdges with ideal, independently started random engines: the expected degree of a node u is, for alpha = infinity, the sum over the other nodes v of min(1, 2^D w_u w_v / W); so it is at most 2^D w_u (1 - w_u/W), with equality if 2^D w_u w_v <= W for all v. For finite alpha = a > 0 it is at most the sum of the mean connection probabilities t + (t - t^a)/(a-1), t = 2^D w_u w_v / W (t - t ln t for a = 1; 1 if t >= 1), and smaller by at most 10^-6 (n-1), for a > 1 also by at most the fraction a/(a-1)*10^(-6(1-1/a)); for a > 1 it is at most a/(a-1) * 2^D w_u (1 - w_u/W). For fixed positions the expected degree is the sum of the connection probabilities with the other nodes, except some below 10^-6.", "quantifier": "all weights of the supported range, nodes, dimensions 1 to 5, alpha = infinity or positive, thread counts, loop partitions, seeds, builds; all ideal engines", "why_tests_cant": "an expectation over all outcomes of the random engines, for every weight vector and node; a test averages some runs", "anchors": ["source/girgs/include/girgs/SpatialTree.inl: generateEdges, visitCellPair, sampleTypeI, sampleTypeII", "source/girgs/source/Generator.cpp: generatePositions, generateEdges"]}
{"id": "C96", "title": "The expected degree of a node of a hyperbolic random graph is proportional to exp(-r/2)", "statement": "Pipeline sampleRadiiAndAngles (or sampleRadii and sampleAngles with disjoint seed ranges), generateEdges with ideal, independently started random engines: the expected degree of a node, given its radius r, is (n-1)*(2/pi)*xi*exp(-r/2)*(pi T/sin(pi T)), up to explicit relative errors: of order exp(-(gamma-1)r/2) for every gamma with 1 <= gamma <= 2, gamma < 2 alpha, gamma*T <= 1, of order exp(-(alpha-1/2)R), and, for positive temperature, 10^(-6(1-T))/(1-T) from below. For fixed points and T > 0 the expected degree of a node is the sum of the connection probabilities with the other nodes, except some below 10^-6.", "quantifier": "all numbers of nodes, nodes, measurable sets of radii, alpha > 1/2, temperatures T = 0 and 2^-52 < T < 1 with 2 T ln 99 <= R, radii of the supported range, thread counts, loop partitions, seeds, builds; all ideal engines", "why_tests_cant": "a conditional expectation over all outcomes of the random engines, for all parameters; a test averages some runs of some parameters", "anchors": ["source/hypergirgs/source/Generator.cpp: sampleRadii, sampleAngles, sampleRadiiAndAngles, generateEdges", "source/hypergirgs/include/hypergirgs/HyperbolicTree.inl: sampleTypeI, sampleTypeII"]}
{"id": "C97", "title": "For fixed positions, edge numbers and degrees are concentrated around their expectations", "statement": "girgs::generateEdges with finite alpha, or hypergirgs::generateEdges with positive temperature, on given weights and positions with ideal random numbers: for every set of pairs of nodes (for instance all pairs, or the pairs with a given node), let M be the sum of their connection probabilities (some below 10^-6 may be left out, see C21). The number of returned edges among these pairs is at least M + t with probability at most exp(-t^2/(2(M + t/3))), and at most M - t with probability at most exp(-t^2/(2M)). So the number of edges and every degree vary by about the square root of their expectation, whatever the number of threads and the order in which the pairs are handled.", "quantifier": "all supported inputs, alpha > 0, temperatures T > 2^-52 with 2 T ln 99 <= R, symmetric sets of pairs of nodes, deviations t >= 0, environments (threads, schedules) in which the call returns, ideal sources of random numbers", "why_tests_cant": "probabilities of rare events (exp(-t^2/2M)) cannot be observed by sampling, and dependencies between decisions, which would spoil the bounds, show only in joint distributions.", "anchors": ["source/girgs/include/girgs/SpatialTree.inl: sampleTypeI, sampleTypeII", "source/hypergirgs/include/hypergirgs/HyperbolicTree.inl: sampleTypeI, sampleTypeII", "source/girgs/source/Generator.cpp: generateEdges", "source/hypergirgs/source/Generator.cpp: generateEdges"]}
{"id": "C98", "title": "The degree of a node of a GIRG is concentrated around its expectation", "statement": "Pipeline generatePositions, generateEdges with ideal, independently started random engines: let M be the expected degree of node u given by C95 (sum over the other nodes v of min(1, 2^D w_u w_v / W) for alpha = infinity, of the mean connection probabilities for finite alpha). The degree of u is at least M + t with probability at most exp(-t^2/(2(M + t/3))), and, for alpha = infinity, at most M - t with probability at most exp(-t^2/(2M)). For finite alpha the lower bound is M - 10^-6 (n-1) - t, and for alpha > 1 also (1 - alpha/(alpha-1)*10^(-6(1-1/alpha))) M - t.", "quantifier": "all weights of the supported range, nodes, alpha > 0 or infinite, dimensions 1..5, deviations t >= 0, thread numbers, schedules, environments, ideal engines", "why_tests_cant": "probabilities of rare events cannot be observed by sampling; that all pairs of a node are decided independently, also through its own random position, is a property of the joint distribution.", "anchors": ["source/girgs/source/Generator.cpp: generatePositions, generateEdges", "source/girgs/include/girgs/SpatialTree.inl: sampleTypeI, sampleTypeII"]}
{"id": "C99", "title": "The degree of a node of a hyperbolic random graph is concentrated around the value given by its radius", "statement": "Pipeline sampleRadiiAndAngles (or sampleRadii and sampleAngles), generateEdges with ideal, independently started random engines. Let A be a set of radii. If M is at least the leading term (n-1)(2/pi) xi exp(-r/2) (times pi T / sin(pi T) for T > 0) with the upper relative error of C96 for every radius r in A, then among the outcomes with the radius of node u in A the degree of u is at least M + t with conditional probability at most exp(-t^2/(2(M + t/3))). If m >= 0 is at most the leading term with the lower relative error of C96 for every r in A, the degree is at most m - t with conditional probability at most exp(-t^2/(2m)).", "quantifier": "all n >= 2 below 2^31, alpha > 1/2, gamma in [1, min(2, 2 alpha, 1/T)], temperatures 0 and 2^-52 < T < 1 with 2 T ln 99 <= R, disk radii in [2/3,1] or [4/3,41.25] with (alpha-1/2)R >= 1, nodes, measurable sets A of radii, deviations t >= 0, thread numbers, schedules, environments, ideal engines", "why_tests_cant": "probabilities of rare events cannot be observed by sampling; the bound concerns the joint distribution of all points and all decisions.", "anchors": ["source/hypergirgs/source/Generator.cpp: sampleRadii, sampleAngles, generateEdges", "source/hypergirgs/include/hypergirgs/HyperbolicTree.inl: sampleTypeI, sampleTypeII"]}
{"id": "C100", "title": "The degrees of generated GIRGs follow a power law with the requested exponent", "statement": "Pipeline generateWeights (power law exponent ple > 2), scaleWeights for a desired average degree d, generatePositions, generateEdges, with ideal engines and ranges of seeds that do not overlap; alpha = infinity (A = 1) or alpha > 1 (A = alpha/(alpha-1)); m = (ple-1)/(ple-2). For every node u and every K >= 1 the probability that u has degree at least K is at most exp(3m/2) (2 (ple-1) A^2 (d+1/2) / (e K))^(ple-1) + exp(-K/6) + exp(3m/2 + 3/4 - sqrt(2^29 (d-0.02) / (A 2^D n))). If 2K < n and 9 A m^2 2^D n < 2^29 (d-0.02), it is at least (max(1, 28 A m^2 K/d)^(1-ple) - (n/2)^(1-ple))/8.", "quantifier": "all n from 3 to 2^31-1, exponents ple > 2, dimensions 1..5, alpha > 1 or infinite, desired average degrees d >= 1 with A(d+1/2) <= n-1, nodes, K, thread numbers, schedules, partitions of the parallel loops, environments, ideal engines", "why_tests_cant": "the tail of a degree distribution concerns rare events and the joint distribution of all weights, positions and edge decisions; the scale factor depends on all the weights, so the degrees of the nodes are not independent samples.", "anchors": ["source/girgs/source/Generator.cpp: generateWeights, scaleWeights, generatePositions, generateEdges", "source/girgs/source/WeightScaling.cpp: estimateWeightScalingThreshold, estimateWeightScaling", "source/girgs/include/girgs/SpatialTree.inl: sampleTypeI, sampleTypeII"]}
{"id": "C101", "title": "The degrees of generated hyperbolic random graphs follow a power law with exponent 2\u03b1+1", "statement": "n points of the disk of radius R are drawn with parameter \u03b1 > 1/2, (\u03b1-1/2)R >= 1, by ideal engines (sampleRadiiAndAngles, or sampleRadii and sampleAngles), then hypergirgs::generateEdges is run with temperature 0 <= T < 1 (T = 0 or T > 2^-52 with 2 T ln 99 <= R). Let d = (n-1) (2/\u03c0) \u03be exp(-R/2), times \u03c0T/sin(\u03c0T) for T > 0, \u03be = \u03b1/(\u03b1-1/2), and s = 1/(1 - 2.1 exp(-\u03b1R)). For every node u and every K >= 1 the probability that u has degree at least K is at most s (6 s d/K)^(2\u03b1) + exp(-K/6). If the relative error of the leading term (C96) at radius r0 is at most 1/2, it is at least (min(1, d/(4K))^(2\u03b1) - 3 exp(-\u03b1(R-r0)))/5.", "quantifier": "all n from 2 to 2^31-1, radii R of the disk in [2/3,1] or [4/3,165/4], parameters \u03b1, temperatures, nodes, K, environments in which the call returns, seeds, ideal engines and generators", "why_tests_cant": "the tail of a degree distribution concerns rare events; it depends on the joint distribution of all points and edge decisions and is claimed for all parameters at once.", "anchors": ["source/hypergirgs/source/Generator.cpp: sampleRadii, sampleAngles, sampleRadiiAndAngles, generateEdges", "source/hypergirgs/include/hypergirgs/HyperbolicTree.inl: sampleTypeI, sampleTypeII"]}
{"id": "C102", "title": "Generated GIRGs have constant clustering", "statement": "Positions are drawn by generatePositions (ideal engines), then girgs::generateEdges is run on fixed weights w with alpha = infinity (F = 1) or alpha = a > 1 (F = a/(a-1)). For distinct nodes u, v, x the probability that u is connected with both v and x is at most F^2 m, where m = min(1, 2^D w_u w_v / W) min(1, 2^D w_u w_x / W). If w_u <= w_v and w_u <= w_x, the probability that u, v, x form a triangle is at least m/4^D. So two neighbours of a node of no larger weight are neighbours of each other with probability at least 1/(4^D F^2), however many nodes there are.", "quantifier": "all dimensions 1..5, weight lists supported with every choice of positions, triples of distinct nodes, alpha in (1,infinity], environments (threads, debug mode), seeds, ideal engines and generators", "why_tests_cant": "clustering is a statement about joint probabilities of three edges over random positions and coins, for all weight sequences and sizes; a test sees one sampled graph.", "anchors": ["source/girgs/source/Generator.cpp: generatePositions, generateEdges", "source/girgs/include/girgs/SpatialTree.inl: generateEdges, sampleTypeI, sampleTypeII", "source/girgs/include/girgs/Node.h: distance"]}
{"id": "C103", "title": "Generated hyperbolic random graphs have constant clustering", "statement": "n points are drawn by sampleRadii and sampleAngles (ideal engines), then hypergirgs::generateEdges is run with temperature T. For distinct nodes u, v, x: the probability that u is connected with both v and x and that u is at least as far from the centre as v and x is at most K times the probability that, in addition, v and x are connected, where K = 4 for T = 0, and K = 1568 (pi T / sin(pi T))^2 for 2^-52 < T < 1 with 2 T ln 99 <= R. So two neighbours of a node that is at least as far out as both are neighbours of each other with (conditional) probability at least 1/K, whatever n, alpha and R are.", "quantifier": "all n below 2^31, alpha > 0 with alpha R >= 1, R in [2/3,1] or [4/3,41.25], T as stated, triples of distinct nodes, environments (threads, debug mode; for T > 0 those in which the call returns, C44), seeds, ideal engines, any (T = 0) or ideal (T > 0) random numbers", "why_tests_cant": "clustering is a statement about joint probabilities of three edges over the random points, for all sizes and parameters; a test sees one sampled graph.", "anchors": ["source/hypergirgs/source/Generator.cpp: sampleRadii, sampleAngles, generateEdges", "source/hypergirgs/include/hypergirgs/HyperbolicTree.inl: generate, sampleTypeI, sampleTypeII", "source/hypergirgs/include/hypergirgs/Point.h: isDistanceBelowR"]}
{"id": "C104", "title": "Edges are independent: the joint law of any edges and non-edges", "statement": "For fixed weights, positions and finite alpha > 0 (resp. fixed points, T > 2^-52 with 2 T ln 99 <= R), with ideal random numbers, for any two disjoint sets A, B of pairs of nodes: the probability that generateEdges returns a graph in which all pairs of A are connected and no pair of B is, is the product of pr over A times the product of 1 - pr over B, where pr is the documented connection probability except for pairs for which it is below 10^-6 and pr = 0.", "quantifier": "all supported inputs, sets A and B of pairs, environments (threads, partitions, debug mode), ideal random numbers", "why_tests_cant": "independence of arbitrary families of edges is a statement about exact probabilities over all random outcomes; tests can only estimate a few marginals.", "anchors": ["source/girgs/include/girgs/SpatialTree.inl: generateEdges, sampleTypeI, sampleTypeII", "source/hypergirgs/include/hypergirgs/HyperbolicTree.inl: generate, sampleTypeI, sampleTypeII"]}
{"id": "C105", "title": "The average degree of a generated GIRG is close to the requested one with high probability", "statement": "Weights from 1 to n/2 are scaled by scaleWeights for a desired average degree d from 1 to n-1, positions are drawn by generatePositions (ideal engines), then girgs::generateEdges is run. For alpha = infinity the average degree of the result lies between d - 0.02 - eps and d + 0.02 + 1/n + eps, except with probability at most 2(d+1)/(n eps^2). For finite alpha = a > 1, with c = 1 for a <= 8 and c = a/(a-1) otherwise, it is at most c (d + 0.02 + 1/n) + eps except with probability at most (24 c (d+1) + 16 eps)/(n eps^2), and at least (1 - a/(a-1) 10^(-6(1-1/a))) (d - 0.02) - eps except with probability at most 24 c (d+1)/(n eps^2). The same holds around the expectation for any supported weights.", "quantifier": "all dimensions 1..5, numbers of nodes below 2^31, weight lists in range whose sum is not too large, alpha in (1,infinity], desired degrees 1..n-1, eps > 0, environments (threads, debug mode), seeds, ideal engines and generators", "why_tests_cant": "a test sees a few sampled graphs; that the average degree is close to the requested one except with vanishing probability is a statement about the joint distribution of all edges, for all sizes and parameters.", "anchors": ["source/girgs/source/Generator.cpp: scaleWeights, generatePositions, generateEdges", "source/girgs/source/WeightScaling.cpp: estimateWeightScaling, estimateWeightScalingThreshold", "source/girgs/include/girgs/SpatialTree.inl: generateEdges, sampleTypeI, sampleTypeII"]}
{"id": "C106", "title": "The average degree of a generated hyperbolic random graph is close to the requested one with high probability", "statement": "For alpha >= 1, calculateRadius for an average degree deg gives a disk radius R with 20 <= R <= 41.25, n < 2^30 points are drawn in that disk (ideal engines), then hypergirgs::generateEdges is run; let d = deg (n-1)/n. For T = 0 the average degree 2k/n of the result (k edges) lies between 0.97 d - eps and 1.02 d + eps, except with probability at most 5 deg/(n eps^2) + 450 n (deg/n)^(7/4)/eps^2. For 2^-52 < T <= 1/2 it is at least 1.02 d + eps with probability at most (25 deg + 16 eps)/(n eps^2) + 900 n (deg/n)^(7/4)/eps^2, and at most 0.95 d - eps with probability at most 25 deg/(n eps^2) + 900 n (deg/n)^(7/4)/eps^2. More generally, for alpha > 1/2 and 0 <= T < 1, the average degree lies between the bounds of C94 for its expectation up to eps, except with probability of order deg/(n eps^2) + n exp(-beta R/2)/eps^2, for any beta <= 2 with 1 <= beta < 2 alpha.", "quantifier": "all numbers of nodes below 2^31 (2^30 for calculateRadius), alpha, T, R in the stated ranges, eps > 0, environments in which the call returns (threads, debug mode), seeds or given engines, ideal engines and generators", "why_tests_cant": "a test sees a few sampled graphs; that the average degree is close to the requested one except with vanishing probability is a statement about the joint distribution of all edges, for all sizes and parameters.", "anchors": ["source/hypergirgs/source/Generator.cpp: calculateRadius, sampleRadii, sampleAngles, sampleRadiiAndAngles, generateEdges", "source/hypergirgs/include/hypergirgs/HyperbolicTree.inl: sampleTypeI, sampleTypeII"]}
{"id": "C107", "title": "In floating point arithmetic, graphs with finite alpha contain the threshold graph", "statement": "girgs::generateEdges in IEEE binary64 arithmetic with positive alpha (finite or infinite), for weights and positions that are doubles, whatever the random numbers in [0,1) are, in debug and release builds and for every number of threads: every execution returns a simple graph that contains every pair of nodes with (dist + 2^-52)^D < (1-e) w_u w_v / W, where e = (n + D + 4) 2^-53 + 3*2^-43. No pair that close is lost because of rounding errors, because it is examined on the wrong level, or because it is left to the skipping sampler. Without rounding errors this holds for all pairs with dist^D < w_u w_v / W.", "quantifier": "all arithmetics with relative rounding errors up to 2^-34 whose quotients and powers of numbers that are at least 1 are not rounded below 1 (binary64 is one), all inputs of size below 2^31 in 1 to 5 dimensions whose weights differ by a factor of at most 2^29, every alpha > 0, every random number source with uniform numbers below 1, every schedule and number of threads, both builds", "why_tests_cant": "a test checks some pairs of some graphs; rounding errors matter for few inputs close to cell and layer boundaries, and with finite alpha a lost edge is indistinguishable from an unlucky random number unless one knows that its probability is 1.", "anchors": ["source/girgs/include/girgs/SpatialTree.inl: SpatialTree::generateEdges, sampleTypeI, sampleTypeII, visitCellPair, partitioningBaseLevel", "source/girgs/include/girgs/Node.h: distance", "source/girgs/include/girgs/SpatialTreeCoordinateHelper.inl: touching, dist", "source/girgs/source/Generator.cpp: generateEdges"]}
{"id": "C108", "title": "All degrees at once and the maximum degree", "statement": "For random positions, the degrees of all nodes of a GIRG at the same time are close to their expectations: except with probability 2 n exp(-L), every node u has degree between mean u - sqrt(2 (mean u) L) and mean u + sqrt(2 (mean u) L) + 2L/3, where mean u is the sum over the other nodes of min(1, 2^D w_u w_v / W) for alpha = infinity, or of the mean connection probabilities for finite alpha (with a lower end smaller by 10^-6 (n-1), or for alpha > 1 by the factor 1 - a/(a-1) 10^(-6(1-1/a))). For generated weights with power law exponent ple > 2, the probability that any node has degree at least K is at most n times the bound of C100, of the order n (desired/K)^(ple-1). For hyperbolic random graphs with temperature below 1 it is at most n times the bound of C101, of the order n (d/K)^(2 alpha), and the probability that all degrees are below K is at most exp(-n q) plus a term that decreases exponentially with K, where q is of the order (d/(4K))^(2 alpha): the maximum degree is of the order n^(1/(2 alpha)) times the typical degree.", "quantifier": "all numbers of nodes below 2^31, weights within the supported ranges, dimensions 1 to 5, every alpha > 0, every L >= 0; all power law exponents above 2 and desired degrees; all disk radii in the supported range, dispersion parameters and temperatures below 1; every K, every number of threads and schedule; ideal random numbers", "why_tests_cant": "a test looks at some runs of some sizes; that no node of n nodes deviates is a statement about rare events, which grow with n, and about the random outcomes of the whole pipeline", "anchors": ["source/girgs/source/Generator.cpp: generateWeights, generatePositions, scaleWeights, generateEdges", "source/hypergirgs/source/Generator.cpp: sampleRadii, sampleAngles, generateEdges", "source/girgs/include/girgs/SpatialTree.inl: generateEdges", "source/hypergirgs/include/hypergirgs/HyperbolicTree.inl: generate"]}
{"id": "C109", "title": "Exact law of the neighbourhood and of the degree of a node", "statement": "For random positions and alpha = infinity, the connections of a node u with the other nodes v are independent with the probabilities k v = min(1, 2^D w_u w_v / W): for disjoint sets S, B of other nodes, u is connected with all of S and none of B with probability prod_S k prod_B (1-k), and its degree is d with the probability that exactly d of such independent events happen (for equal weights, a binomial distribution; the node is isolated with probability prod (1-k)). For finite alpha the same holds with the mean connection probabilities, up to errors of 10^-6 in each factor. For hyperbolic random graphs with temperature 0, given the point of node u, the connections with the other nodes are independent with the same probability m, the probability that a random point is nearer than R, so that the degree is binomial given the point: P(radius in A, degree = d) is the integral of binom(n-1,d) m^d (1-m)^(n-1-d) over the outcomes with radius in A; m is (2/pi) xi exp(-r/2) up to the relative errors of C96. For positive temperatures the same holds up to 10^-6 in each factor, m being the mean over a random point of the documented connection probability.", "quantifier": "all numbers of nodes below 2^31, weights within the supported ranges, dimensions 1 to 5, every alpha > 0; all disk radii and dispersion parameters in the supported range, temperature 0 and the temperatures T > 2^-52 with 2 T log 99 <= R; all sets of other nodes, all degrees; every environment, number of threads and schedule; ideal random numbers", "why_tests_cant": "a test sees frequencies of some runs; an exact law of a random output, its independence and its holding for all sets of nodes and all parameters cannot be read off samples", "anchors": ["source/girgs/source/Generator.cpp: generatePositions, generateEdges", "source/girgs/include/girgs/SpatialTree.inl: generateEdges, sampleTypeI, sampleTypeII", "source/hypergirgs/source/Generator.cpp: sampleRadii, sampleAngles, generateEdges", "source/hypergirgs/include/hypergirgs/HyperbolicTree.inl: generate"]}
{"id": "C110", "title": "The law of a generated graph does not depend on the names of the nodes, seeds, threads or schedules", "statement": "For random positions and alpha = infinity, take any two runs (possibly with different seeds, engines, numbers of threads, schedules, numbers of nodes and weights) and k nodes of each such that corresponding nodes have the same numbers w_u w_v / W. Then the graphs spanned by the chosen nodes have the same law: every property of graphs on k nodes has the same probability in both. In particular a permutation of the weights only renames the nodes of the random graph. For hyperbolic random graphs with temperature 0 and the same alpha and R, the graphs spanned by any k nodes of one and any k nodes of the other have the same law, also if the numbers of nodes differ. For finite alpha and for positive temperatures, the probabilities of a property of the graphs spanned by k nodes differ by at most k(k-1)/10^6 between the two runs.", "quantifier": "all pairs of runs: all numbers of nodes below 2^31, weights within the supported ranges, dimensions 1 to 5, disk radii and dispersion parameters in the supported range, temperature 0 or T > 2^-52 with 2 T log 99 <= R; all choices of nodes; all properties of graphs; every environment, number of threads, seed and schedule; ideal random numbers", "why_tests_cant": "equality of the laws of two random graphs for all properties of graphs and all pairs of programs cannot be read off samples", "anchors": ["source/girgs/source/Generator.cpp: generatePositions, generateEdges", "source/girgs/include/girgs/SpatialTree.inl: generateEdges, sampleTypeI, sampleTypeII", "source/hypergirgs/source/Generator.cpp: sampleRadii, sampleAngles, generateEdges", "source/hypergirgs/include/hypergirgs/HyperbolicTree.inl: generate"]}
{"id": "C111", "title": "Distance of a generated graph to the documented random graph", "statement": "Fix weights and positions (or points of the disk) and choose any k nodes. For finite alpha (positive temperature), the probability that the generated graph has any given property of the graph spanned by the chosen nodes differs from the probability in the documented random graph (all pairs independent, with the documented connection probabilities) at most by the sum of those connection probabilities between chosen nodes that are below 10^-6. If no connection probability is below 10^-6, the law of the generated graph is exactly the documented one.", "quantifier": "all supported inputs of girgs::generateEdges with finite alpha and of hypergirgs::generateEdges with T > 2^-52 and 2 T log 99 <= R; all choices of nodes (also all of them); all properties of graphs; every environment, number of threads and schedule in which the call returns; ideal random numbers", "why_tests_cant": "a bound on the distance of two laws over all properties of graphs and all inputs cannot be read off samples", "anchors": ["source/girgs/include/girgs/SpatialTree.inl: generateEdges, sampleTypeI, sampleTypeII", "source/hypergirgs/include/hypergirgs/HyperbolicTree.inl: generate, sampleTypeI, sampleTypeII"]}
{"id": "C112", "title": "Expected number of nodes of a given degree", "statement": "For random positions and alpha = infinity, the expected number of nodes of degree d is the sum over the nodes u of the probability that exactly d of independent events with the probabilities min(1, 2^D w_u w_v / W), one for each other node v, happen; for equal weights it is n times a binomial probability. For finite alpha the same holds with the mean connection probabilities, up to errors of 10^-6 in each factor. For hyperbolic random graphs with temperature 0, the expected number of nodes with radius in a set A and degree d is n times the mean, over a random point with radius in A, of the binomial probability binom(n-1,d) m^d (1-m)^(n-1-d), m being the probability that another random point is nearer than R; for positive temperatures the expected number of nodes of degree d is given by the binomial probabilities of the mean connection probabilities, up to errors of 10^-6 in each factor.", "quantifier": "all numbers of nodes below 2^31, weights within the supported ranges, dimensions 1 to 5, every alpha > 0; all disk radii and dispersion parameters in the supported range, temperature 0 and the temperatures T > 2^-52 with 2 T log 99 <= R; all sets of other nodes, all degrees; every environment, number of threads and schedule; ideal random numbers", "why_tests_cant": "the expected degree distribution over all random graphs and for every input size, schedule and number of threads cannot be computed from finitely many samples", "anchors": ["source/girgs/source/Generator.cpp: generatePositions, generateEdges", "source/girgs/include/girgs/SpatialTree.inl: generateEdges, sampleTypeI, sampleTypeII", "source/hypergirgs/source/Generator.cpp: sampleRadii, sampleAngles, generateEdges", "source/hypergirgs/include/hypergirgs/HyperbolicTree.inl: generate"]}
{"id": "C113", "title": "The degree distribution is concentrated", "statement": "Let N be the number of nodes with a property of their degrees, such as the number of isolated nodes or of nodes of degree d. For random positions and alpha = infinity, the variance of N is at most the sum over the nodes u of 1 + 3 mean_u + mean_u^2, mean_u being the expected degree of u, and N deviates from its expectation by t with probability at most this sum divided by t^2. For hyperbolic random graphs with temperature 0 the same holds with the bound n (1 + 3 (n-1) m1 + (n-1)(n-2) m2), m1 and m2 being the first and second moment of the probability that a random point is nearer than R to a given random point.", "quantifier": "all numbers of nodes below 2^31, weights within the supported ranges, dimensions 1 to 5; all disk radii and dispersion parameters in the supported range; all properties of the degrees, which may depend on the node; all t > 0; every environment, number of threads and schedule", "why_tests_cant": "a bound on the fluctuations over all random graphs, for every input and schedule, cannot be established by sampling", "anchors": ["source/girgs/source/Generator.cpp: generatePositions, generateEdges", "source/girgs/include/girgs/SpatialTree.inl: generateEdges, sampleTypeI, sampleTypeII", "source/hypergirgs/source/Generator.cpp: sampleRadii, sampleAngles, generateEdges", "source/hypergirgs/include/hypergirgs/HyperbolicTree.inl: generate"]}
{"id": "C114", "title": "The number of connected components and similar functions of the graph are concentrated", "statement": "Let N be a function of the graph that changes by at most one more than the degree of a node when all edges at this node are removed; the number of connected components is such a function. For random positions and alpha = infinity, the variance of N is at most the sum over the nodes u of 1 + 3 mean_u + mean_u^2, mean_u being the expected degree of u, and N deviates from its expectation by t with probability at most this sum divided by t^2. For hyperbolic random graphs with temperature 0 the same holds with the bound n (1 + 3 (n-1) m1 + (n-1)(n-2) m2), m1 and m2 being the first and second moment of the probability that a random point is nearer than R to a given random point.", "quantifier": "all numbers of nodes below 2^31, weights within the supported ranges, dimensions 1 to 5; all disk radii and dispersion parameters in the supported range; all such functions of graphs; all t > 0; every environment, number of threads and schedule", "why_tests_cant": "a bound on the fluctuations over all random graphs, for every input and schedule, cannot be established by sampling", "anchors": ["source/girgs/source/Generator.cpp: generatePositions, generateEdges", "source/girgs/include/girgs/SpatialTree.inl: generateEdges, sampleTypeI, sampleTypeII", "source/hypergirgs/source/Generator.cpp: sampleRadii, sampleAngles, generateEdges", "source/hypergirgs/include/hypergirgs/HyperbolicTree.inl: generate"]}
