import json
props={}
for l in open('/verif/properties.jsonl'):
    p=json.loads(l); props[p['id']]=p
man={c['property']:c for c in json.load(open('/verif/MANIFEST.json'))['claims']}
how={
'C01':('`BitManipulation` generic code on `BitVec 32`','OR-linearity of deposit/extract, complete table over single bits for each D, then extensionality over bits'),
'C02':('same','bit specification of C01 composed with itself'),
'C03':('`_pdep_u32`/`_pext_u32` by their Intel pseudo code','bit specification of both; `C03_range_needed` shows that the range condition matters'),
'C04':('`SpatialTreeCoordinateHelper` with 32 bit wrap-around','geometric sums, base 2^D digits'),
'C05':('`cellForPoint`, `bounds`','floor arithmetic on exact reals; nestedness by the Morton bit specification'),
'C06':('`touching`','case analysis modulo 2^l; periodic boxes on the torus'),
'C07':('`dist`','interval arithmetic on the torus'),
'C08':('`Node::distance`','induction over the dimensions'),
'C09':('`pow_to_the`','induction on D'),
'C10':('`IntSortImpl` with counters, queue pointers, scatter writes, MSD and LSD passes','counting-sort lemma, commuting disjoint writes, invariant over all schedules, stable LSD induction'),
'C11':('same','exact characterisation of the out of bounds access'),
'C12':('`buildPartition` incl. marking and gap repair, interleaved step by step','invariant over all interleavings'),
'C13':('`WeightLayer`','prefix sums of sorted cell numbers'),
'C14':('constructor of `SpatialTree`','real logarithms against truncating division'),
'C15':('`visitCellPair`, `sampleTypeI`, `sampleTypeII`','induction over the recursion; every pair of cells has a unique covering call'),
'C16':('`visitCellPair_sequentialStart`, `visitCellPairSample`','permutation equality of call lists, induction over levels'),
'C17':('`girgs::generateEdges` end to end','C15/C16 + C22 + C24'),
'C18':('same','C17 + geometry of non-touching cells'),
'C19':('type II bound','monotonicity of real powers'),
'C20':('type II loop with ideal random numbers (`PMF`/measure)','memorylessness, induction on N'),
'C21':('whole call with independent ideal generators per thread','product measures; union of independent calls over a partition of the pairs'),
'C22':('type II loop','strict monotonicity of r, divMod bijection'),
'C23':('as C17','type II bound is 1, type I accepts'),
'C24':('`addEdge`/`flush` as a transition system','inductive invariant over all interleavings, progress'),
'C25':('seeding + C24','permutation argument; blocks below the flush size keep thread order'),
'C26':('`generateWeights`, OpenMP static loop','writes of distinct cells commute; monotone power; inverse distribution function'),
'C27':('`generatePositions`','as C26'),
'C28':('`scaleWeights`','case analysis, map over the list'),
'C29':('`exponentialSearch`','loop invariant, continuity, bisection'),
'C30':('`LazySorter`','invariant over all query sequences'),
'C31':('`estimateWeightScalingThreshold` incl. parallel reduction','two-pointer scan = count; expected degree as an integral over the torus'),
'C32':('—','real algebra over the documented rules'),
'C33':('dispatch of `generateEdges`','case split'),
'C34':('edge list writers','decimal print/parse round trip'),
'C35':('`saveDot`','token level reader, round trip'),
'C36':('`AngleHelper`','as C04-C07 for D=1 on the circle'),
'C37':('`Point`','hyperbolic law of cosines'),
'C38':('`partitioningBaseLevel` as a loop','monotonicity in angle and radius; halving'),
'C39':('`RadiusLayer::buildPartition`','as C12/C13'),
'C40':('recursion of `HyperbolicTree`','as C15'),
'C41':('round robin share and tasks','as C16'),
'C42':('`visitCellPairCreateTasks`','closed form by induction over levels'),
'C43':('task queue as transition system','invariant over all interleavings, incl. spurious wake-ups'),
'C44':('same','ranking function under fairness; stuck state when no task list is created'),
'C45':('`hypergirgs::generateEdges` end to end','C41 + C38 + C37'),
'C46':('`DistanceFilter` tables','monotonicity of the table, exact condition for negative distances'),
'C47':('type II bound','angle lower bounds from the number of cells between'),
'C48':('generators per share/task','permutation argument over schedules'),
'C49':('as C45','as C17'),
'C50':('`sampleHelper`','as C26; monotone inverse'),
'C51':('`calculateRadius`','real analysis'),
'C52':('`searchTargetRadiusForColdGraphs`, `getExpectedDegree`','loop invariants, intermediate values, bounds on the degree function'),
'C53':('`Hyperbolic.h`','log/exp algebra'),
'C54':('`parseArgs`','list recursion against a positional specification'),
'C55':('`rangeCheck`','case analysis on extended reals'),
'C56':('`edge_diff` etc.','merge induction on sorted lists, multisets'),
'C57':('type II bounds','inequality + concrete witness'),
'C58':('`estimateWeightScaling`','as C31 with the integral of the finite-alpha probability'),
'C59':('`scaleWeights` end to end','C29 + C31 + C58'),
'C60':('coordinate writer','decimal round trip with rounding error'),
'C61':('whole hyperbolic call with ideal generators','as C21; a pair of opposite points that is never connected shows that the exception is real'),
'C62':('`main` of both tools','C54, C55'),
'C63':('`main` of genhrg','composition of C45, C49, C50, C51, C60, C34'),
'C64':('`main` of gengirg','composition of C17, C18, C26, C27, C34, C35, C59'),
'C65':('`main` of both tools','composition of C25, C48, C26, C27, C50'),
'C66':('constructor and recursion with rounding','error analysis of the header; exact scaling by powers of two; C15, C17 for any float type'),
'C67':('threshold sampler with rounding','error analysis of both sides of the rule and of the level bounds; release build makes type I calls only'),
'C68':('constructor and sampler for disks of radius below 4/3','levels computed exactly in the two cases; (a) the fold over layer pairs fails, (b) edges come from type I calls only, and cells of opposite quarters do not touch'),
'C69':('the three phases of intsort as regions with declared accesses','counting rows are private; scatter addresses are positions in the sorted order, injective; bucket threads stay in their buckets (invariant of C10)'),
'C70':('marking and repair loops as regions with declared accesses','marks have distinct addresses; invariant of C12 bounds the accesses of each thread by its chunk plus one; races reached by an explicit schedule'),
'C71':('task queue as region and as traces of events with happens-before','invariant of C44 for adjacent conflicts; invariant over traces (who has locked the mutex since the unlock) for the task list; explicit racy trace for every thread count'),
'C72':('every assertion instance a debug build evaluates, as a list of file, line and truth value','case by case from the invariants of the constructed tree; counting of the pairs of all calls for the final assertion; the tight case of the type II bounds for line 245'),
'C73':('every assertion instance a debug build of the hyperbolic sampler evaluates, for every schedule of the task queue','case by case from the invariants of the constructed tree and the geometry of the cells; a type I call for two coinciding points exists in every execution and its shortcut fails for draws between p(0) and 0.99'),
'C74':('conversion of points, both samplers','two-sided estimates of sin² and cosh between hyperbolic distance and torus distance times weights; C45 and C17'),
'C75':('`main` of inclusion_single','composition of C45, C17, C59, C56, C74; monotonicity of the expected degree for the bounds'),
'C76':('`main` of inclusion_range','invariant of the bisections; composition as in C75; induction over the loops'),
'C77':('`CounterPerThread` (read and write of a counter are separate steps), `measure` and `main` of bench_girg, `benchmark` of bench_hyper','invariant: every counter holds the number of completed calls of its thread; composition of C17, C18, C24, C26, C27, C45, C49 - C52, C59'),
'C78':('the parallel regions of both samplers with the team size as a parameter (Model/Team)','invariant of the task queue without a creator: the flag stays unset and nobody gets past the wait; C17, C18, C44'),
'C79':('constructor, levels, cells and look-up tables of the hyperbolic sampler with rounding','error analysis of the distance computation and of the level loop; exactness of the halvings and of the layer bounds; the proofs of C39 - C44 and C49 for any float type'),
'C80':('points, distance test and recursion of the hyperbolic sampler with rounding','relative error calculus for the distance test; type II pairs: error of the level comparison, of the layers and of the cells, convexity of the distance in the radii'),
'C81':('the alternative deposit of the benchmark (64 bit pdep)','both deposits are linear for bitwise or; tables for single bits, checked by the kernel'),
'C82':('main of bench_hyper with arbitrary measured times','loop invariant for seed and skip limit; both directions'),
'C83':('constructor of the hyperbolic sampler, genhrg, bench_hyper','sharp lower bounds for the levels of the outer layers; the number of cells is between 2^31 and 2^32, or a shift overflows'),
'C84':('the two decision functors of math-benchmarks','both reduce to the textbook probability; at the centre the quotient is NaN'),
'C85':('samplers of nodes, both edge samplers, with rounding','error bound for acosh of a rounded cosh; the product of a double below 1 with a double y is rounded to a number below y'),
'C86':('class ScopedTimer with an arbitrary clock','induction over the calls of methods'),
'C87':('use of the timers in the library and in the benchmark programs','evaluation of the nested scopes; monotonicity of the clock'),
'C88':('generateWeights with rounding, pow with a relative error','error bounds for the base and the two exponents; the base never exceeds 1'),
'C89':('the sampler with counters: calls, iterations, pairs looked at','potential over the recursion levels; every looked-at pair is charged to 5 times its connection probability with weights scaled by 4^(D+1)'),
'C90':('the hyperbolic sampler with counters: calls, iterations, pairs looked at','comparison levels bound the cells by exp((R-i-j)/2); looked-at pairs are charged to 5 times a GIRG connection probability on the circle with weights exp(-r/2); expectation of exp(-r/2) for sampled radii'),
'C91':('the search with the outcome of a failed assertion, for debug and release builds','invariant of the lazily sorted vector: its bound is never below DBL_MIN, and equal once all is sorted; the runs agree while thresholds are normal'),
'C92':('as C26, C27, C50, with the initial states of the engines as random variables','the draws of one ideal engine are independent (product formula by induction on the number of draws), families of engines by independence of blocks; the entry of the result owned by a thread is one draw, the map from entries to draws is injective'),
'C93':('as C21, C27, C59; the expected number of edges as a sum over the distribution of the result','expected length of the list of successful coins; integrated over uniform positions with the closed forms of C59; the part of the connection probability below 10^-6 is again a connection probability, with larger weights'),
'C94':('as C45, C61, C50, C51; the expected number of edges as a sum over the distribution of the result','the mean of the connection probability over the angle of one point (sin bounds, substitution), then over the radii (exponential moments of the radial density); the integral of 1/(1+v^(1/T)) from the Beta function; all pairs have the same mean'),
'C95':('as C93; the expected degree of a node as a sum over the distribution of the result','linearity: the expected number of kept coins with the node; mean connection probability of a pair of uniform positions (C93) row by row'),
'C96':('as C94; the expected degree of a node as a sum over the distribution of the result','as C94, but with the radius of one point fixed; integrals over the outcomes with radius in any measurable set'),
'C97':('as C93 and C94; the probability of an event of the number of returned edges among given pairs','the result is distributed like independent coins (C20, C61): exponential moments and Bernstein/Chernoff bounds for sums of independent coins'),
'C98':('as C95; upper integral over the positions of the probability of an event of the degree','exponential moments of the degree: given the own position the other positions are independent, and the mean connection probability does not depend on the own position'),
'C99':('as C96; the degree over the outcomes with radius in a set','exponential moments of the degree given the own point: the points are independent with a common law, the mean connection probability at the own point is bounded as in C96'),
'C100':('generateWeights, scaleWeights, generatePositions and generateEdges composed, over the random outcomes of all of them','scale factor bounded on both sides by the requested average degree; exponential moments of the degree for fixed weights; tail of the product of a weight and the sum of the others from independence, an exponential moment of the sum and the layer cake formula'),
'C101':('the point samplers and generateEdges composed, over the random outcomes of both','the radius at which the leading term of the degree is K/6 or 4K splits the disk; distribution function of the radius between exponentials; concentration of the degree given the radius (C99) on either side'),
'C102':('generatePositions and generateEdges composed, over the random outcomes of both','for fixed positions the probability of two edges at u is the limit of the exponential tail bounds of C97; pairs within the threshold distance are connected almost surely; the triangle inequality of C08 for neighbours within half the threshold distance; independent uniform positions'),
'C103':('sampleRadii, sampleAngles and generateEdges composed, over the random points','at T = 0 two nodes are connected iff their distance is below R (C45); given the radii, the angle to the outer node is uniform and the connection threshold angle is at most twice the angle at which the neighbour is half close; two neighbours half close to an outer node are connected; for T > 0 the joint law of C104 and a comparison of the mean connection probability with the mass of the points within distance R'),
'C104':('generateEdges of both libraries, as in C21 and C61','the result is distributed like a list of independent coins, one per pair (C21, C61); induction over the coins'),
'C105':('scaleWeights, generatePositions and generateEdges composed, over the random positions','on the torus the connection probabilities of two different pairs of nodes are uncorrelated, even if they share a node (the mean over the other endpoint does not depend on the position); so the variance of the sum is at most its mean (Chebyshev), combined with C18 (threshold) or with C97 given the positions, and with C59 for the requested degree'),
'C106':('calculateRadius, the samplers and hypergirgs::generateEdges composed, over the random points','the covariance of the connection probabilities of two pairs is 0 if they share no node, otherwise at most the mean square of the mean connection probability of a point (hrgSpread, from the node bound of C96 and the moments of the radial law); this bounds the variance of the sum (Chebyshev), combined with the mean of C94 and with C45 (T = 0) or C97 given the points (T > 0), and with C51 for the requested degree'),
'C107':('girgs::generateEdges in an arithmetic with rounding (Rounded, RoundedAbove), any alpha > 0, any uniform numbers below 1','a close pair is not covered by a type II call (as for C67), so the type I call that covers it compares a number below 1 with a power of a quotient that is at least 1'),
'C108':('as C98, C100, C99 and C101; the probability of an event of the whole graph','union bound over the nodes for probabilities and upper integrals; for small maximum degrees: with high probability some radius is small (independent radii), and a node with small radius has high degree (C99)'),
'C109':('as C98 and C99; a graph of a relation (C18, C45) for threshold rules, independent coins (C104) for finite alpha','the mean of a product over the other nodes is the mean of the product of the conditional means, given the own point (independence of the points); the degree is d for exactly one neighbourhood of size d'),
'C110':('as C109: the points and a graph of a relation (C18, C45)','points chosen by an injection among independent equally distributed points have the product law, and the graph is a function of them'),
'C111':('as C104: the coins of the pairs','the graph spanned by nodes is a set of independent pairs; the laws of two random sets differ by at most the sum of the differences of the probabilities (induction over the pairs)'),
'C112':('as C109','the mean of a sum of indicators is the sum of the probabilities of C109; in the hyperbolic case all nodes have the same law'),
'C113':('as C109','the inequality of Efron and Stein for functions of independent points, by induction; removing a node changes only its own degree and the ones of its neighbours; second moments of degrees; Chebyshev'),
'C114':('as C109','as C113, for functions of the graph; isolating a node splits its component into at most one more part than its degree'),
}
s=open('/verif/tools/design_head.md').read()
s+='\n## Properties, models and proofs\n\nStatements are in `properties.jsonl`; theorems are in `lean/Verif/Props/`.\n\n| id | property | modelled | proof | status: theorems |\n|---|---|---|---|---|\n'
for k,p in props.items():
    c=man[k]; t=', '.join('`'+x.replace('Girgs.Props.','')+'`' for x in c['theorems'])
    h=how.get(k,('',''))
    s+=f"| {k} | {p['title']} | {h[0]} | {h[1]} | {c['status']}: {t} {('— '+c['note']) if c.get('note') else ''} |\n"
open('/verif/DESIGN.md','w').write(s)
