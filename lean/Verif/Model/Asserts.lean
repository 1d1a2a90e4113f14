import Verif.Model.Generator
/-
The debug assertions of the GIRG sampler (SpatialTree.inl, WeightLayer.h, Node.h, IntSort.h, BitManipulationGeneric.inl):
for every function containing an `assert`, the list of the assertion instances a call evaluates, each with its file, its
line and the value of its condition.  An assertion inside a function that is called while another assertion is evaluated
(for example `partitioningBaseLevel` in SpatialTree.inl:161) is listed too.  A debug build (without `NDEBUG`) aborts iff
one of the listed conditions is false.  (`ScopedTimer.h:95` is in Verif/Model/Timer.lean.)
-/
namespace Girgs
open CFloat

/-- an evaluated assertion -/
structure Check where
  file : String
  line : Nat
  holds : Bool
deriving DecidableEq

namespace Asserts

/-- `a <= b` on `double`s -/
def fle {F : Type} [CFloat F] (a b : F) : Bool := CFloat.lt a b || CFloat.eq a b

/-- an assertion of SpatialTree.inl -/
def tree (line : Nat) (holds : Bool) : Check := ⟨"SpatialTree.inl", line, holds⟩

/-- an assertion of WeightLayer.h -/
def layer (line : Nat) (holds : Bool) : Check := ⟨"WeightLayer.h", line, holds⟩

/-- an assertion of BitManipulationGeneric.inl -/
def bits (line : Nat) (holds : Bool) : Check := ⟨"BitManipulationGeneric.inl", line, holds⟩

/-- `std::is_sorted` on integers: no element is smaller than its predecessor -/
def isSorted : List Nat → Bool
  | a :: b :: L => !decide (b < a) && isSorted (b :: L)
  | _ => true

/-- the assertions of `Deposit<D>::deposit`, BitManipulationGeneric.inl:135, 154-156, 183 -/
def deposit (D : Nat) (c : Fin D → Nat) : List Check :=
  if D = 2 then (List.finRange D).map fun d => bits 135 (decide (c d ≤ 0xffff))
  else if D = 3 then (List.finRange D).map fun d => bits (154 + d.1) (decide (c d ≤ if d.1 = 2 then 0x3ff else 0x7ff))
  else if D = 4 then (List.finRange D).map fun d => bits 183 (decide (c d ≤ 0xff))
  else []

/-- the assertions evaluated by `cellForPoint`, SpatialTreeCoordinateHelper.inl:49-58: those of `deposit` -/
def cellForPoint {F : Type} [CFloat F] (D : Nat) (position : Fin D → F) (targetLevel : Nat) : Option (List Check) := do
  let w ← shl1 targetLevel
  let diameter : F := ofInt w
  let coords ← Coord.tupleM D (fun d => toU32 (position d *. diameter))
  some (deposit D coords)

/-- the assertions of `levelledCell`, WeightLayer.h:107, 108, 118 -/
def levelledCell (D : Nat) (wl : WeightLayer) (cell level : Nat) : Option (List Check) := do
  let first ← Coord.firstCellOfLevel D level
  let next ← Coord.firstCellOfLevel D (level + 1)
  let be ← wl.levelledCell D cell level
  some [layer 107 (decide (level ≤ wl.target)), layer 108 (decide (first ≤ cell ∧ cell < next)),
    layer 118 (decide (be.1 ≤ be.2))]

/-- the assertions of `cellIterators`, WeightLayer.h:96-102 -/
def cellIterators (D : Nat) (firstInCell : List Nat) (wl : WeightLayer) (cell level : Nat) : Option (List Check) := do
  let lc ← levelledCell D wl cell level
  let r ← wl.cellIterators D firstInCell cell level
  some (lc ++ [layer 100 (decide (r.1 ≤ r.2))])

/-- the assertions of `pointsInCell`, WeightLayer.h:51-57 (a public member function the sampler does not use) -/
def pointsInCell (D : Nat) (wl : WeightLayer) (cell level : Nat) : Option (List Check) := do
  let lc ← levelledCell D wl cell level
  let be ← wl.levelledCell D cell level
  let first ← Coord.firstCellOfLevel D level
  let next ← Coord.firstCellOfLevel D (u32 (wl.target + 1))
  some (lc ++ [layer 53 (decide (u32 (be.1 + first) < next)), layer 54 (decide (u32 (be.2 + first) < next))])

section levels
variable {F : Type} [CFloat F]

/-- the volumes compared in SpatialTree.inl:308-309 and 329-330: `std::pow(2.0, -(result+x)*D)` -/
def volume (D : Nat) (result : Int) (x : ℚ) : F :=
  CFloat.pow (ofRat 2) (CFloat.neg (ofInt result +. ofRat x) *. ofNat D)

/-- the assertions of `weightLayerTargetLevel(layer)`, SpatialTree.inl:300-315 -/
def targetLevel (D : Nat) (w0 W : F) (blc : Int) (layers levels : Nat) (layer : Int) : List Check :=
  let result := imax (cdiv (blc - layer - 1) D) 0
  let requested := w0 *. w0 *. CFloat.pow (ofRat 2) (ofInt (layer + 1)) /. W
  [tree 305 (decide (0 ≤ layer ∧ layer < layers)), tree 306 (decide (0 ≤ result ∧ result ≤ levels)),
    tree 310 (fle requested (volume D result 0) || fle (ofRat 1) requested),
    tree 311 (volume D result 1 <. requested)]

/-- the assertions of `partitioningBaseLevel(layer1, layer2)`, SpatialTree.inl:319-336 -/
def baseLevel (D : Nat) (w0 W : F) (blc : Int) (layers : Nat) (layer1 layer2 : Int) : List Check :=
  let result := imax (cdiv (blc - layer1 - layer2 - 2) D) 0
  let requested := w0 *. CFloat.pow (ofRat 2) (ofInt (layer1 + 1)) *. w0 *. CFloat.pow (ofRat 2) (ofInt (layer2 + 1)) /. W
  [tree 326 (decide (0 ≤ layer1 ∧ layer1 < layers)), tree 327 (decide (0 ≤ layer2 ∧ layer2 < layers)),
    tree 331 (fle requested (volume D result 0) || fle (ofRat 1) requested),
    tree 332 (volume D result 1 <. requested)]

end levels

/-! ### Constructor -/

/-- one iteration of the classification loop, SpatialTree.inl:367-372 and Node.h:24 (`_coord.size()==D` holds by the type
of the argument here) -/
def classifyOne {F : Type} [CFloat F] (D : Nat) (h : Build.Header F) (maxCell : Nat) (node : Node F D) :
    Option (List Check) := do
  let li ← toI32 (CFloat.log2 (node.weight /. h.w0))
  let c ← cellForPoint D node.coord (weightLayerTargetLevel D h.blc li)
  some (targetLevel D h.w0 h.W h.blc h.layers h.levels li ++ c ++ [tree 372 (decide (node.cellId < maxCell))])

/-- `ilog2` of the maximal cell, IntSort.h:24-39, called by the constructor of the sorter -/
def ilog2 (x : Nat) : List Check :=
  if x = 0 then []
  else [⟨"IntSort.h", 35, decide (x ≤ 2 ^ IntSort.ilog2 x)⟩, ⟨"IntSort.h", 36, decide (2 ^ IntSort.ilog2 x / 2 < x)⟩]

/-- the assertions about the finished index, SpatialTree.inl:443-459 -/
def index {F : Type} {D : Nat} (maxCell : Nat) (nodes : List (Node F D)) (first : List Nat) : Option (List Check) := do
  let last ← rd nodes (nodes.length - 1)
  let f0 ← rd first 0
  let fm ← rd first maxCell
  let cells ← Tree.concatM (List.range maxCell) (fun cid => do
    let b ← rd first cid
    let e ← rd first (cid + 1)
    -- `for (idx = begin; idx != end; ++idx)` runs out of the array if `begin > end`
    if b ≤ e then
      (List.range' b (e - b)).mapM fun idx => do
        let x ← rd nodes idx
        some (tree 457 (decide (x.cellId = cid)))
    else none)
  some ([tree 445 (decide (last.cellId < maxCell)), tree 448 (decide (f0 = 0)), tree 449 (decide (fm = nodes.length)),
    tree 450 (isSorted first)] ++ cells)

/-- all assertions of the constructor in terms of its intermediate results, SpatialTree.inl:9-38 and 338-474: the
initialiser list (line 19), 22-23, the layer pairs (30), 342, the first cells (353), the classification, the sorter, the
sorted nodes (385), the index, and the weight layers (469) -/
def constructor {F : Type} [CFloat F] {D : Nat} (weights : List F) (positions : List (Fin D → F)) (h : Build.Header F)
    (maxCell : Nat) (nodes0 nodes : List (Node F D)) (first : List Nat) : Option (List Check) := do
  let bl := fun p : Nat × Nat => baseLevel D h.w0 h.W h.blc h.layers p.1 p.2
  let tl := fun l : Nat => targetLevel D h.w0 h.W h.blc h.layers h.levels l
  let cls ← Tree.concatM nodes0 (classifyOne D h maxCell)
  let idx ← index maxCell nodes first
  some (bl (0, 0) ++
    [tree 22 (decide (weights.length = positions.length)), tree 23 (decide (0 < positions.length))] ++
    (((List.range h.layers).flatMap fun i => (List.range h.layers).map fun j => (i, j)).flatMap bl) ++
    [tree 342 (decide (positions.length = weights.length))] ++ (List.range h.layers).flatMap tl ++ cls ++
    ilog2 maxCell ++ [tree 385 (isSorted (nodes.map Node.cellId))] ++ idx ++ (List.range h.layers).flatMap tl)

end Asserts

/-- As `Constructed` (Verif/Model/BuildPartition.lean), for a debug build: some execution of the constructor evaluates the
assertions `checks` and, if none of them aborts it, ends with the state `T`. -/
def DebugConstructed {F : Type} [CFloat F] {D : Nat} (weights : List F) (positions : List (Fin D → F)) (alpha : F)
    (T : Tree F D) (checks : Option (List Check)) : Prop :=
  ∃ h lp fc nodes0 wl, Build.header D weights = some h ∧ Build.layerPairTable D h.blc h.layers h.levels = some lp ∧
    Build.firstCells D h.blc h.layers = some fc ∧
    Build.classify D h.w0 h.blc fc weights positions = some nodes0 ∧
    Build.weightLayers D h.blc fc h.layers = some wl ∧
    ∃ maxCell, fc.getLast? = some maxCell ∧
    ∃ omp t B0 nodes threads first, 1 ≤ t ∧ t ≤ IntSort.maxThreads omp weights.length ∧ B0.length = weights.length ∧
      IntSort.Run Node.cellId maxCell t nodes0 B0 nodes ∧
      1 ≤ threads ∧ threads < 2147483648 ∧ Build.IndexRun maxCell threads (nodes.map Node.cellId) first ∧
      T = { ndebug := false, alpha := alpha, n := weights.length, w0 := h.w0, wn := h.wn, W := h.W, blc := h.blc,
            layers := h.layers, levels := h.levels, nodes := nodes, firstInCell := first, weightLayers := wl,
            layerPairs := lp } ∧
      checks = Asserts.constructor weights positions h maxCell nodes0 nodes first

namespace Tree
variable {F : Type} [CFloat F] {D : Nat}
open Asserts (tree)

/-- `partitioningBaseLevel(i, j)` evaluated inside an assertion -/
def baseChecks (T : Tree F D) (i j : Nat) : List Check := Asserts.baseLevel D T.w0 T.W T.blc T.layers i j

/-- the two calls of `cellIterators`, SpatialTree.inl:163-164 and 231-232 -/
def rangeChecks (T : Tree F D) (t : Task) : Option (List Check) := do
  let wi ← rd T.weightLayers t.i
  let wj ← rd T.weightLayers t.j
  let ca ← Asserts.cellIterators D T.firstInCell wi t.cellA t.level
  let cb ← Asserts.cellIterators D T.firstInCell wj t.cellB t.level
  some (ca ++ cb)

/-- SpatialTree.inl:203-204 and 279-280: `i == static_cast<unsigned int>(std::log2(weight/m_w0))` -/
def layerCheck (T : Tree F D) (line i : Nat) (u : Node F D) : Option Check := do
  let k ← toU32 (CFloat.log2 (u.weight /. T.w0))
  some (tree line (decide (i = k)))

/-- the assertions about one node of a pair of `sampleTypeI`, SpatialTree.inl:195-200 (line `l1` for the position, `l2` for
the cell): `u` is the `k`-th node of the range of `cell` in layer `wl` -/
def nodeChecks (T : Tree F D) (l1 l2 : Nat) (wl : WeightLayer) (cell level k : Nat) (u : Node F D) : Option (List Check) := do
  let lc ← Asserts.levelledCell D wl cell level
  let x ← wl.kthPoint D T.nodes T.firstInCell cell level k
  let first ← Coord.firstCellOfLevel D level
  let cc ← Asserts.cellForPoint D u.coord level
  let c ← Coord.cellForPoint D u.coord level
  some (lc ++ cc ++ [tree l1 (decide (u.index = x.index)), tree l2 (decide (subU cell first = c))])

/-- the assertions about the pair of positions `c` in `sampleTypeI`, SpatialTree.inl:194-206 -/
def pairChecksI (T : Tree F D) (t : Task) (ra rb : Nat × Nat) (c : Nat × Nat) : Option (List Check) := do
  let u ← rd T.nodes c.1
  let v ← rd T.nodes c.2
  let wi ← rd T.weightLayers t.i
  let wj ← rd T.weightLayers t.j
  let ca ← nodeChecks T 195 199 wi t.cellA t.level (c.1 - ra.1) u
  let cb ← nodeChecks T 196 200 wj t.cellB t.level (c.2 - rb.1) v
  let la ← layerCheck T 203 t.i u
  let lb ← layerCheck T 204 t.j v
  some (ca ++ cb ++ [la, lb, tree 206 (decide (u.index ≠ v.index))])

/-- the assertions of `sampleTypeI`, SpatialTree.inl:156-221 -/
def checksI (T : Tree F D) (t : Task) : Option (List Check) := do
  let touch ← Coord.touching D t.cellA t.cellB t.level
  let rc ← T.rangeChecks t
  let (ra, rb) ← T.ranges t
  let own := T.baseChecks t.i t.j ++
    [tree 161 (decide (partitioningBaseLevel D T.blc t.i t.j = t.level) || !touch)] ++ rc
  if ra.1 = ra.2 ∨ rb.1 = rb.2 then some own
  else
    let ps ← pairsI t ra rb
    let pc ← concatM ps (T.pairChecksI t ra rb)
    some (own ++ pc)

/-- the assertions about a drawn pair in `sampleTypeII`, SpatialTree.inl:279-290 -/
def pairChecksII (T : Tree F D) (t : Task) (w cd : F) (u v : Node F D) : Option (List Check) := do
  let la ← layerCheck T 279 t.i u
  let lb ← layerCheck T 280 t.j v
  some [la, lb, tree 289 (T.wTerm u v <. w), tree 290 (Asserts.fle (powToThe D cd) (dTerm u v))]

/-- the assertions evaluated by the skipping loop, SpatialTree.inl:270-295 (same draws as `loopII`) -/
def loopChecks (T : Tree F D) (rng : Rng F) (t : Task) (w cd : F) (ra rb : Nat × Nat) (mp : F) :
    Nat → Nat → rng.G → Option (List Check)
  | 0, _, _ => none
  | fuel + 1, r, g =>
    let sizeA := ra.2 - ra.1
    let sizeB := rb.2 - rb.1
    if r < sizeA * sizeB then do
      let u ← rd T.nodes (ra.1 + r % sizeA)
      let v ← rd T.nodes (rb.1 + r / sizeA)
      let pc ← T.pairChecksII t w cd u v
      let x := rng.uniformTo mp g
      let jump := rng.geo mp x.2
      let rest ← loopChecks T rng t w cd ra rb mp fuel ((r + 1 + jump.1) % 18446744073709551616) jump.2
      some (pc ++ rest)
    else some []

/-- the assertions of `sampleTypeII`, SpatialTree.inl:224-296 -/
def checksII (T : Tree F D) (rng : Rng F) (t : Task) (g : rng.G) : Option (List Check) := do
  let rc ← T.rangeChecks t
  let (ra, rb) ← T.ranges t
  let own := T.baseChecks t.i t.j ++ [tree 229 (decide (t.level ≤ partitioningBaseLevel D T.blc t.i t.j))] ++ rc
  if ra.1 = ra.2 ∨ rb.1 = rb.2 then some own
  else
    let w ← T.wUpper t.i t.j
    let cd ← Coord.dist (F := F) D t.cellA t.cellB t.level
    let mp ← T.maxProb t
    let own := own ++ [tree 245 (w <. powToThe D cd)]
    let numPairs := (ra.2 - ra.1) * (rb.2 - rb.1)
    let expected : F := ofNat numPairs *. mp
    if ofRat (1 / 5) <. mp then do
      let more ← T.checksI t
      some (own ++ more)
    else if expected <. ofRat (1 / 1000000) then some own
    else do
      let r := rng.geo mp g
      let more ← loopChecks T rng t w cd ra rb mp (numPairs + 1) r.1 r.2
      some (own ++ more)

/-- the assertions of one sampling call -/
def taskChecks (T : Tree F D) (rng : Rng F) (t : Task) (g : rng.G) : Option (List Check) :=
  if t.two then T.checksII rng t g else T.checksI t

/-- the assertions of a sequence of sampling calls with one generator -/
def tasksChecks (T : Tree F D) (rng : Rng F) : List Task → rng.G → Option (List Check)
  | [], _ => some []
  | t :: L, g => do
    let c ← T.taskChecks rng t g
    let x ← runTask T rng t g
    let rest ← tasksChecks T rng L x.2
    some (c ++ rest)

/-- what `sampleTypeI` adds to `m_type1_checks`, SpatialTree.inl:166-180 -/
def countI (T : Tree F D) (t : Task) : Option Int := do
  let (ra, rb) ← T.ranges t
  if ra.1 = ra.2 ∨ rb.1 = rb.2 then some 0
  else
    let a : Int := (ra.2 : Int) - ra.1
    let b : Int := (rb.2 : Int) - rb.1
    some (if t.cellA = t.cellB ∧ t.i = t.j then a * (a - 1) else a * b * 2)

/-- what `sampleTypeII` adds to the two counters (`m_type1_checks` if it calls `sampleTypeI`), SpatialTree.inl:234-260 -/
def countII (T : Tree F D) (t : Task) : Option (Int × Int) := do
  let (ra, rb) ← T.ranges t
  if ra.1 = ra.2 ∨ rb.1 = rb.2 then some (0, 0)
  else
    let a : Int := (ra.2 : Int) - ra.1
    let b : Int := (rb.2 : Int) - rb.1
    let mp ← T.maxProb t
    if ofRat (1 / 5) <. mp then (T.countI t).map fun x => (x, 0) else some (0, 2 * a * b)

/-- what a sampling call adds to the counters `m_type1_checks` and `m_type2_checks` (`omp atomic` updates of `long long`s;
the sums stay below `n^2 < 2^62`) -/
def counts (T : Tree F D) (t : Task) : Option (Int × Int) :=
  if t.two then T.countII t else (T.countI t).map fun x => (x, 0)

/-- the counters after a list of sampling calls -/
def totals (T : Tree F D) : List Task → Option (Int × Int)
  | [] => some (0, 0)
  | t :: L => do
    let x ← T.counts t
    let y ← T.totals L
    some (x.1 + y.1, x.2 + y.2)

/-- the final assertion of `generateEdges`, SpatialTree.inl:61 and 82 -/
def finalCheck (T : Tree F D) (line : Nat) (ts : List Task) : Option Check := do
  let x ← T.totals ts
  some (tree line (decide (x.1 + x.2 = (T.n : Int) * ((T.n : Int) - 1))))

/-- all assertions of `SpatialTree::generateEdges`, SpatialTree.inl:41-83, for one thread -/
def sequentialChecks (T : Tree F D) (rng : Rng F) (gens : Nat → rng.G) : Option (List Check) := do
  let ts ← visitCellPair T T.levels 0 0 0
  let c ← T.tasksChecks rng ts (gens 0)
  let f ← T.finalCheck 61 ts
  some (c ++ [f])

/-- all assertions of `SpatialTree::generateEdges` for several threads -/
def parallelChecks (T : Tree F D) (rng : Rng F) (gens : Nat → rng.G) (fpl : Nat) (chunks : List (List Nat)) :
    Option (List Check) := do
  let plan ← parallelPlan T fpl chunks
  let c0 ← T.tasksChecks rng plan.1 (gens 0)
  let r0 ← runTasks T rng plan.1 (gens 0)
  let cs ← concatM (List.range plan.2.length) fun k => do
    let ts ← rd plan.2 k
    T.tasksChecks rng ts (if k = 0 then r0.2 else gens k)
  let f ← T.finalCheck 82 (plan.1 ++ plan.2.flatten)
  some (c0 ++ cs ++ [f])

end Tree

/-- the assertions `SpatialTree::generateEdges` evaluates on the constructed tree -/
def treeChecks {F : Type} [CFloat F] {D : Nat} (env : Env) (T : Tree F D) (rng : Tree.Rng F) (gens : Nat → rng.G) :
    Option (List Check) :=
  if env.threads = 1 then T.sequentialChecks rng gens
  else do
    let fpl ← Tree.firstParallelLevel F D env.threads
    let cells ← Coord.numCellsInLevel D fpl
    T.parallelChecks rng gens fpl (env.chunks cells)

/-- `girgs::generateEdges` of a debug build for `D`-dimensional positions, Generator.cpp:72-118: some execution evaluates
the assertions `checks` (first those of the constructor, then those of the sampling) -/
def DebugRun {F : Type} [CFloat F] {D : Nat} (env : Env) (rng : Tree.Rng F) (gens : Nat → rng.G) (weights : List F)
    (points : List (Fin D → F)) (alpha : F) (checks : Option (List Check)) : Prop :=
  ∃ T c0, DebugConstructed weights points alpha T c0 ∧
    checks = (do let a ← c0; let b ← treeChecks env T rng gens; some (a ++ b))

end Girgs
