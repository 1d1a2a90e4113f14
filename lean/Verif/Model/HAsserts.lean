import Verif.Model.Asserts
import Verif.Model.HyperGenerate
/-
The debug assertions of the hyperbolic sampler (HyperbolicTree.inl, RadiusLayer.h, RadiusLayer.cpp, Point.h,
DistanceFilter.h, IntSort.h): for every function containing an `assert`, the list of the assertion instances a call
evaluates, each with its file, its line and the value of its condition (as Verif/Model/Asserts.lean for the GIRG sampler).
A debug build (without `NDEBUG`) aborts iff one of the listed conditions is false.  (`ScopedTimer.h:95` is in
Verif/Model/Timer.lean.)

In a debug build a `Point` also has the members `radius` and `angle` (Point.h:34-35, 85-88), set by its constructor to the radius
and the angle of the input point with the point's `id`.  They are read here from the input (`radii`, `angles`) at index `id`.
-/
namespace Girgs
open CFloat

namespace HAsserts
variable {F : Type} [CFloat F]

/-- an assertion of HyperbolicTree.inl -/
def tree (line : Nat) (holds : Bool) : Check := ⟨"HyperbolicTree.inl", line, holds⟩

/-- an assertion of RadiusLayer.h -/
def layer (line : Nat) (holds : Bool) : Check := ⟨"RadiusLayer.h", line, holds⟩

/-- an assertion of RadiusLayer.cpp -/
def build (line : Nat) (holds : Bool) : Check := ⟨"RadiusLayer.cpp", line, holds⟩

/-- an assertion of Point.h -/
def point (line : Nat) (holds : Bool) : Check := ⟨"Point.h", line, holds⟩

/-- an assertion of DistanceFilter.h -/
def filter (line : Nat) (holds : Bool) : Check := ⟨"DistanceFilter.h", line, holds⟩

/-- the assertion of `partitioningBaseLevel(r1, r2, R)`, RadiusLayer.h:58 -/
def baseLevel (r1 r2 R : F) : Check := layer 58 ((r1 <. R) && (r2 <. R))

/-- the assertions of `levelledCell`, RadiusLayer.h:73, 74, 84 -/
def levelledCell (rl : RadiusLayer F) (cell level : Nat) : Option (List Check) := do
  let first ← Angle.firstCellOfLevel level
  let next ← Angle.firstCellOfLevel (u32 (level + 1))
  let be ← rl.levelledCell cell level
  some [layer 73 (decide (level ≤ rl.target)), layer 74 (decide (first ≤ cell ∧ cell < next)),
    layer 84 (decide (be.1 ≤ be.2))]

/-- the assertions of `pointsInCell`, RadiusLayer.h:25-31 -/
def pointsInCell (rl : RadiusLayer F) (cell level : Nat) : Option (List Check) := do
  let lc ← levelledCell rl cell level
  let be ← rl.levelledCell cell level
  let first ← Angle.firstCellOfLevel level
  let next ← Angle.firstCellOfLevel (u32 (rl.target + 1))
  some (lc ++ [layer 28 (decide (u32 (be.1 + first) < next)), layer 29 (decide (u32 (be.2 + first) < next))])

/-- the assertions of `cellIterators`, RadiusLayer.h:38-45 -/
def cellIterators (firstInCell : List Nat) (rl : RadiusLayer F) (cell level : Nat) : Option (List Check) := do
  let lc ← levelledCell rl cell level
  let r ← rl.cellIterators firstInCell cell level
  some (lc ++ [layer 44 (decide (r.1 ≤ r.2))])

/-! ### Construction -/

/-- `0 <= a && a < 2*PI` -/
def angleOk (angle : F) : Bool := Asserts.fle (ofRat 0) angle && (angle <. ofRat 2 *. CFloat.pi)

/-- one iteration of the classification loop, RadiusLayer.cpp:87-88, and the constructor of the point, Point.h:39-41 -/
def classifyOne (R : F) (i : Nat) (radius angle : F) : List Check :=
  [build 87 (Asserts.fle (ofRat 0) radius && (radius <. R)), build 88 (angleOk angle),
    point 39 (angleOk angle), point 40 (Asserts.fle (ofRat 0) radius), point 41 (decide ((0 : Int) ≤ i))]

/-- the assertions about the finished index, RadiusLayer.cpp:166-183 -/
def index (maxCell : Nat) (points : List (HPoint F)) (first : List Nat) : Option (List Check) := do
  let last ← rd points (points.length - 1)
  let f0 ← rd first 0
  let fm ← rd first maxCell
  let cells ← Tree.concatM (List.range maxCell) (fun cid => do
    let b ← rd first cid
    let e ← rd first (cid + 1)
    -- `for (idx = begin; idx != end; ++idx)` runs out of the array if `begin > end`
    if b ≤ e then
      (List.range' b (e - b)).mapM fun idx => do
        let x ← rd points idx
        some (build 180 (decide (x.cellId = cid)))
    else none)
  some ([build 168 (decide (last.cellId < maxCell)), build 171 (decide (f0 = 0)), build 172 (decide (fm = points.length)),
    build 173 (Asserts.isSorted first)] ++ cells)

/-- the constructor of a radius layer, RadiusLayer.cpp:14-35 -/
def layerPoints (radii : List F) (points : List (HPoint F)) (first : List Nat) (rl : RadiusLayer F) : Option (List Check) := do
  let cells ← Angle.numCellsInLevel rl.target
  let b ← rd first rl.off
  let e ← rd first (rl.off + cells)
  if b ≤ e then
    Tree.concatM (List.range' b (e - b)) fun idx => do
      let p ← rd points idx
      let r ← rd radii p.id
      some [build 31 (Asserts.fle rl.rMin r), build 32 (Asserts.fle r rl.rMax)]
  else none

/-- the assertions of `buildPartition(radii, angles, R, 1.0, points, first_in_cell)` in terms of its intermediate results,
RadiusLayer.cpp:37-199: the sizes and the radius (42-43), the levels (57 and 60), the classification, the sorter
(IntSort.h:35-36), the sorted points (106), the index and the radius layers -/
def buildPartition (R : F) (radii angles : List F) (nl : Nat) (lol : List Nat) (maxCell : Nat) (points : List (HPoint F))
    (first : List Nat) (rls : List (RadiusLayer F)) : Option (List Check) := do
  let cls ← Tree.concatM (List.range radii.length) (fun i => do
    let r ← rd radii i
    let a ← rd angles i
    some (classifyOne R i r a))
  let idx ← index maxCell points first
  let lay ← Tree.concatM rls (layerPoints radii points first)
  some ([build 42 (decide (radii.length = angles.length)), build 43 (Asserts.fle (ofRat 1) R)] ++
    (List.range nl).map (fun l => baseLevel (HBuild.radMin R l) (R -. ofRat 1) R) ++
    [build 60 (Asserts.isSorted lol.reverse)] ++ cls ++ Asserts.ilog2 (u32 (maxCell + 1)) ++
    [build 106 (Asserts.isSorted (points.map HPoint.cellId))] ++ idx ++ lay)

/-- the loops over all pairs of layers in the constructor of the tree, HyperbolicTree.inl:26-28 and 34-38 -/
def layerPairs (R : F) (rls : List (RadiusLayer F)) : List Check :=
  rls.flatMap fun a => rls.map fun b => baseLevel a.rMin b.rMin R

end HAsserts

/-- As `HConstructed` (Verif/Model/HyperBuild.lean), for a debug build: some execution of the constructor of `HyperbolicTree`
evaluates the assertions `checks` and, if none of them aborts it, ends with the state `H`. -/
def HDebugConstructed {F : Type} [CFloat F] (radii angles : List F) (T R : F) (H : HTree F) (checks : Option (List Check)) : Prop :=
  ∃ points first rls r0 lp fil nl lol fc maxCell points0,
    HBuild.numLayers R = some nl ∧ HBuild.levelOfLayer R nl = some lol ∧ HBuild.firstCells lol = some (fc, maxCell) ∧
    nl ≠ 0 ∧ HBuild.classify R lol fc radii angles = some points0 ∧
    (∃ omp t B0 threads, 1 ≤ t ∧ t ≤ IntSort.maxThreads omp radii.length ∧ B0.length = radii.length ∧
      IntSort.Run HPoint.cellId (u32 (maxCell + 1)) t points0 B0 points ∧
      1 ≤ threads ∧ threads < 2147483648 ∧ HBuild.IndexRun maxCell threads (points.map HPoint.cellId) first ∧
      ∃ c0 layers, (points.map HPoint.cellId)[0]? = some c0 ∧ HBuild.prune fc c0 (nl + 1) 1 = some layers ∧
        HBuild.radiusLayers R lol fc layers = some rls) ∧
    rls[0]? = some r0 ∧
    HBuild.layerPairTable R rls rls.length (u32 (r0.target + 1)) = some lp ∧
    HBuild.filterTable R T rls rls.length = some fil ∧
    H = { ndebug := false, n := radii.length, coshR := CFloat.cosh R, T := T, R := R, layers := rls.length,
          levels := u32 (r0.target + 1), points := points, firstInCell := first, radiusLayers := rls, layerPairs := lp,
          filterI := DistFilter.make (ofRat 1) R T, filterII := fil } ∧
    checks = (do
      let b ← HAsserts.buildPartition R radii angles nl lol maxCell points first rls
      some (b ++ HAsserts.layerPairs R rls ++ if CFloat.eq T (ofRat 0) then [] else HAsserts.layerPairs R rls))

/-! ### Sampling -/

namespace HTree
open Tree (concatM Rng)
open HAsserts (tree)
variable {F : Type} [CFloat F]

/-- the two calls of `cellIterators`, HyperbolicTree.inl:269-270 -/
def rangeChecks (H : HTree F) (t : Task) : Option (List Check) := do
  let wi ← rd H.radiusLayers t.i
  let wj ← rd H.radiusLayers t.j
  let ca ← HAsserts.cellIterators H.firstInCell wi t.cellA t.level
  let cb ← HAsserts.cellIterators H.firstInCell wj t.cellB t.level
  some (ca ++ cb)

/-- the two calls of `pointsInCell`, HyperbolicTree.inl:348-349 -/
def sizeChecks (H : HTree F) (t : Task) : Option (List Check) := do
  let wi ← rd H.radiusLayers t.i
  let wj ← rd H.radiusLayers t.j
  let ca ← HAsserts.pointsInCell wi t.cellA t.level
  let cb ← HAsserts.pointsInCell wj t.cellB t.level
  some (ca ++ cb)

/-- the two calls of `kthPoint(cell, level, 0)`, HyperbolicTree.inl:397-398 -/
def startChecks (H : HTree F) (t : Task) : Option (List Check) := do
  let wi ← rd H.radiusLayers t.i
  let wj ← rd H.radiusLayers t.j
  let ca ← HAsserts.levelledCell wi t.cellA t.level
  let cb ← HAsserts.levelledCell wj t.cellB t.level
  some (ca ++ cb)

/-- `nodeInA == m_radius_layers[i].kthPoint(cellA, level, k)` for the point `u`, HyperbolicTree.inl:302-303 -/
def kthCheck (H : HTree F) (line : Nat) (rl : RadiusLayer F) (cell level k : Nat) (u : HPoint F) : Option (List Check) := do
  let lc ← HAsserts.levelledCell rl cell level
  let p ← rl.kthPos H.firstInCell cell level k
  let x ← rd H.points p
  some (lc ++ [tree line (decide (u.id = x.id))])

/-- the point `u` is in the cell and in the layer, HyperbolicTree.inl:306-311 and 409-414 (line `l1` for the cell, `l2` for the
radius) -/
def placeChecks (radii angles : List F) (l1 l2 : Nat) (rl : RadiusLayer F) (cell level : Nat) (u : HPoint F) :
    Option (List Check) := do
  let a ← rd angles u.id
  let r ← rd radii u.id
  let first ← Angle.firstCellOfLevel level
  let c ← Angle.cellForPoint a level
  some [tree l1 (decide (subU cell first = c)), tree l2 ((rl.rMin <. r) && Asserts.fle r rl.rMax)]

/-- the assertions of the filter queries and of the two shortcuts, HyperbolicTree.inl:324-334 (lines `l1` = 325, `l2` = 331) and
426-436 (427, 433) -/
def probChecks (H : HTree F) (f : DistFilter F) (l1 l2 : Nat) (u v : HPoint F) (rnd : F) : Option (List Check) := do
  let c := u.distCosh v
  let x := rnd *. probRec H.R H.T (CFloat.acosh c)
  let up ← f.upper rnd
  let q := HAsserts.filter 45 (rnd <. f.maxProb)
  if up <. c then some [q, tree l1 (Asserts.fle (ofRat 1) x)]
  else do
    let lo ← f.lower rnd
    let q' := HAsserts.filter 53 (rnd <. f.maxProb)
    if c <. lo then some [q, q', tree l2 (x <. ofRat 1)] else some [q, q']

/-- the decision for a pair in `sampleTypeI`, HyperbolicTree.inl:314-339: `isDistanceBelowR` (Point.h:48) and line 316, or the
filter -/
def decideChecksI (H : HTree F) (radii angles : List F) (rng : Rng F) (u v : HPoint F) (g : rng.G) : Option (List Check) :=
  if H.inThresholdMode then do
    let r1 ← rd radii u.id
    let a1 ← rd angles u.id
    let r2 ← rd radii v.id
    let a2 ← rd angles v.id
    some ([HAsserts.point 48 (ofRat 1 /. u.invsinh <. H.coshR)] ++
      if u.isDistanceBelowR v H.coshR then [tree 316 (hyperbolicDistance r1 a1 r2 a2 <. H.R)] else [])
  else probChecks H H.filterI 325 331 u v (rng.uniform g).1

/-- the assertions about the pair of positions `c` in `sampleTypeI`, HyperbolicTree.inl:302-339 -/
def pairChecksI (H : HTree F) (radii angles : List F) (rng : Rng F) (t : Task) (ra rb : Nat × Nat) (c : Nat × Nat) (g : rng.G) :
    Option (List Check) := do
  let u ← rd H.points c.1
  let v ← rd H.points c.2
  let wi ← rd H.radiusLayers t.i
  let wj ← rd H.radiusLayers t.j
  let ka ← H.kthCheck 302 wi t.cellA t.level (c.1 - ra.1) u
  let kb ← H.kthCheck 303 wj t.cellB t.level (c.2 - rb.1) v
  let pa ← placeChecks radii angles 306 310 wi t.cellA t.level u
  let pb ← placeChecks radii angles 307 311 wj t.cellB t.level v
  let d ← H.decideChecksI radii angles rng u v g
  some (ka ++ kb ++ pa ++ pb ++ [tree 313 (decide (u.id ≠ v.id))] ++ d)

/-- the two loops of `sampleTypeI` (same draws as `runPairsI`) -/
def pairsChecksI (H : HTree F) (radii angles : List F) (rng : Rng F) (t : Task) (ra rb : Nat × Nat) :
    List (Nat × Nat) → rng.G → Option (List Check)
  | [], _ => some []
  | c :: L, g => do
    let pc ← H.pairChecksI radii angles rng t ra rb c g
    let u ← rd H.points c.1
    let v ← rd H.points c.2
    let d ← decideI H rng u v g
    let rest ← pairsChecksI H radii angles rng t ra rb L d.2
    some (pc ++ rest)

/-- the assertions of `sampleTypeI`, HyperbolicTree.inl:268-342 -/
def checksI (H : HTree F) (radii angles : List F) (rng : Rng F) (t : Task) (g : rng.G) : Option (List Check) := do
  let rc ← H.rangeChecks t
  let (ra, rb) ← H.ranges t
  if ra.1 = ra.2 ∨ rb.1 = rb.2 then some rc
  else
    let ps ← Tree.pairsI t ra rb
    let pc ← H.pairsChecksI radii angles rng t ra rb ps g
    some (rc ++ pc)

/-- the lower bounds for the angle and the distance of a type II call, HyperbolicTree.inl:377-380 -/
def boundsII (H : HTree F) (t : Task) : Option (F × F) := do
  let wi ← rd H.radiusLayers t.i
  let wj ← rd H.radiusLayers t.j
  let a ← Angle.dist (F := F) t.cellA t.cellB t.level
  some (a, hyperbolicDistance wi.rMin (ofRat 0) wj.rMin a)

/-- the assertions about a drawn pair in `sampleTypeII`, HyperbolicTree.inl:409-436; `bd` are the bounds of `boundsII` -/
def pairChecksII (H : HTree F) (radii angles : List F) (t : Task) (f : DistFilter F) (bd : F × F) (u v : HPoint F) (rnd : F) :
    Option (List Check) := do
  let wi ← rd H.radiusLayers t.i
  let wj ← rd H.radiusLayers t.j
  let pa ← placeChecks radii angles 409 413 wi t.cellA t.level u
  let pb ← placeChecks radii angles 410 414 wj t.cellB t.level v
  let a ← rd angles u.id
  let b ← rd angles v.id
  let d := CFloat.acosh (u.distCosh v)
  let p ← H.probChecks f 427 433 u v rnd
  some (pa ++ pb ++ [tree 420 (Asserts.fle bd.1 (CFloat.abs (a -. b))), tree 421 (Asserts.fle bd.1 (CFloat.abs (b -. a))),
    tree 422 (Asserts.fle bd.2 d), tree 423 (H.R <. d)] ++ p)

/-- the assertions evaluated by the skipping loop, HyperbolicTree.inl:400-442 (same draws as `loopII`) -/
def loopChecks (H : HTree F) (radii angles : List F) (rng : Rng F) (t : Task) (f : DistFilter F) (bd : F × F)
    (sA sB nA nB : Nat) : Nat → Nat → rng.G → Option (List Check)
  | 0, _, _ => none
  | fuel + 1, r, g =>
    if r < nA * nB then do
      let u ← rd H.points (sA + r % nA)
      let v ← rd H.points (sB + r / nA)
      let x := rng.uniformTo f.maxProb g
      let pc ← H.pairChecksII radii angles t f bd u v x.1
      let jump := rng.geo f.maxProb x.2
      let rest ← loopChecks H radii angles rng t f bd sA sB nA nB fuel ((r + 1 + jump.1) % 18446744073709551616) jump.2
      some (pc ++ rest)
    else some []

/-- the assertions of `sampleTypeII`, HyperbolicTree.inl:346-443 -/
def checksII (H : HTree F) (radii angles : List F) (rng : Rng F) (t : Task) (g : rng.G) : Option (List Check) := do
  let sc ← H.sizeChecks t
  let s ← H.sizesII t
  if H.tZero || s.1 == 0 || s.2 == 0 then some sc
  else
    let f ← H.filterFor t
    let b ← Angle.cellsBetween t.cellA t.cellB t.level
    let own := sc ++ [tree 360 (decide (b = 1) || decide (b = 2))]
    if ofRat (1 / 5) <. f.maxProb then do
      let more ← H.checksI radii angles rng t g
      some (own ++ more)
    else
      let bd ← H.boundsII t
      let own := own ++ [tree 382 (CFloat.eq f.maxProb (ofRat 1 /. probRec H.R H.T bd.2))]
      let numPairs := s.1 * s.2
      if ofNat numPairs *. f.maxProb <. ofRat (1 / 1000000) then some own
      else
        let kc ← H.startChecks t
        let p ← H.startsII t
        let r := rng.geo f.maxProb g
        let more ← H.loopChecks radii angles rng t f bd p.1 p.2 s.1 s.2 (numPairs + 1) r.1 r.2
        some (own ++ kc ++ more)

/-- the assertions of one sampling call -/
def taskChecks (H : HTree F) (radii angles : List F) (rng : Rng F) (t : Task) (g : rng.G) : Option (List Check) :=
  if t.two then H.checksII radii angles rng t g else H.checksI radii angles rng t g

/-- the assertions of a sequence of sampling calls with one generator -/
def tasksChecks (H : HTree F) (radii angles : List F) (rng : Rng F) : List Task → rng.G → Option (List Check)
  | [], _ => some []
  | t :: L, g => do
    let c ← H.taskChecks radii angles rng t g
    let x ← runTask H rng t g
    let rest ← tasksChecks H radii angles rng L x.2
    some (c ++ rest)

/-- what `sampleTypeI` adds to `m_type1_checks`, HyperbolicTree.inl:272-283 -/
def countI (H : HTree F) (t : Task) : Option Int := do
  let (ra, rb) ← H.ranges t
  if ra.1 = ra.2 ∨ rb.1 = rb.2 then some 0
  else
    let a : Int := (ra.2 : Int) - ra.1
    let b : Int := (rb.2 : Int) - rb.1
    some (if t.cellA = t.cellB ∧ t.i = t.j then a * (a - 1) else a * b * 2)

/-- what `sampleTypeII` adds to the two counters, HyperbolicTree.inl:351-372: the pairs are counted before the early return, and
taken back before `sampleTypeI` is called -/
def countII (H : HTree F) (t : Task) : Option (Int × Int) := do
  let s ← H.sizesII t
  let k : Int := 2 * (s.1 : Int) * (s.2 : Int)
  if H.tZero || s.1 == 0 || s.2 == 0 then some (0, k)
  else
    let f ← H.filterFor t
    if ofRat (1 / 5) <. f.maxProb then (H.countI t).map fun x => (x, k - k) else some (0, k)

/-- what a sampling call adds to the counters `m_type1_checks` and `m_type2_checks` (`omp atomic` updates of `long long`s; the
sums stay below `n^2 < 2^62`) -/
def counts (H : HTree F) (t : Task) : Option (Int × Int) :=
  if t.two then H.countII t else (H.countI t).map fun x => (x, 0)

/-- the counters after a list of sampling calls -/
def totals (H : HTree F) : List Task → Option (Int × Int)
  | [] => some (0, 0)
  | t :: L => do
    let x ← H.counts t
    let y ← H.totals L
    some (x.1 + y.1, x.2 + y.2)

/-- the final assertion of `generate`, HyperbolicTree.inl:66 and 144 -/
def finalCheck (H : HTree F) (line : Nat) (ts : List Task) : Option Check := do
  let x ← H.totals ts
  some (tree line (decide (x.1 + x.2 = ((H.n : Int) - 1) * (H.n : Int))))

/-- the assertions thread `tid` evaluates while sampling its share, HyperbolicTree.inl:124 -/
def shareChecks (H : HTree F) (radii angles : List F) (rng : Rng F) (gens : Nat → rng.G) (fpl threads tid : Nat) :
    Option (List Check) := do
  let ts ← shareOf H fpl threads tid
  H.tasksChecks radii angles rng ts (gens tid)

/-- the sampling calls of the queued task `i`, HyperbolicTree.inl:139-140 -/
def queuedCalls (H : HTree F) (fpl : Nat) (tasks : List (Nat × Nat)) (i : Nat) : Option (List Task) := do
  let p ← rd tasks i
  visitCellPair H H.levels p.1 p.2 fpl

/-- the assertions evaluated by the queued task `i` -/
def queuedChecks (H : HTree F) (radii angles : List F) (rng : Rng F) (gens : Nat → rng.G) (fpl threads : Nat)
    (tasks : List (Nat × Nat)) (i : Nat) : Option (List Check) := do
  let nt ← numTasks fpl
  let ts ← H.queuedCalls fpl tasks i
  if i < nt then H.tasksChecks radii angles rng ts (gens (threads - 1 + i)) else none

/-- `generate(seed)` of a debug build, HyperbolicTree.inl:56-145: some execution evaluates the assertions `checks` (listed
thread by thread: first the shares of the threads, then the queued tasks in the order in which each thread executed them) -/
def DebugGenerate (env : HEnv) (H : HTree F) (radii angles : List F) (rng : Rng F) (gens : Nat → rng.G)
    (checks : Option (List Check)) : Prop :=
  if env.threads = 1 then
    checks = (do
      let ts ← visitCellPair H H.levels 0 0 0
      let c ← H.tasksChecks radii angles rng ts (gens 0)
      let f ← H.finalCheck 66 ts
      some (c ++ [f]))
  else
    ∃ fpl tasks sched s, firstParallelLevel F env.threads = some fpl ∧
      (if fpl < H.levels then taskList env fpl else some []) = some tasks ∧
      TaskQueue.run tasks.length (TaskQueue.init env.threads (decide (fpl < H.levels))) sched = some s ∧ s.finished ∧
      checks = (do
        let nt ← numTasks fpl
        let a ← concatM (List.range (env.threads - 1)) (H.shareChecks radii angles rng gens fpl env.threads)
        let b ← concatM s.log.flatten (H.queuedChecks radii angles rng gens fpl env.threads tasks)
        let calls ← concatM (List.range (env.threads - 1)) (H.shareOf fpl env.threads)
        let calls' ← concatM s.log.flatten (H.queuedCalls fpl tasks)
        let f ← H.finalCheck 144 (calls ++ calls')
        some ([tree 73 (decide (2 ≤ fpl))] ++ (if fpl < H.levels then [tree 112 (decide (nt = tasks.length))] else []) ++
          a ++ b ++ [f]))

end HTree

/-- `hypergirgs::generateEdges` of a debug build, Generator.cpp:132-171: some execution evaluates the assertions `checks` (first
those of the constructor, then those of the sampling) -/
def HDebugRun {F : Type} [CFloat F] (env : HEnv) (rng : Tree.Rng F) (gens : Nat → rng.G) (radii angles : List F) (T R : F)
    (checks : Option (List Check)) : Prop :=
  ∃ H c0 c1, HDebugConstructed radii angles T R H c0 ∧ HTree.DebugGenerate env H radii angles rng gens c1 ∧
    checks = (do let a ← c0; let b ← c1; some (a ++ b))

end Girgs
