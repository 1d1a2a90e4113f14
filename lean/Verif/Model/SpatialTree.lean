import Verif.Model.WeightLayer
/-
Model of the recursion and the sampling routines of source/girgs/include/girgs/SpatialTree.h and SpatialTree.inl.
(The constructor and `buildPartition` are in Verif/Model/BuildPartition.lean.)

The recursion does not depend on random numbers, so it is modelled as a function producing the ordered list of calls to
`sampleTypeI` / `sampleTypeII` (`Task`s); the calls are then executed in that order with the generator of the thread.
-/
namespace Girgs
open CFloat

/-- `partitioningBaseLevel(layer1, layer2)`, SpatialTree.inl:319-336 (the `int` computation cannot overflow for the
values `log2` of doubles can produce and is not checked). -/
def partitioningBaseLevel (D : Nat) (blc : Int) (layer1 layer2 : Nat) : Nat :=
  (imax (cdiv (blc - layer1 - layer2 - 2) D) 0).toNat

/-- `weightLayerTargetLevel(layer)`, SpatialTree.inl:300-315. -/
def weightLayerTargetLevel (D : Nat) (blc : Int) (layer : Int) : Nat :=
  (imax (cdiv (blc - layer - 1) D) 0).toNat

/-- The state of a constructed `SpatialTree<D>`, SpatialTree.h:178-206.  `ndebug` tells whether the code was compiled
with `NDEBUG`; the assertions are modelled in Verif/Model/Asserts.lean. -/
structure Tree (F : Type) (D : Nat) where
  ndebug : Bool
  alpha : F
  n : Nat
  w0 : F
  wn : F
  W : F
  blc : Int
  layers : Nat
  levels : Nat
  nodes : List (Node F D)
  firstInCell : List Nat
  weightLayers : List WeightLayer
  layerPairs : List (List (Nat × Nat))

/-- A call `sampleTypeI(cellA, cellB, level, i, j)` (`two = false`) or `sampleTypeII(...)` (`two = true`). -/
structure Task where
  two : Bool
  cellA : Nat
  cellB : Nat
  level : Nat
  i : Nat
  j : Nat
deriving DecidableEq, Repr

namespace Tree
variable {F : Type} [CFloat F] {D : Nat}

/-- `inThresholdMode` / the test `m_alpha == infinity`, SpatialTree.inl:91, 184. -/
def isThreshold (T : Tree F D) : Bool := CFloat.eq T.alpha CFloat.inf

/-- concatenate the results of a loop whose iterations may be undefined -/
def concatM {α β : Type} (L : List α) (f : α → Option (List β)) : Option (List β) :=
  match L with
  | [] => some []
  | a :: L => do
    let x ← f a
    let y ← concatM L f
    some (x ++ y)

/-- Type II calls of a non-touching pair, SpatialTree.inl:88-97 (and 122-131). -/
def typeIITasks (T : Tree F D) (cellA cellB level : Nat) : Option (List Task) :=
  if T.ndebug && T.isThreshold then some []
  else concatM (List.range' level (T.levels - level)) (fun l => do
    let ps ← rd T.layerPairs l
    some (ps.map fun p => ⟨true, cellA, cellB, level, p.1, p.2⟩))

/-- Type I calls of a touching pair, SpatialTree.inl:99-103 (and 133-137). -/
def typeITasks (T : Tree F D) (cellA cellB level : Nat) : Option (List Task) := do
  let ps ← rd T.layerPairs level
  some ((ps.filter fun p => decide (cellA ≠ cellB ∨ p.1 ≤ p.2)).map fun p => ⟨false, cellA, cellB, level, p.1, p.2⟩)

/-- The pairs `(a,b)` of the two child loops, SpatialTree.inl:111-112 (and 145-146), in order.  The loops
`for (a = first; a <= last; ++a)` run over `first, ..., last` (they would not end if `last` were `UINT_MAX`). -/
def childPairs (D cellA cellB : Nat) : Option (List (Nat × Nat)) := do
  let fa ← Coord.firstChild D cellA
  let la ← Coord.lastChild D cellA
  let fb ← Coord.firstChild D cellB
  let lb ← Coord.lastChild D cellB
  some ((List.range' fa (la + 1 - fa)).flatMap fun a =>
    let s := if cellA = cellB then a else fb
    (List.range' s (lb + 1 - s)).map fun b => (a, b))

/-- `visitCellPair(cellA, cellB, level)`, SpatialTree.inl:86-114.  Recursion depth is bounded by the fuel; running out
of fuel is reported as `none` (C15 shows it does not happen with fuel `levels`). -/
def visitCellPair (T : Tree F D) : Nat → Nat → Nat → Nat → Option (List Task)
  | 0, _, _, _ => none
  | fuel + 1, cellA, cellB, level => do
    let t ← Coord.touching D cellA cellB level
    if !t then typeIITasks T cellA cellB level
    else
      let own ← typeITasks T cellA cellB level
      if level = subU T.levels 1 then some own
      else
        let ps ← childPairs D cellA cellB
        let rest ← concatM ps (fun p => visitCellPair T fuel p.1 p.2 (level + 1))
        some (own ++ rest)

/-- What the sequential start does, in order: a sampling call, or `parallel_calls[idx].push_back(b)`. -/
inductive Event where
  | task (t : Task)
  | push (idx b : Nat)

/-- `visitCellPair_sequentialStart`, SpatialTree.inl:118-152. `numCalls` is `parallel_calls.size()`. -/
def sequentialStart (T : Tree F D) (fpl numCalls : Nat) : Nat → Nat → Nat → Nat → Option (List Event)
  | 0, _, _, _ => none
  | fuel + 1, cellA, cellB, level => do
    let t ← Coord.touching D cellA cellB level
    if !t then (typeIITasks T cellA cellB level).map (List.map Event.task)
    else
      let own ← typeITasks T cellA cellB level
      if level = subU T.levels 1 then some (own.map Event.task)
      else
        let ps ← childPairs D cellA cellB
        let rest ← concatM ps (fun p =>
          if level + 1 = fpl then do
            let first ← Coord.firstCellOfLevel D fpl
            let idx := subU p.1 first
            if idx < numCalls then some [Event.push idx p.2] else none
          else sequentialStart T fpl numCalls fuel p.1 p.2 (level + 1))
        some (own.map Event.task ++ rest)

/-! ### Sampling -/

/-- Random number generators: an arbitrary state machine `G` with the three distributions the code draws from
(`std::uniform_real_distribution<>(0,1)`, `(0,b)` and `std::geometric_distribution<unsigned long long>(p)`). -/
structure Rng (F : Type) where
  G : Type
  uniform : G → F × G
  uniformTo : F → G → F × G
  geo : F → G → Nat × G

/-- `w_term`, SpatialTree.inl:208 and 286. -/
def wTerm (T : Tree F D) (u v : Node F D) : F := u.weight *. v.weight /. T.W

/-- `d_term`, SpatialTree.inl:209 and 287. -/
def dTerm (u v : Node F D) : F := powToThe D (u.distance v)

/-- `edge_prob` / `connection_prob`, SpatialTree.inl:215 and 288. -/
def edgeProb (T : Tree F D) (u v : Node F D) : F := CFloat.pow (T.wTerm u v /. dTerm u v) T.alpha

/-- The decision for one pair in `sampleTypeI`, SpatialTree.inl:207-218. -/
def decideI (T : Tree F D) (rng : Rng F) (u v : Node F D) (g : rng.G) : Bool × rng.G :=
  if T.isThreshold then (dTerm u v <. T.wTerm u v, g)
  else
    let r := rng.uniform g
    (r.1 <. T.edgeProb u v, r.2)

/-- Run the pair decisions of `sampleTypeI` in order, collecting the emitted edges (callback order). -/
def runPairsI (T : Tree F D) (rng : Rng F) : List (Nat × Nat) → rng.G → Option (List (Nat × Nat) × rng.G)
  | [], g => some ([], g)
  | (a, b) :: L, g => do
    let u ← rd T.nodes a
    let v ← rd T.nodes b
    let d := decideI T rng u v g
    let rest ← runPairsI T rng L d.2
    some (if d.1 then (u.index, v.index) :: rest.1 else rest.1, rest.2)

/-- The node ranges `rangeA`, `rangeB` of a sampling call, SpatialTree.inl:163-164 and 231-232. -/
def ranges (T : Tree F D) (t : Task) : Option ((Nat × Nat) × (Nat × Nat)) := do
  let wi ← rd T.weightLayers t.i
  let wj ← rd T.weightLayers t.j
  let ra ← wi.cellIterators D T.firstInCell t.cellA t.level
  let rb ← wj.cellIterators D T.firstInCell t.cellB t.level
  some (ra, rb)

/-- Iteration space of the two loops of `sampleTypeI` as array positions, SpatialTree.inl:186-189:
`offset = (cellA == cellB && i == j) ? kA+1 : 0`.  A loop `for (p = s; p != e; ++p)` with `s > e` would run out of the
array: undefined. -/
def pairsI (t : Task) (ra rb : Nat × Nat) : Option (List (Nat × Nat)) :=
  if ra.1 ≤ ra.2 then
    concatM (List.range (ra.2 - ra.1)) (fun kA =>
      let offset := if t.cellA = t.cellB ∧ t.i = t.j then kA + 1 else 0
      if rb.1 + offset ≤ rb.2 then
        some ((List.range' (rb.1 + offset) (rb.2 - (rb.1 + offset))).map fun pb => (ra.1 + kA, pb))
      else none)
  else none

/-- `sampleTypeI`, SpatialTree.inl:156-221. -/
def sampleTypeI (T : Tree F D) (rng : Rng F) (t : Task) (g : rng.G) : Option (List (Nat × Nat) × rng.G) := do
  let (ra, rb) ← T.ranges t
  if ra.1 = ra.2 ∨ rb.1 = rb.2 then some ([], g)
  else
    let ps ← pairsI t ra rb
    runPairsI T rng ps g

/-- `w_upper_bound`, SpatialTree.inl:241: `m_w0*(1<<(i+1)) * m_w0*(1<<(j+1)) / m_W`. -/
def wUpper (T : Tree F D) (i j : Nat) : Option F := do
  let a ← shl1 (i + 1)
  let b ← shl1 (j + 1)
  some (T.w0 *. ofInt a *. T.w0 *. ofInt b /. T.W)

/-- `max_connection_prob`, SpatialTree.inl:241-244. -/
def maxProb (T : Tree F D) (t : Task) : Option F := do
  let w ← T.wUpper t.i t.j
  let cd ← Coord.dist (F := F) D t.cellA t.cellB t.level
  some (fmin (CFloat.pow (w /. powToThe D cd) T.alpha) (ofRat 1))

/-- The condition of `assert(dist_lower_bound > w_upper_bound)` in `sampleTypeII`, SpatialTree.inl:231-245 (`true` if the
function returns before the assertion). -/
def assertBound (T : Tree F D) (t : Task) : Option Bool := do
  let (ra, rb) ← T.ranges t
  if ra.1 = ra.2 ∨ rb.1 = rb.2 then some true
  else
    let w ← T.wUpper t.i t.j
    let cd ← Coord.dist (F := F) D t.cellA t.cellB t.level
    some (w <. powToThe D cd)

/-- The skipping loop, SpatialTree.inl:270-295: `for (r = geo(); r < num_pairs; r += 1 + geo())` with a 64 bit counter.
Not terminating within the fuel is reported as `none`. -/
def loopII (T : Tree F D) (rng : Rng F) (ra rb : Nat × Nat) (mp : F) :
    Nat → Nat → rng.G → Option (List (Nat × Nat) × rng.G)
  | 0, _, _ => none
  | fuel + 1, r, g =>
    let sizeA := ra.2 - ra.1
    let sizeB := rb.2 - rb.1
    if r < sizeA * sizeB then do
      let u ← rd T.nodes (ra.1 + r % sizeA)
      let v ← rd T.nodes (rb.1 + r / sizeA)
      let x := rng.uniformTo mp g
      let jump := rng.geo mp x.2
      let rest ← loopII T rng ra rb mp fuel ((r + 1 + jump.1) % 18446744073709551616) jump.2
      some (if x.1 <. T.edgeProb u v then (u.index, v.index) :: rest.1 else rest.1, rest.2)
    else some ([], g)

/-- `sampleTypeII`, SpatialTree.inl:224-296. -/
def sampleTypeII (T : Tree F D) (rng : Rng F) (t : Task) (g : rng.G) : Option (List (Nat × Nat) × rng.G) := do
  let (ra, rb) ← T.ranges t
  if ra.1 = ra.2 ∨ rb.1 = rb.2 then some ([], g)
  else
    let mp ← T.maxProb t
    let numPairs := (ra.2 - ra.1) * (rb.2 - rb.1)
    let expected : F := ofNat numPairs *. mp
    if ofRat (1 / 5) <. mp then sampleTypeI T rng t g
    else if expected <. ofRat (1 / 1000000) then some ([], g)
    else
      let r := rng.geo mp g
      loopII T rng ra rb mp (numPairs + 1) r.1 r.2

/-- execute one sampling call -/
def runTask (T : Tree F D) (rng : Rng F) (t : Task) (g : rng.G) : Option (List (Nat × Nat) × rng.G) :=
  if t.two then sampleTypeII T rng t g else sampleTypeI T rng t g

/-- execute a sequence of sampling calls with one generator; the result is the sequence of edge callbacks -/
def runTasks (T : Tree F D) (rng : Rng F) : List Task → rng.G → Option (List (Nat × Nat) × rng.G)
  | [], g => some ([], g)
  | t :: L, g => do
    let x ← runTask T rng t g
    let y ← runTasks T rng L x.2
    some (x.1 ++ y.1, y.2)

end Tree
end Girgs
