import Verif.Model.RadiusLayer
import Verif.Model.SpatialTree
/-
Model of the recursion and the sampling routines of source/hypergirgs/include/hypergirgs/HyperbolicTree.h and
HyperbolicTree.inl.  (The constructor is in Verif/Model/HyperBuild.lean, the threads are in Verif/Model/HyperGenerate.lean.)

As for the GIRG sampler the recursion does not depend on random numbers and is modelled as a function producing the ordered
list of calls to `sampleTypeI` / `sampleTypeII` (`Task`), which are then executed in that order.
-/
namespace Girgs
open CFloat

/-- The state of a constructed `HyperbolicTree`, HyperbolicTree.h:66-88.  (`m_typeII_filter` is empty if `m_T == 0`.) -/
structure HTree (F : Type) where
  ndebug : Bool
  n : Nat
  coshR : F
  T : F
  R : F
  layers : Nat
  levels : Nat
  points : List (HPoint F)
  firstInCell : List Nat
  radiusLayers : List (RadiusLayer F)
  layerPairs : List (List (Nat × Nat))
  filterI : DistFilter F
  filterII : List (List (DistFilter F × DistFilter F))

namespace HTree
open Tree (concatM Rng)
variable {F : Type} [CFloat F]

/-- `connectionProbRec(dist)`, HyperbolicTree.inl:479-481. -/
def probRec (R T dist : F) : F := ofRat 1 +. CFloat.exp (ofRat (1 / 2) /. T *. (dist -. R))

/-- `m_T == 0` -/
def tZero (H : HTree F) : Bool := CFloat.eq H.T (ofRat 0)

/-- `inThresholdMode`: `m_T <= std::numeric_limits<double_t>::epsilon()`, HyperbolicTree.inl:293 -/
def inThresholdMode (H : HTree F) : Bool := fle H.T (ofRat (1 / 4503599627370496))

/-- the type II calls of a non-touching pair, HyperbolicTree.inl:156-158 and 230-233 -/
def typeIICalls (H : HTree F) (cellA cellB level : Nat) : Option (List Task) :=
  concatM (List.range' level (H.levels - level)) (fun l => do
    let ps ← rd H.layerPairs l
    some (ps.map fun p => ⟨true, cellA, cellB, level, p.1, p.2⟩))

/-- the type I calls of a touching pair, HyperbolicTree.inl:165-168 and 241-245 -/
def typeICalls (H : HTree F) (cellA cellB level : Nat) : Option (List Task) := do
  let ps ← rd H.layerPairs level
  some ((ps.filter fun p => decide (cellA ≠ cellB ∨ p.1 ≤ p.2)).map fun p => ⟨false, cellA, cellB, level, p.1, p.2⟩)

/-- the pairs of children in the order of the recursive calls, HyperbolicTree.inl:176-182, 196-204, 208-212 and 254-260 -/
def childPairs (cellA cellB : Nat) : List (Nat × Nat) :=
  let fA := Angle.firstChild cellA
  let fB := Angle.firstChild cellB
  [(fA, fB), (fA, u32 (fB + 1)), (u32 (fA + 1), u32 (fB + 1))] ++ (if cellA ≠ cellB then [(u32 (fA + 1), fB)] else [])

/-- `visitCellPair(cellA, cellB, level, gen)`, HyperbolicTree.inl:148-183: its sampling calls in order.  The recursion depth is
bounded by the fuel; running out of fuel is reported as `none`. -/
def visitCellPair (H : HTree F) : Nat → Nat → Nat → Nat → Option (List Task)
  | 0, _, _, _ => none
  | fuel + 1, cellA, cellB, level => do
    let t ← Angle.touching cellA cellB level
    if !t then (if H.ndebug && H.tZero then some [] else typeIICalls H cellA cellB level)
    else
      let own ← typeICalls H cellA cellB level
      if level = subU H.levels 1 then some own
      else
        let rest ← concatM (childPairs cellA cellB) (fun p => visitCellPair H fuel p.1 p.2 (level + 1))
        some (own ++ rest)

/-- `visitCellPairCreateTasks(cellA, cellB, level, first_parallel_level, parallel_calls)`, HyperbolicTree.inl:186-213: the
tasks it appends -/
def createTasks (fpl : Nat) : Nat → Nat → Nat → Nat → Option (List (Nat × Nat))
  | 0, _, _, _ => none
  | fuel + 1, cellA, cellB, level => do
    let t ← Angle.touching cellA cellB level
    if !t then some []
    else if level + 1 ≠ fpl then concatM (childPairs cellA cellB) (fun p => createTasks fpl fuel p.1 p.2 (level + 1))
    else some (childPairs cellA cellB)

/-- one evaluation of `isMyTurn()` in `visitCellPairSample`, HyperbolicTree.inl:219-225: the answer and the new value of
`thread_shift` -/
def isMyTurn (k shift : Nat) : Bool × Nat := if shift + 1 = k then (true, 0) else (false, shift + 1)

/-- a loop over calls guarded by `isMyTurn()`, HyperbolicTree.inl:230-233 and 241-245: the calls made and the new value of
`thread_shift` -/
def turnLoop (k : Nat) : List Task → Nat → List Task × Nat
  | [], shift => ([], shift)
  | t :: ts, shift =>
    let m := isMyTurn k shift
    let r := turnLoop k ts m.2
    (if m.1 then t :: r.1 else r.1, r.2)

/-- the recursive calls, threading `thread_shift` through -/
def seqShift (f : Nat × Nat → Nat → Option (List Task × Nat)) : List (Nat × Nat) → Nat → Option (List Task × Nat)
  | [], shift => some ([], shift)
  | p :: ps, shift => do
    let x ← f p shift
    let y ← seqShift f ps x.2
    some (x.1 ++ y.1, y.2)

/-- `visitCellPairSample(cellA, cellB, level, first_parallel_level, num_threads, thread_shift, gen)`,
HyperbolicTree.inl:216-264: its sampling calls in order, and the returned `thread_shift` -/
def visitSample (H : HTree F) (fpl k : Nat) : Nat → Nat → Nat → Nat → Nat → Option (List Task × Nat)
  | 0, _, _, _, _ => none
  | fuel + 1, cellA, cellB, level, shift => do
    let t ← Angle.touching cellA cellB level
    if !t then
      let ts ← typeIICalls H cellA cellB level
      some (turnLoop k ts shift)
    else
      let own ← typeICalls H cellA cellB level
      let r := turnLoop k own shift
      if level = subU H.levels 1 then some r
      else if level + 1 ≠ fpl then
        let rest ← seqShift (fun p s => visitSample H fpl k fuel p.1 p.2 (level + 1) s) (childPairs cellA cellB) r.2
        some (r.1 ++ rest.1, rest.2)
      else some r

/-! ### Sampling -/

/-- the decision about a pair with random number `rnd`, HyperbolicTree.inl:319-338 and 422-441 -/
def decideProb (H : HTree F) (f : DistFilter F) (u v : HPoint F) (rnd : F) : Option Bool := do
  let c := u.distCosh v
  let up ← f.upper rnd
  if up <. c then some false
  else
    let lo ← f.lower rnd
    if c <. lo then some true
    else some (rnd *. probRec H.R H.T (CFloat.acosh c) <. ofRat 1)

/-- the decision for one pair in `sampleTypeI`, HyperbolicTree.inl:313-339 -/
def decideI (H : HTree F) (rng : Rng F) (u v : HPoint F) (g : rng.G) : Option (Bool × rng.G) :=
  if H.inThresholdMode then some (u.isDistanceBelowR v H.coshR, g)
  else do
    let r := rng.uniform g
    let b ← decideProb H H.filterI u v r.1
    some (b, r.2)

/-- the pair decisions of `sampleTypeI` in order, collecting the emitted edges -/
def runPairsI (H : HTree F) (rng : Rng F) : List (Nat × Nat) → rng.G → Option (List (Nat × Nat) × rng.G)
  | [], g => some ([], g)
  | (a, b) :: L, g => do
    let u ← rd H.points a
    let v ← rd H.points b
    let d ← decideI H rng u v g
    let rest ← runPairsI H rng L d.2
    some (if d.1 then (u.id, v.id) :: rest.1 else rest.1, rest.2)

/-- `rangeA`, `rangeB` of a sampling call, HyperbolicTree.inl:269-270; the same cells give the sizes and the first points in
`sampleTypeII` (lines 348-349 and 397-398, see `rangesII`) -/
def ranges (H : HTree F) (t : Task) : Option ((Nat × Nat) × (Nat × Nat)) := do
  let wi ← rd H.radiusLayers t.i
  let wj ← rd H.radiusLayers t.j
  let ra ← wi.cellIterators H.firstInCell t.cellA t.level
  let rb ← wj.cellIterators H.firstInCell t.cellB t.level
  some (ra, rb)

/-- `sampleTypeI`, HyperbolicTree.inl:268-342; the iteration space is that of the GIRG sampler (`Tree.pairsI`) -/
def sampleTypeI (H : HTree F) (rng : Rng F) (t : Task) (g : rng.G) : Option (List (Nat × Nat) × rng.G) := do
  let (ra, rb) ← H.ranges t
  if ra.1 = ra.2 ∨ rb.1 = rb.2 then some ([], g)
  else
    let ps ← Tree.pairsI t ra rb
    runPairsI H rng ps g

/-- `sizeV_i_A`, `sizeV_j_B`, HyperbolicTree.inl:348-349 -/
def sizesII (H : HTree F) (t : Task) : Option (Nat × Nat) := do
  let wi ← rd H.radiusLayers t.i
  let wj ← rd H.radiusLayers t.j
  let a ← wi.pointsInCell H.firstInCell t.cellA t.level
  let b ← wj.pointsInCell H.firstInCell t.cellB t.level
  some (a, b)

/-- positions of `pointsA`, `pointsB`, HyperbolicTree.inl:397-398 -/
def startsII (H : HTree F) (t : Task) : Option (Nat × Nat) := do
  let wi ← rd H.radiusLayers t.i
  let wj ← rd H.radiusLayers t.j
  let a ← wi.kthPos H.firstInCell t.cellA t.level 0
  let b ← wj.kthPos H.firstInCell t.cellB t.level 0
  some (a, b)

/-- the filter of a type II call, HyperbolicTree.inl:359-361; `level-2` is an `unsigned` difference -/
def filterFor (H : HTree F) (t : Task) : Option (DistFilter F) := do
  let row ← rd H.filterII (u32 (u32 (t.i * H.layers) + t.j))
  let fs ← rd row (subU t.level 2)
  let b ← Angle.cellsBetween t.cellA t.cellB t.level
  some (if b = 1 then fs.1 else fs.2)

/-- the skipping loop, HyperbolicTree.inl:400-442, with a 64 bit counter -/
def loopII (H : HTree F) (rng : Rng F) (f : DistFilter F) (sA sB nA nB : Nat) :
    Nat → Nat → rng.G → Option (List (Nat × Nat) × rng.G)
  | 0, _, _ => none
  | fuel + 1, r, g =>
    if r < nA * nB then do
      let u ← rd H.points (sA + r % nA)
      let v ← rd H.points (sB + r / nA)
      let x := rng.uniformTo f.maxProb g
      let b ← decideProb H f u v x.1
      let jump := rng.geo f.maxProb x.2
      let rest ← loopII H rng f sA sB nA nB fuel ((r + 1 + jump.1) % 18446744073709551616) jump.2
      some (if b then (u.id, v.id) :: rest.1 else rest.1, rest.2)
    else some ([], g)

/-- `sampleTypeII`, HyperbolicTree.inl:346-443 -/
def sampleTypeII (H : HTree F) (rng : Rng F) (t : Task) (g : rng.G) : Option (List (Nat × Nat) × rng.G) := do
  let s ← H.sizesII t
  if H.tZero || s.1 == 0 || s.2 == 0 then some ([], g)
  else
    let f ← H.filterFor t
    if ofRat (1 / 5) <. f.maxProb then sampleTypeI H rng t g
    else
      let numPairs := s.1 * s.2
      if ofNat numPairs *. f.maxProb <. ofRat (1 / 1000000) then some ([], g)
      else
        let p ← H.startsII t
        let r := rng.geo f.maxProb g
        loopII H rng f p.1 p.2 s.1 s.2 (numPairs + 1) r.1 r.2

/-- execute one sampling call -/
def runTask (H : HTree F) (rng : Rng F) (t : Task) (g : rng.G) : Option (List (Nat × Nat) × rng.G) :=
  if t.two then sampleTypeII H rng t g else sampleTypeI H rng t g

/-- execute a sequence of sampling calls with one generator; the result is the sequence of edge callbacks -/
def runTasks (H : HTree F) (rng : Rng F) : List Task → rng.G → Option (List (Nat × Nat) × rng.G)
  | [], g => some ([], g)
  | t :: L, g => do
    let x ← runTask H rng t g
    let y ← runTasks H rng L x.2
    some (x.1 ++ y.1, y.2)

end HTree
end Girgs
