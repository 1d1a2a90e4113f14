import Verif.Model.HyperTree
import Verif.Model.BuildPartition
/-
Model of `RadiusLayer::buildPartition`, source/hypergirgs/source/RadiusLayer.cpp:37-199, and of the constructor of
`HyperbolicTree`, HyperbolicTree.inl:5-52.

source/hypergirgs/include/hypergirgs/IntSort.h is the same file as the one of girgs (model: Verif/Model/IntSort.lean).  The
parallel parts are modelled as for the GIRG sampler (Verif/Model/BuildPartition.lean): classification loop (RadiusLayer.cpp:85-94)
as a function, sorting and marking writes in every order, gap repair interleaved instruction by instruction (lines 136-164 are
the same code as SpatialTree.inl:413-441, so `Build.singleBlock` and `Build.repairRun` are reused).
-/
namespace Girgs
open CFloat

namespace HBuild
variable {F : Type} [CFloat F]

/-- `radius_to_layer(radius)`, RadiusLayer.cpp:48, with `layer_height = 1.0` (HyperbolicTree.inl:15) -/
def radiusToLayer (R radius : F) : Option Nat := toU32 ((R -. radius) /. ofRat 1)

/-- `layer_rad_max(l)`, RadiusLayer.cpp:49 -/
def radMax (R : F) (l : Nat) : F := R -. ofNat l *. ofRat 1

/-- `layer_rad_min(l)`, RadiusLayer.cpp:50 -/
def radMin (R : F) (l : Nat) : F := R -. ofNat l *. ofRat 1 -. ofRat 1

/-- `num_layers`, RadiusLayer.cpp:52 -/
def numLayers (R : F) : Option Nat := toU32 (CFloat.ceil (R /. ofRat 1))

/-- `level_of_layer`, RadiusLayer.cpp:51 and 55-62 -/
noncomputable def levelOfLayer (R : F) (numLayers : Nat) : Option (List Nat) :=
  (List.range numLayers).mapM fun l => RadiusLayer.partitioningBaseLevel (radMin R l) (R -. ofRat 1) R

/-- `first_cell_of_layer` (a reverse prefix sum), RadiusLayer.cpp:68-76: the entries for layers and the final sum -/
def firstCells : List Nat → Option (List Nat × Nat)
  | [] => some ([], 0)
  | level :: rest => do
    let r ← firstCells rest
    let c ← Angle.numCellsInLevel level
    some (r.2 :: r.1, u32 (r.2 + c))

/-- one iteration of the classification loop, RadiusLayer.cpp:90-93 -/
def classifyOne (R : F) (lol fc : List Nat) (i : Nat) (radius angle : F) : Option (HPoint F) := do
  let layer ← radiusToLayer R radius
  let level ← rd lol layer
  let base ← rd fc layer
  let c ← Angle.cellForPoint angle level
  some (HPoint.make i radius angle (u32 (base + c)))

/-- the classification loop, RadiusLayer.cpp:85-94 -/
def classify (R : F) (lol fc : List Nat) (radii angles : List F) : Option (List (HPoint F)) :=
  (List.range radii.length).mapM fun i => do
    let r ← rd radii i
    let a ← rd angles i
    classifyOne R lol fc i r a

/-- the loop that prunes empty layers, RadiusLayer.cpp:110: smallest `num_layers ≥ 1` with
`first_cell_of_layer[num_layers - 1] <= points[0].cell_id` (reading beyond the array is undefined) -/
def prune (fc : List Nat) (c0 : Nat) : Nat → Nat → Option Nat
  | 0, _ => none
  | fuel + 1, k => do
    let x ← rd fc (k - 1)
    if c0 < x then prune fc c0 fuel (k + 1) else some k

/-- RadiusLayer.cpp:114, 121, 122 -/
def markInit (maxCell : Nat) (cells : List Nat) : Option (List Nat) := do
  let c0 ← rd cells 0
  let a ← wr (List.replicate (maxCell + 1) Build.gap) c0 0
  wr a maxCell cells.length

/-- `first_in_cell` as computed for points with the given (sorted) cell ids is `out` in some execution with `threads`
threads, RadiusLayer.cpp:113-164 -/
def IndexRun (maxCell threads : Nat) (cells out : List Nat) : Prop :=
  ∃ a0 ws a1 a2 sched states,
    markInit maxCell cells = some a0 ∧ ws.Perm (Build.marks cells) ∧ IntSort.applyWrites a0 ws = some a1 ∧
    Build.singleBlock maxCell threads a1 = some a2 ∧
    Build.repairRun maxCell threads ((List.range threads).map (Build.rinit maxCell threads), a2) sched = some (states, out) ∧
    ∀ s ∈ states, s.phase = .exit

/-- the radius layers, RadiusLayer.cpp:187-196 -/
def radiusLayers (R : F) (lol fc : List Nat) (layers : Nat) : Option (List (RadiusLayer F)) :=
  (List.range layers).mapM fun l => do
    let level ← rd lol l
    let off ← rd fc l
    some { rMin := radMin R l, rMax := radMax R l, target := level, off := off }

/-- `RadiusLayer::buildPartition(radii, angles, R, 1.0, points, first_in_cell)`, RadiusLayer.cpp:37-199: some execution returns
the radius layers `rls` and writes `points` and `first` -/
def Partitioned (R : F) (radii angles : List F) (points : List (HPoint F)) (first : List Nat) (rls : List (RadiusLayer F)) : Prop :=
  ∃ nl lol fc maxCell points0, numLayers R = some nl ∧ levelOfLayer R nl = some lol ∧ firstCells lol = some (fc, maxCell) ∧
    nl ≠ 0 ∧ classify R lol fc radii angles = some points0 ∧
    ∃ omp t B0 threads, 1 ≤ t ∧ t ≤ IntSort.maxThreads omp radii.length ∧ B0.length = radii.length ∧
      IntSort.Run HPoint.cellId (u32 (maxCell + 1)) t points0 B0 points ∧
      1 ≤ threads ∧ threads < 2147483648 ∧ IndexRun maxCell threads (points.map HPoint.cellId) first ∧
      ∃ c0 layers, (points.map HPoint.cellId)[0]? = some c0 ∧ prune fc c0 (nl + 1) 1 = some layers ∧
        radiusLayers R lol fc layers = some rls

/-- `m_layer_pairs`, HyperbolicTree.inl:25-28 -/
noncomputable def layerPairTable (R : F) (rls : List (RadiusLayer F)) (layers levels : Nat) : Option (List (List (Nat × Nat))) :=
  ((List.range layers).flatMap fun i => (List.range layers).map fun j => (i, j)).foldlM (fun lp p => do
    let a ← rd rls p.1
    let b ← rd rls p.2
    let k ← RadiusLayer.partitioningBaseLevel a.rMin b.rMin R
    let row ← rd lp k
    wr lp k (row ++ [p])) (List.replicate levels [])

/-- one pair of type II filters, HyperbolicTree.inl:40-48: `AngleHelper::dist(firstCell, firstCell + d, l)` for `d` = 2 and 3 -/
def filterPair (R T r1 r2 : F) (l : Nat) : Option (DistFilter F × DistFilter F) := do
  let firstCell ← Angle.firstCellOfLevel l
  let a ← Angle.dist (F := F) firstCell (u32 (firstCell + 2)) l
  let p1 := ofRat 1 /. HTree.probRec R T (hyperbolicDistance r1 (ofRat 0) r2 a)
  let b ← Angle.dist (F := F) firstCell (u32 (firstCell + 3)) l
  let p2 := ofRat 1 /. HTree.probRec R T (hyperbolicDistance r1 (ofRat 0) r2 b)
  some (DistFilter.make p1 R T, DistFilter.make p2 R T)

/-- `m_typeII_filter`, HyperbolicTree.inl:31-51: empty if `m_T == 0`, otherwise entry `i*m_layers+j` lists the filters of the
levels `2..PBL` -/
noncomputable def filterTable (R T : F) (rls : List (RadiusLayer F)) (layers : Nat) :
    Option (List (List (DistFilter F × DistFilter F))) :=
  if CFloat.eq T (ofRat 0) then some []
  else ((List.range layers).flatMap fun i => (List.range layers).map fun j => (i, j)).mapM fun p => do
    let a ← rd rls p.1
    let b ← rd rls p.2
    let pbl ← RadiusLayer.partitioningBaseLevel a.rMin b.rMin R
    (List.range' 2 (pbl - 1)).mapM fun l => filterPair R T a.rMin b.rMin l

end HBuild

variable {F : Type} [CFloat F]

/-- `HyperbolicTree(radii, angles, T, R, callback)`, HyperbolicTree.inl:5-52: some execution of the constructor ends with the
state `H`. -/
def HConstructed (ndebug : Bool) (radii angles : List F) (T R : F) (H : HTree F) : Prop :=
  ∃ points first rls r0 lp fil, HBuild.Partitioned R radii angles points first rls ∧ rls[0]? = some r0 ∧
    HBuild.layerPairTable R rls rls.length (u32 (r0.target + 1)) = some lp ∧
    HBuild.filterTable R T rls rls.length = some fil ∧
    H = { ndebug := ndebug, n := radii.length, coshR := CFloat.cosh R, T := T, R := R, layers := rls.length,
          levels := u32 (r0.target + 1), points := points, firstInCell := first, radiusLayers := rls, layerPairs := lp,
          filterI := DistFilter.make (ofRat 1) R T, filterII := fil }

end Girgs
