import Verif.Model.SpatialTree
import Verif.Model.IntSort
/-
Model of the constructor of `SpatialTree` and of `buildPartition`, SpatialTree.inl:9-38 and 338-474.

Parallel parts:
* the classification loop (366-373): iteration `i` reads constants and writes only `m_nodes[i]`; modelled as a function;
* `intsort`: the relation `IntSort.Run` (all interleavings);
* the marking loop (401-406): its writes may happen in any order (any permutation);
* the gap repair (413-441): the `single` block is sequential, the loops of the threads are interleaved instruction by
  instruction (every read and every write of the shared array is one step).
-/
namespace Girgs
open CFloat

namespace Build
variable {F : Type} [CFloat F]

/-- `*std::min_element(begin, end)`, SpatialTree.inl:14: the first smallest element; empty range undefined. -/
def minElem : List F → Option F
  | [] => none
  | x :: xs => some (xs.foldl (fun m y => if y <. m then y else m) x)

/-- `*std::max_element(begin, end)`, SpatialTree.inl:15. -/
def maxElem : List F → Option F
  | [] => none
  | x :: xs => some (xs.foldl (fun m y => if m <. y then y else m) x)

/-- `std::accumulate(begin, end, 0.0)`, SpatialTree.inl:16. -/
def sumElems (xs : List F) : F := xs.foldl (fun s x => s +. x) (ofRat 0)

/-- members computed by the constructor's initialiser list -/
structure Header (F : Type) where
  w0 : F
  wn : F
  W : F
  blc : Int
  layers : Nat
  levels : Nat

/-- initialiser list, SpatialTree.inl:11-19 -/
def header (D : Nat) (weights : List F) : Option (Header F) := do
  let w0 ← minElem weights
  let wn ← maxElem weights
  let W := sumElems weights
  let blc ← toI32 (CFloat.log2 (W /. w0 /. w0))
  let l ← toU32 (CFloat.floor (CFloat.log2 (wn /. w0)))
  some { w0 := w0, wn := wn, W := W, blc := blc, layers := u32 (l + 1),
         levels := u32 (partitioningBaseLevel D blc 0 0 + 1) }

/-- `m_layer_pairs`, SpatialTree.inl:27-30. -/
def layerPairTable (D : Nat) (blc : Int) (layers levels : Nat) : Option (List (List (Nat × Nat))) :=
  ((List.range layers).flatMap fun i => (List.range layers).map fun j => (i, j)).foldlM (fun lp p => do
    let k := partitioningBaseLevel D blc p.1 p.2
    let row ← rd lp k
    wr lp k (row ++ [p])) (List.replicate levels [])

/-- `first_cell_of_layer`, SpatialTree.inl:348-357: the entries for the layers and the final sum. -/
def firstCells (D : Nat) (blc : Int) (layers : Nat) : Option (List Nat) := do
  let r ← (List.range layers).foldlM (fun (s : List Nat × Nat) (l : Nat) => do
    let c ← Coord.numCellsInLevel D (weightLayerTargetLevel D blc l)
    some (s.1 ++ [s.2], u32 (s.2 + c))) ([], 0)
  some (r.1 ++ [r.2])

/-- one iteration of the classification loop, SpatialTree.inl:367-372: `layer` is a `double`, converted to `int` as
argument of `weightLayerTargetLevel` and to `size_t` as index. -/
def classifyOne (D : Nat) (w0 : F) (blc : Int) (fc : List Nat) (i : Nat) (pos : Fin D → F) (w : F) :
    Option (Node F D) := do
  let layer := CFloat.log2 (w /. w0)
  let li ← toI32 layer
  let level := weightLayerTargetLevel D blc li
  let idx ← toSize layer
  let base ← rd fc idx
  let c ← Coord.cellForPoint D pos level
  some { coord := pos, weight := w, index := i, cellId := u32 (base + c) }

/-- the classification loop, SpatialTree.inl:361-373 -/
def classify (D : Nat) (w0 : F) (blc : Int) (fc : List Nat) (weights : List F) (positions : List (Fin D → F)) :
    Option (List (Node F D)) :=
  (List.range weights.length).mapM fun i => do
    let p ← rd positions i
    let w ← rd weights i
    classifyOne D w0 blc fc i p w

/-- `gap_cell_indicator`, SpatialTree.inl:390 -/
def gap : Nat := 4294967295

/-- SpatialTree.inl:391, 395, 400 -/
def markInit (maxCell : Nat) (cells : List Nat) : Option (List Nat) := do
  let a ← wr (List.replicate (maxCell + 1) gap) maxCell cells.length
  let c0 ← rd cells 0
  wr a c0 0

/-- the writes of the marking loop, SpatialTree.inl:401-406, as (index, value) -/
def marks (cells : List Nat) : List (Nat × Nat) :=
  (List.range' 1 (cells.length - 1)).filterMap fun i =>
    match cells[i - 1]?, cells[i]? with
    | some p, some c => if p ≠ c then some (c, i) else none
    | _, _ => none

/-- `chunk_size`, SpatialTree.inl:417 -/
def chunkSize (maxCell threads : Nat) : Nat := u32 (maxCell + threads - 1) / threads

/-- the loop in lines 427-428; not terminating within the fuel is reported as `none`.  `first_non_invalid` is an `int`: values from `2^31` on do not
fit (the conversion of line 426 gives a negative index, the increment of line 428 is undefined). -/
def skipGaps (a : List Nat) : Nat → Nat → Option Nat
  | 0, _ => none
  | fuel + 1, f =>
    if 2147483648 ≤ f then none
    else do
      let x ← rd a f
      if x = gap then skipGaps a fuel (f + 1) else some f

/-- `end` of thread `r`, SpatialTree.inl:425 -/
def chunkEnd (maxCell threads r : Nat) : Nat := min maxCell (u32 (chunkSize maxCell threads * (r + 1)))

/-- the `single` block, SpatialTree.inl:424-430 (`int first_non_invalid = end - 1` needs `end ≥ 1`) -/
def singleBlock (maxCell threads : Nat) (a : List Nat) : Option (List Nat) :=
  (List.range threads).foldlM (fun a r => do
    let e := chunkEnd maxCell threads r
    if e = 0 then none
    else
      let f ← skipGaps a (a.length + 1) (e - 1)
      let x ← rd a f
      wr a (e - 1) x) a

/-- position of a thread in the repair loop, SpatialTree.inl:436-440.  `std::min(x, y)` takes references: it loads both
arguments, compares, returns the reference to the smaller one, which is then loaded again for the assignment. -/
inductive RPhase where
  /-- about to test `i-- > begin` -/
  | test
  /-- body: about to load `m_first_in_cell[i]` -/
  | load1
  /-- has loaded the first argument -/
  | load2 (x : Nat)
  /-- has chosen the reference (index) -/
  | load3 (p : Nat)
  /-- has loaded the value to be assigned -/
  | store (v : Nat)
  | exit
deriving DecidableEq

/-- private variables of a thread -/
structure RState where
  i : Nat
  phase : RPhase

/-- `begin` of thread `rank`, SpatialTree.inl:433 -/
def chunkBegin (maxCell threads rank : Nat) : Nat := min maxCell (u32 (chunkSize maxCell threads * rank))

/-- SpatialTree.inl:435 -/
def rinit (maxCell threads rank : Nat) : RState :=
  { i := min maxCell (u32 (chunkBegin maxCell threads rank + chunkSize maxCell threads)), phase := .test }

/-- one step of one thread, SpatialTree.inl:436-440 -/
def rstep (begin_ : Nat) (s : RState) (a : List Nat) : Option (RState × List Nat) :=
  match s.phase with
  | .test => if begin_ < s.i then some ({ i := s.i - 1, phase := .load1 }, a) else some ({ s with phase := .exit }, a)
  | .load1 => do
    let x ← rd a s.i
    some ({ s with phase := .load2 x }, a)
  | .load2 x => do
    let y ← rd a (s.i + 1)
    some ({ s with phase := .load3 (if y < x then s.i + 1 else s.i) }, a)
  | .load3 p => do
    let v ← rd a p
    some ({ s with phase := .store v }, a)
  | .store v => do
    let a' ← wr a s.i v
    some ({ s with phase := .test }, a')
  | .exit => some (s, a)

/-- thread `r` makes a step -/
def repairStep (maxCell threads : Nat) (g : List RState × List Nat) (r : Nat) : Option (List RState × List Nat) := do
  let s ← rd g.1 r
  let x ← rstep (chunkBegin maxCell threads r) s g.2
  some (g.1.set r x.1, x.2)

/-- run a schedule (a sequence of thread numbers) -/
def repairRun (maxCell threads : Nat) (g : List RState × List Nat) (sched : List Nat) :
    Option (List RState × List Nat) :=
  sched.foldlM (repairStep maxCell threads) g

/-- `m_first_in_cell` as computed for nodes with the given (sorted) cell ids is `out` in some execution with `threads`
threads, SpatialTree.inl:389-441. -/
def IndexRun (maxCell threads : Nat) (cells out : List Nat) : Prop :=
  ∃ a0 ws a1 a2 sched states,
    markInit maxCell cells = some a0 ∧ ws.Perm (marks cells) ∧ IntSort.applyWrites a0 ws = some a1 ∧
    singleBlock maxCell threads a1 = some a2 ∧
    repairRun maxCell threads ((List.range threads).map (rinit maxCell threads), a2) sched = some (states, out) ∧
    ∀ s ∈ states, s.phase = .exit

/-- no execution of the same code makes an undefined access -/
def IndexSafe (maxCell threads : Nat) (cells : List Nat) : Prop :=
  ∃ a0, markInit maxCell cells = some a0 ∧ ∀ ws, ws.Perm (marks cells) →
    ∃ a1 a2, IntSort.applyWrites a0 ws = some a1 ∧ singleBlock maxCell threads a1 = some a2 ∧
      ∀ sched : List Nat, (∀ r ∈ sched, r < threads) →
        ∃ g, repairRun maxCell threads ((List.range threads).map (rinit maxCell threads), a2) sched = some g

/-- `weight_layers`, SpatialTree.inl:464-471 -/
def weightLayers (D : Nat) (blc : Int) (fc : List Nat) (layers : Nat) : Option (List WeightLayer) :=
  (List.range layers).mapM fun l => do
    let off ← rd fc l
    some { target := weightLayerTargetLevel D blc l, off := off }

end Build

variable {F : Type} [CFloat F]

/-- `SpatialTree<D>(weights, positions, alpha, callback)`, SpatialTree.inl:9-38: some execution of the constructor ends
with the state `T`.  (`positions` is a vector of vectors of which the first `D` entries are used.) -/
def Constructed (ndebug : Bool) {D : Nat} (weights : List F) (positions : List (Fin D → F)) (alpha : F)
    (T : Tree F D) : Prop :=
  ∃ h lp fc nodes0 wl, Build.header D weights = some h ∧ Build.layerPairTable D h.blc h.layers h.levels = some lp ∧
    Build.firstCells D h.blc h.layers = some fc ∧
    Build.classify D h.w0 h.blc fc weights positions = some nodes0 ∧
    Build.weightLayers D h.blc fc h.layers = some wl ∧
    ∃ maxCell, fc.getLast? = some maxCell ∧
    ∃ omp t B0 nodes threads first, 1 ≤ t ∧ t ≤ IntSort.maxThreads omp weights.length ∧ B0.length = weights.length ∧
      IntSort.Run Node.cellId maxCell t nodes0 B0 nodes ∧
      1 ≤ threads ∧ threads < 2147483648 ∧ Build.IndexRun maxCell threads (nodes.map Node.cellId) first ∧
      T = { ndebug := ndebug, alpha := alpha, n := weights.length, w0 := h.w0, wn := h.wn, W := h.W, blc := h.blc,
            layers := h.layers, levels := h.levels, nodes := nodes, firstInCell := first, weightLayers := wl,
            layerPairs := lp }

end Girgs
