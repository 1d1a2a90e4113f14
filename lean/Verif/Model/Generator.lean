import Verif.Model.BuildPartition
import Verif.Model.GenerateEdges
import Verif.Model.EdgeBuffer
/-
Model of `girgs::generateEdges`, source/girgs/source/Generator.cpp:72-118.

`Env` collects what the function takes from its environment: the build type, the number of OpenMP threads
(`omp_get_max_threads()`), and the partition of a loop `schedule(static)` into one chunk of iterations per thread
(chunks may be empty, e.g. if the team is smaller than requested).
-/
namespace Girgs
open CFloat

/-- build type and OpenMP runtime -/
structure Env where
  ndebug : Bool
  threads : Nat
  chunks : Nat → List (List Nat)
  threads_pos : 1 ≤ threads
  threads_le : threads ≤ 8388608
  chunks_length : ∀ N, (chunks N).length = threads
  chunks_flatten : ∀ N, (chunks N).flatten = List.range N

variable {F : Type} [CFloat F]

/-- `block_size`, Generator.cpp:83 -/
def blockSize : Nat := 1048576

/-- What every thread passes to `addEdge`, in its order: `SpatialTree::generateEdges`, SpatialTree.inl:41-83. -/
def treeCallbacks {D : Nat} (env : Env) (T : Tree F D) (rng : Tree.Rng F) (gens : Nat → rng.G) :
    Option (List (List (Nat × Nat))) :=
  if env.threads = 1 then do
    let es ← Tree.generateSequential T rng gens
    some [es]
  else do
    let fpl ← Tree.firstParallelLevel F D env.threads
    let cells ← Coord.numCellsInLevel D fpl
    Tree.generateParallel T rng gens fpl (env.chunks cells)

/-- `makeSpatialTree<D>(weights, positions, alpha, addEdge).generateEdges(seed)` and the final flushes, Generator.cpp:103-117:
some execution returns `out`. -/
def TreeRun {D : Nat} (env : Env) (rng : Tree.Rng F) (gens : Nat → rng.G) (weights : List F) (points : List (Fin D → F))
    (alpha : F) (out : List (Nat × Nat)) : Prop :=
  ∃ T, Constructed env.ndebug weights points alpha T ∧ ∃ calls, treeCallbacks env T rng gens = some calls ∧
    EdgeBuffer.Run blockSize calls out

/-- the positions as the `D`-dimensional tree reads them: `positions[i][d]` for `d < D`, SpatialTree.inl:371 and Node.h:21-26;
undefined if a vector is too short -/
def asPoints (D : Nat) (positions : List (List F)) : Option (List (Fin D → F)) :=
  positions.mapM fun p => if h : D ≤ p.length then some (fun d => p[d.1]'(by omega)) else none

/-- Seeding of the generators, SpatialTree.inl:44-49: `seed >= 0 ? seed+thread : std::random_device()()`.  `seedFn` is the
seeding function of the engine, `device k` the state the `k`-th engine gets from `random_device`.  The `int` sum overflows
(undefined) if `seed + threads - 1` does not fit. -/
def seedGens {G : Type} (threads : Nat) (seedFn : Int → G) (device : Nat → G) (seed : Int) : Option (Nat → G) :=
  if 0 ≤ seed then
    if seed + threads ≤ 2147483648 then some fun k => seedFn (seed + k) else none
  else some device

/-- what a call prints -/
inductive Notice where
  | none
  /-- "Dimension ... not supported. No edges generated.", Generator.cpp:110-111 -/
  | unsupported (dimension : Nat)
deriving DecidableEq

/-- `girgs::generateEdges(weights, positions, alpha, samplingSeed)`, Generator.cpp:72-118: some execution returns `out`
and prints `notice`.  `gens k` is the state of the `k`-th generator after seeding (SpatialTree.inl:44-49).
`positions.front()` (line 100) needs a node. -/
def GenerateEdges (env : Env) (rng : Tree.Rng F) (gens : Nat → rng.G) (weights : List F) (positions : List (List F))
    (alpha : F) (out : List (Nat × Nat)) (notice : Notice) : Prop :=
  match positions.head? with
  | none => False
  | some p =>
    match p.length with
    | 1 => (∃ x, asPoints 1 positions = some x ∧ TreeRun env rng gens weights x alpha out) ∧ notice = .none
    | 2 => (∃ x, asPoints 2 positions = some x ∧ TreeRun env rng gens weights x alpha out) ∧ notice = .none
    | 3 => (∃ x, asPoints 3 positions = some x ∧ TreeRun env rng gens weights x alpha out) ∧ notice = .none
    | 4 => (∃ x, asPoints 4 positions = some x ∧ TreeRun env rng gens weights x alpha out) ∧ notice = .none
    | 5 => (∃ x, asPoints 5 positions = some x ∧ TreeRun env rng gens weights x alpha out) ∧ notice = .none
    | d => EdgeBuffer.Run (E := Nat × Nat) blockSize (List.replicate env.threads []) out ∧ notice = .unsupported d

end Girgs
