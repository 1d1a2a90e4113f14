import Verif.Model.SpatialTree
/-
Model of `SpatialTree::generateEdges`, source/girgs/include/girgs/SpatialTree.inl:41-83: which sampling calls which
thread makes with which generator, and the resulting sequence of edge callbacks of each thread.  (Threads do not share
mutable state here: every thread uses its own generator `m_gens[threadId]`, lines 182, 216 and 265-266, and the data
structure is read only.  What the callback does with the edges is in Verif/Model/EdgeBuffer.lean.)

`gens k` is the initial state of the `k`-th generator (line 48: seeded with `seed + k`, or by `random_device`).
-/
namespace Girgs.Tree
open CFloat
variable {F : Type} [CFloat F] {D : Nat}

/-- the sampling calls among the events of the sequential start -/
def eventTasks (ev : List Event) : List Task :=
  ev.filterMap fun e => match e with
    | .task t => some t
    | .push _ _ => none

/-- `parallel_calls[i]`: the cells pushed for index `i`, in order of insertion -/
def eventCalls (ev : List Event) (i : Nat) : List Nat :=
  ev.filterMap fun e => match e with
    | .task _ => none
    | .push idx b => if idx = i then some b else none

/-- Number of threads 1: `visitCellPair(0,0,0)`, SpatialTree.inl:58-63. -/
def generateSequential (T : Tree F D) (rng : Rng F) (gens : Nat → rng.G) : Option (List (Nat × Nat)) := do
  let ts ← visitCellPair T T.levels 0 0 0
  let r ← runTasks T rng ts (gens 0)
  some r.1

/-- `first_parallel_level`, SpatialTree.inl:66: `ceil(log2(4.0*num_threads) / D)`. -/
def firstParallelLevel (F : Type) [CFloat F] (D threads : Nat) : Option Nat :=
  toU32 (CFloat.ceil (CFloat.log2 (ofRat 4 *. ofNat threads : F) /. ofNat D))

/-- The calls thread `k` makes in the parallel loop, SpatialTree.inl:75-80, if the static schedule hands it the
iterations `chunk`: for every `i` in the chunk, `visitCellPair(first_parallel_cell + i, each, first_parallel_level)`
for `each` in `parallel_calls[i]`. -/
def chunkTasks (T : Tree F D) (ev : List Event) (first fpl : Nat) (chunk : List Nat) : Option (List Task) :=
  concatM chunk fun i => concatM (eventCalls ev i) fun b =>
    visitCellPair T T.levels (u32 (first + i)) b fpl

/-- The sampling calls of the sequential start and of the threads of the parallel loop, SpatialTree.inl:65-80.
`chunks` lists the iterations each thread gets from `schedule(static)`. -/
def parallelPlan (T : Tree F D) (fpl : Nat) (chunks : List (List Nat)) : Option (List Task × List (List Task)) := do
  let cells ← Coord.numCellsInLevel D fpl
  let first ← Coord.firstCellOfLevel D fpl
  let ev ← sequentialStart T fpl cells T.levels 0 0 0
  let shares ← chunks.mapM (chunkTasks T ev first fpl)
  some (eventTasks ev, shares)

/-- Edge callbacks of each thread for `threads > 1`: thread 0 first runs the calls of the sequential start, then every
thread its share; thread 0 continues with the generator state left by the sequential start. -/
def generateParallel (T : Tree F D) (rng : Rng F) (gens : Nat → rng.G) (fpl : Nat) (chunks : List (List Nat)) :
    Option (List (List (Nat × Nat))) := do
  let plan ← parallelPlan T fpl chunks
  let r0 ← runTasks T rng plan.1 (gens 0)
  let rs ← (List.range plan.2.length).mapM fun k => do
    let ts ← rd plan.2 k
    let r ← runTasks T rng ts (if k = 0 then r0.2 else gens k)
    some (if k = 0 then r0.1 ++ r.1 else r.1)
  some rs

end Girgs.Tree
