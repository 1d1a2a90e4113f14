import Verif.Model.HyperBuild
import Verif.Model.EdgeBuffer
import Verif.Model.Generator
/-
Model of `HyperbolicTree::generate`, source/hypergirgs/include/hypergirgs/HyperbolicTree.inl:55-145, and of
`hypergirgs::generateEdges`, source/hypergirgs/source/Generator.cpp:132-171.

The threads of the parallel region are interleaved step by step.  The steps are: creating the task list; locking and unlocking
the mutex, setting the flag and notifying; the own share of the sampling; the unsynchronised test of the flag (line 127);
testing the predicate under the lock, waiting on the condition variable (released mutex) and waking up (because of `notify_all`
or spuriously); `fetch_add`; comparing with the number of tasks; executing a task.  Memory is sequentially consistent here.
(In C++ the unsynchronised read of the plain `bool` in line 127 is a data race if it happens concurrently with the write in
line 118.)  The team has the requested number of threads here; smaller teams are in Verif/Model/Team.lean.
-/
namespace Girgs

namespace TaskQueue

/-- where a thread is -/
inductive PC where
  /-- last thread, if `first_parallel_level < m_levels`: about to fill the task list, lines 102-112 -/
  | create
  /-- about to lock the mutex, line 117 -/
  | setLock
  /-- holding the mutex, about to set the flag, line 118 -/
  | setFlag
  /-- about to release the mutex, line 119 -/
  | setUnlock
  /-- about to notify, line 120 -/
  | notify
  /-- other threads: about to sample their share, line 124 -/
  | share
  /-- about to read the flag without lock, line 127 -/
  | readFlag
  /-- about to lock the mutex, line 128, or to lock it again after waking up -/
  | waitLock
  /-- holding the mutex, about to evaluate the predicate, line 129 -/
  | waitTest
  /-- blocked in `cv.wait` -/
  | waiting
  /-- predicate true, about to release the mutex, line 130 -/
  | waitUnlock
  /-- about to execute `fetch_add`, line 136 -/
  | fetch
  /-- got `i`, about to compare with `tasks.size()`, line 137 -/
  | compare (i : Nat)
  /-- about to execute task `i`, lines 139-140 -/
  | exec (i : Nat)
  | done
deriving DecidableEq

/-- shared state, and the position of every thread; `log` records which tasks a thread executed -/
structure State where
  pcs : List PC
  owner : Option Nat
  flag : Bool
  size : Nat
  counter : Nat
  log : List (List Nat)

/-- start of the parallel region with `threads` threads; `gen` tells whether `first_parallel_level < m_levels` -/
def init (threads : Nat) (gen : Bool) : State :=
  { pcs := (List.range threads).map fun k => if k + 1 = threads then (if gen then .create else .fetch) else .share
    owner := none, flag := false, size := 0, counter := 0, log := List.replicate threads [] }

/-- an action of the scheduler: thread `t` executes its next step, or wakes up spuriously from `cv.wait` -/
inductive Act where
  | run (t : Nat)
  | spurious (t : Nat)

/-- `notify_all`: all waiting threads have to lock the mutex again -/
def wakeAll (pcs : List PC) : List PC := pcs.map fun p => if p = .waiting then .waitLock else p

/-- one step; `m` is the number of tasks that are created.  A thread that cannot proceed stays as it is. -/
def step (m : Nat) (s : State) : Act → Option State
  | .spurious t => do
    let p ← rd s.pcs t
    if p = .waiting then some { s with pcs := s.pcs.set t .waitLock } else some s
  | .run t => do
    let p ← rd s.pcs t
    match p with
    | .create => some { s with pcs := s.pcs.set t .setLock, size := m }
    | .setLock => if s.owner = none then some { s with pcs := s.pcs.set t .setFlag, owner := some t } else some s
    | .setFlag => some { s with pcs := s.pcs.set t .setUnlock, flag := true }
    | .setUnlock => some { s with pcs := s.pcs.set t .notify, owner := none }
    | .notify => some { s with pcs := (wakeAll s.pcs).set t .fetch }
    | .share => some { s with pcs := s.pcs.set t .readFlag }
    | .readFlag => some { s with pcs := s.pcs.set t (if s.flag then .fetch else .waitLock) }
    | .waitLock => if s.owner = none then some { s with pcs := s.pcs.set t .waitTest, owner := some t } else some s
    | .waitTest =>
      if s.flag then some { s with pcs := s.pcs.set t .waitUnlock }
      else some { s with pcs := s.pcs.set t .waiting, owner := none }
    | .waiting => some s
    | .waitUnlock => some { s with pcs := s.pcs.set t .fetch, owner := none }
    | .fetch => some { s with pcs := s.pcs.set t (.compare s.counter), counter := u32 (s.counter + 1) }
    | .compare i => some { s with pcs := s.pcs.set t (if s.size ≤ i then .done else .exec i) }
    | .exec i => do
      let l ← rd s.log t
      some { s with pcs := s.pcs.set t .fetch, log := s.log.set t (l ++ [i]) }
    | .done => some s

/-- execute a schedule -/
def run (m : Nat) (s : State) (sched : List Act) : Option State := sched.foldlM (step m) s

/-- the parallel region has ended -/
def State.finished (s : State) : Prop := ∀ p ∈ s.pcs, p = .done

end TaskQueue

/-- build type, number of OpenMP threads, and the library's `std::partition` (moves the pairs of equal cells to the front,
otherwise the order is unspecified), HyperbolicTree.inl:109-110 -/
structure HEnv where
  ndebug : Bool
  threads : Nat
  partition : List (Nat × Nat) → List (Nat × Nat)
  threads_pos : 1 ≤ threads
  threads_le : threads ≤ 33554432
  partition_perm : ∀ l, (partition l).Perm l
  partition_front : ∀ l, (partition l).Pairwise fun p q => q.1 = q.2 → p.1 = p.2

namespace HTree
open CFloat
open Tree (Rng)
variable {F : Type} [CFloat F]

/-- `first_parallel_level`, HyperbolicTree.inl:72: `ceil(log2(2*num_threads))` -/
def firstParallelLevel (F : Type) [CFloat F] (threads : Nat) : Option Nat :=
  match toI32 (CFloat.ceil (CFloat.log2 (ofNat (2 * threads) : F))) with
  | some z => if 0 ≤ z then some z.toNat else none
  | none => none

/-- `num_tasks`, HyperbolicTree.inl:74-76 (`int` shifts that overflow are undefined) -/
def numTasks (fpl : Nat) : Option Nat :=
  if fpl = 2 then some 10
  else if fpl < 1 then none
  else do
    let x ← int32 (2 * 2 ^ fpl)
    let y ← int32 (3 * 2 ^ (fpl - 1))
    let z ← int32 (x + y)
    some z.toNat

/-- the share of worker `tid`, HyperbolicTree.inl:124: `visitCellPairSample(0, 0, 0, fpl, num_threads - 1, tid, gens[tid])` -/
def shareOf (H : HTree F) (fpl threads tid : Nat) : Option (List Task) := do
  let r ← visitSample H fpl (threads - 1) H.levels 0 0 0 tid
  some r.1

/-- the task list after `std::partition`, HyperbolicTree.inl:106-110 -/
def taskList (env : HEnv) (fpl : Nat) : Option (List (Nat × Nat)) := do
  let ts ← createTasks fpl (fpl + 1) 0 0 0
  some (env.partition ts)

/-- the edges task `i` passes to the callback, HyperbolicTree.inl:139-140: the task uses the generator `num_threads - 1 + i` of
the `num_threads - 1 + num_tasks` generators -/
def runQueued (H : HTree F) (rng : Rng F) (gens : Nat → rng.G) (fpl threads : Nat) (tasks : List (Nat × Nat)) (i : Nat) :
    Option (List (Nat × Nat)) := do
  let nt ← numTasks fpl
  let p ← rd tasks i
  let ts ← visitCellPair H H.levels p.1 p.2 fpl
  if i < nt then
    let r ← runTasks H rng ts (gens (threads - 1 + i))
    some r.1
  else none

/-- the edges of worker `tid` from its share -/
def runShare (H : HTree F) (rng : Rng F) (gens : Nat → rng.G) (fpl threads tid : Nat) : Option (List (Nat × Nat)) := do
  let ts ← shareOf H fpl threads tid
  let r ← runTasks H rng ts (gens tid)
  some r.1

/-- everything thread `tid` passes to the callback, in order, if it executed the tasks `log` -/
def threadCallbacks (H : HTree F) (rng : Rng F) (gens : Nat → rng.G) (fpl threads : Nat) (tasks : List (Nat × Nat))
    (tid : Nat) (log : List Nat) : Option (List (Nat × Nat)) := do
  let a ← (if tid + 1 < threads then runShare H rng gens fpl threads tid else some [])
  let b ← Tree.concatM log (runQueued H rng gens fpl threads tasks)
  some (a ++ b)

/-- `generate(seed)`, HyperbolicTree.inl:56-145: in some execution thread `k` passes the edges `calls[k]` to the callback.
`gens` are the seeded generators (`initialize_prngs`, lines 447-471; with one thread only `gens 0`). -/
def Generate (env : HEnv) (H : HTree F) (rng : Rng F) (gens : Nat → rng.G) (calls : List (List (Nat × Nat))) : Prop :=
  if env.threads = 1 then
    ∃ ts r, visitCellPair H H.levels 0 0 0 = some ts ∧ runTasks H rng ts (gens 0) = some r ∧ calls = [r.1]
  else
    ∃ fpl tasks sched s, firstParallelLevel F env.threads = some fpl ∧
      (if fpl < H.levels then taskList env fpl else some []) = some tasks ∧
      TaskQueue.run tasks.length (TaskQueue.init env.threads (decide (fpl < H.levels))) sched = some s ∧ s.finished ∧
      calls.length = env.threads ∧
      ∀ (k : Nat) (l : List Nat), s.log[k]? = some l → ∃ es, threadCallbacks H rng gens fpl env.threads tasks k l = some es ∧ calls[k]? = some es

end HTree

/-- a random engine: seeding with an unsigned number, drawing 32 bit numbers with `uniform_int_distribution<uint32_t>`, and seeding with a
`seed_seq` -/
structure HEngine (G : Type) where
  seed : Nat → G
  draw : G → Nat × G
  ofSeq : List Nat → G
  stateSize : Nat

/-- `std::generate`: the next `k` numbers of a generator -/
def HEngine.draws {G : Type} (e : HEngine G) : Nat → G → List Nat
  | 0, _ => []
  | k + 1, g => (e.draw g).1 :: e.draws k (e.draw g).2

/-- `initialize_prngs(n, seed)`, HyperbolicTree.inl:447-471 -/
def HEngine.initialize {G : Type} (e : HEngine G) (n seed : Nat) : List G :=
  (List.range n).map fun i => e.ofSeq (((e.draws (n * e.stateSize) (e.seed seed)).drop (i * e.stateSize)).take e.stateSize)

/-- the generators used by `generate(seed)`, HyperbolicTree.inl:62-64 (one thread), 81-83 (more); `device` is the value of `random_device`,
used if `seed < 0` -/
def HEngine.gens {G : Type} (e : HEngine G) (F : Type) [CFloat F] (threads : Nat) (seed : Int) (device : Nat) : Option (List G) :=
  if threads = 1 then some [e.seed (if 0 ≤ seed then seed.toNat else device)]
  else do
    let fpl ← HTree.firstParallelLevel F threads
    let nt ← HTree.numTasks fpl
    some (e.initialize (threads - 1 + nt) (if 0 ≤ seed then seed.toNat else device))

/-- `hypergirgs::generateEdges(radii, angles, T, R, seed)`, Generator.cpp:132-171: some execution returns `out`.  `gens k` is the
state of the `k`-th generator after seeding. -/
def HGenerateEdges {F : Type} [CFloat F] (env : HEnv) (rng : Tree.Rng F) (gens : Nat → rng.G) (radii angles : List F) (T R : F)
    (out : List (Nat × Nat)) : Prop :=
  ∃ H, HConstructed env.ndebug radii angles T R H ∧ ∃ calls, HTree.Generate env H rng gens calls ∧ EdgeBuffer.Run blockSize calls out

end Girgs
