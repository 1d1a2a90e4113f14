import Verif.Spec.Race
import Verif.Model.BuildPartition
import Verif.Model.HyperGenerate
/-
The parallel regions of the library as programs with explicit accesses to shared memory (`Spec/Race.lean`).  The steps are
those of `Model/IntSort`, `Model/BuildPartition` and `Model/HyperGenerate`; new here are the access lists and the regions for
the counting and the scattering loop of `intsort`, whose results those modules give as functions.
-/
namespace Girgs
open Spec

namespace IntSort
variable {T : Type}

/-- state of the counting loops, IntSort.h:107-113: the elements every thread still has to count, and `thread_counters` -/
structure CountState (T : Type) where
  todo : List (List T)
  counters : List (List Nat)

/-- thread `t` counts its next element, IntSort.h:111-113 -/
def countStep (key : T → Nat) (c : Cfg) (s : CountState T) (t : Nat) : Option (CountState T) := do
  let xs ← rd s.todo t
  match xs with
  | [] => some s
  | x :: xs => do
    let row ← rd s.counters t
    let row ← bump row (key x >>> c.msbShift)
    some { todo := s.todo.set t xs, counters := s.counters.set t row }

/-- The counting region, IntSort.h:107-118 up to the barrier.  Location `(r, q)` is `thread_counters[r][q]`; the input is
only read.  A step reads and writes the counter of the key's digit in the thread's own row. -/
def countRegion (key : T → Nat) (c : Cfg) : Region (CountState T) Nat (Nat × Nat) where
  step := countStep key c
  access s t := match s.todo[t]? with
    | some (x :: _) => [((t, key x >>> c.msbShift), false), ((t, key x >>> c.msbShift), true)]
    | _ => []

/-- the state in which the counting starts: every thread has its chunk and 264 cleared counters, IntSort.h:96-110 -/
def countInit (chunks : List (List T)) : CountState T :=
  { todo := chunks, counters := chunks.map fun _ => List.replicate 264 0 }

/-- state of loops whose iterations each write one element of an array: the writes every thread still has to make, and the
array -/
structure WriteState (T : Type) where
  todo : List (List (Nat × T))
  mem : List T

/-- thread `t` makes its next write, IntSort.h:137-142 and SpatialTree.inl:401-406 -/
def writeStep (s : WriteState T) (t : Nat) : Option (WriteState T) := do
  let ws ← rd s.todo t
  match ws with
  | [] => some s
  | w :: ws => do
    let m ← wr s.mem w.1 w.2
    some { todo := s.todo.set t ws, mem := m }

/-- The scattering loops between the barriers, IntSort.h:137-142 (the array is the buffer; the input and `thread_counters`
are only read in this phase, `splitter` is only accessed by thread 0, `queue_pointer` is private), and the marking loop,
SpatialTree.inl:401-406 (the array is `m_first_in_cell`; `m_nodes` is only read). -/
def writeRegion : Region (WriteState T) Nat Nat where
  step := writeStep
  access s t := match s.todo[t]? with
    | some (w :: _) => [(w.1, true)]
    | _ => []

/-- accesses of the next step of the thread sorting the bucket at `[lo, lo+size)`, IntSort.h:155-194 and 234-243; location
`(false, p)` is `begin[p]` (the vector), `(true, p)` is `buf_begin[p]` -/
def baccess (key : T → Nat) (c : Cfg) (lo size : Nat) (s : BState) (A B : List T) : List ((Bool × Nat) × Bool) :=
  match s.phase with
  | .count => if s.k < size then [((true, lo + s.k), false)] else []
  | .move it =>
    if s.k < size then
      ((it % 2 = 0, lo + s.k), false) ::
        match (if it % 2 = 0 then B else A)[lo + s.k]? with
        | some x => match s.pointers[digit c it (key x)]? with
          | some index => [((it % 2 ≠ 0, lo + index), true)]
          | none => []
        | none => []
    else []
  | .done => []

/-- the bucket loop behind the second barrier, IntSort.h:154-195 (`splitter` is only read) -/
def lsdRegion (key : T → Nat) (c : Cfg) (splitter : List Nat) : Region (Global T) Nat (Bool × Nat) where
  step := gstep key c splitter
  access g i := match g.priv[i]?, splitter[i]?, splitter[i + 1]? with
    | some s, some lo, some hi => baccess key c lo (hi - lo) s g.A g.B
    | _, _, _ => []

end IntSort

namespace Build

/-- accesses of the next step of a thread in the repair loop, SpatialTree.inl:436-440 -/
def raccess (s : RState) : List (Nat × Bool) :=
  match s.phase with
  | .test => []
  | .load1 => [(s.i, false)]
  | .load2 _ => [(s.i + 1, false)]
  | .load3 p => [(p, false)]
  | .store _ => [(s.i, true)]
  | .exit => []

/-- the repair loops behind the barrier of the `single` construct, SpatialTree.inl:433-441 (RadiusLayer.cpp:151-160 is the same
loop); location `c` is `m_first_in_cell[c]` -/
def repairRegion (maxCell threads : Nat) : Region (List RState × List Nat) Nat Nat where
  step := repairStep maxCell threads
  access g r := match g.1[r]? with
    | some s => raccess s
    | none => []

end Build

namespace TaskQueue

/-- the shared plain variables of HyperbolicTree.inl:90-96: `tasks` (its size and contents) and the flag -/
inductive Var where
  | tasks
  | flag
deriving DecidableEq

/-- accesses of a thread's next step to plain variables, HyperbolicTree.inl:98-142.  The mutex, the condition variable and the
atomic counter synchronise and are not listed. -/
def paccess : PC → List (Var × Bool)
  | .create => [(.tasks, true)]
  | .setFlag => [(.flag, true)]
  | .readFlag => [(.flag, false)]
  | .waitTest => [(.flag, false)]
  | .compare _ => [(.tasks, false)]
  | .exec _ => [(.tasks, false)]
  | _ => []

/-- the parallel region of `HyperbolicTree::generate`, HyperbolicTree.inl:96-143 -/
def region (m : Nat) : Region State Act Var where
  step := step m
  access s t := match s.pcs[t]? with
    | some p => paccess p
    | none => []

/-- the synchronisation objects, HyperbolicTree.inl:90-94 -/
inductive Sync where
  | mutex
  | counter
deriving DecidableEq

/-- what the next step of a thread at position `p` acquires: a successful lock acquires the mutex (HyperbolicTree.inl:117, 128
and, after waking up, 129), `fetch_add` (line 136) is an atomic read-modify-write; waiting for a locked mutex does nothing -/
def acquires (s : State) : PC → List Sync
  | .setLock => if s.owner = none then [.mutex] else []
  | .waitLock => if s.owner = none then [.mutex] else []
  | .fetch => [.counter]
  | _ => []

/-- what it releases: leaving the scope of a lock (HyperbolicTree.inl:119, 130) and blocking in `cv.wait` (line 129) release the
mutex; `fetch_add` is an atomic read-modify-write -/
def releases (s : State) : PC → List Sync
  | .setUnlock => [.mutex]
  | .waitTest => if s.flag then [] else [.mutex]
  | .waitUnlock => [.mutex]
  | .fetch => [.counter]
  | _ => []

/-- the event of an action, HyperbolicTree.inl:98-142; waking up has no effect on memory -/
def event (s : State) : Act → Event Var Sync
  | .spurious t => { thread := t, access := [], acquire := [], release := [] }
  | .run t =>
    match s.pcs[t]? with
    | none => { thread := t, access := [], acquire := [], release := [] }
    | some p => { thread := t, access := paccess p, acquire := acquires s p, release := releases s p }

/-- execute a schedule and record the events -/
def trace (m : Nat) : State → List Act → Option (List (Event Var Sync) × State)
  | s, [] => some ([], s)
  | s, a :: sched => do
    let s' ← step m s a
    let r ← trace m s' sched
    some (event s a :: r.1, r.2)

end TaskQueue

end Girgs
