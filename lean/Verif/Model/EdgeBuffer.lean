import Verif.Base.Machine
/-
Model of the edge collection in `generateEdges`, source/girgs/source/Generator.cpp:76-117 and
source/hypergirgs/source/Generator.cpp:134-171 (the same code; `reserve` has no observable effect): every thread pushes
its edges into its own vector, appends the vector to the shared result under a mutex when it has `block_size` elements,
and the main thread appends the rest in thread order after the parallel region.

The threads are interleaved step by step: a push with the size test, acquiring the mutex (only possible while it is
free), copying one element, releasing, clearing.
-/
namespace Girgs.EdgeBuffer

/-- where a thread is -/
inductive PC where
  /-- outside `addEdge` -/
  | idle
  /-- in `flush`, about to lock the mutex (girgs Generator.cpp:87) -/
  | acquire
  /-- holding the mutex, `k` elements of the local vector inserted (line 88) -/
  | copy (k : Nat)
  /-- about to unlock (end of `flush`, line 89) -/
  | release
  /-- about to clear the local vector (line 96) -/
  | clear
deriving DecidableEq

/-- private state of a thread: edges it still will pass to the callback, its local vector, its position -/
structure Th (E : Type) where
  todo : List E
  buf : List E
  pc : PC

/-- shared state: the threads, the owner of the mutex, the result vector -/
structure State (E : Type) where
  ths : List (Th E)
  owner : Option Nat
  result : List E

variable {E : Type}

/-- the state at the start: thread `t` will pass the edges `calls[t]` -/
def init (calls : List (List E)) : State E :=
  { ths := calls.map fun l => { todo := l, buf := [], pc := .idle }, owner := none, result := [] }

/-- one step of thread `t` (a thread that is blocked or has finished stays as it is) -/
def step (block : Nat) (s : State E) (t : Nat) : Option (State E) := do
  let th ← rd s.ths t
  match th.pc with
  | .idle =>
    match th.todo with
    | [] => some s
    | e :: es =>
      -- emplace_back and size test, lines 93-94
      let buf := th.buf ++ [e]
      some { s with ths := s.ths.set t { todo := es, buf := buf, pc := if buf.length = block then .acquire else .idle } }
  | .acquire =>
    match s.owner with
    | none => some { s with ths := s.ths.set t { th with pc := .copy 0 }, owner := some t }
    | some _ => some s
  | .copy k =>
    match th.buf[k]? with
    | some e => some { s with ths := s.ths.set t { th with pc := .copy (k + 1) }, result := s.result ++ [e] }
    | none => some { s with ths := s.ths.set t { th with pc := .release } }
  | .release => some { s with ths := s.ths.set t { th with pc := .clear }, owner := none }
  | .clear => some { s with ths := s.ths.set t { th with buf := [], pc := .idle } }

/-- execute a schedule -/
def run (block : Nat) (s : State E) (sched : List Nat) : Option (State E) := sched.foldlM (step block) s

/-- the thread has returned from its last `addEdge` -/
def Th.finished (th : Th E) : Prop := th.pc = .idle ∧ th.todo = []

/-- the flushes of the main thread after the parallel region, lines 114-115 -/
def finalFlush (s : State E) : List E := s.result ++ (s.ths.map Th.buf).flatten

/-- `out` is returned by some execution in which thread `t` passes the edges `calls[t]` to the callback -/
def Run (block : Nat) (calls : List (List E)) (out : List E) : Prop :=
  ∃ sched s, run block (init calls) sched = some s ∧ (∀ th ∈ s.ths, th.finished) ∧ out = finalFlush s

end Girgs.EdgeBuffer
