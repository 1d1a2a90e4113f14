import Verif.Base.Machine
import Verif.Base.Interleave
/-
Model of source/girgs/include/girgs/IntSort.h (the file in hypergirgs is identical).  `RADIX_WIDTH = 8` and
`Key = unsigned int`, as instantiated by the library.  `T` is trivially copyable (Node, Point), so `std::move` copies.

The input array `A` (`begin`) and the buffer `B` (`buf_begin`) are lists; accesses outside the arrays are undefined
behaviour (`none`).  `t` is the number of threads of the team, `omp_get_num_threads()`.
-/
namespace Girgs.IntSort
variable {T : Type}

/-- `ilog2`'s loop `while (x >>= 1) i++`, IntSort.h:30-31. -/
def shiftCount : Nat → Nat → Nat
  | 0, _ => 0
  | fuel + 1, x => if x / 2 = 0 then 0 else shiftCount fuel (x / 2) + 1

/-- `ilog2`, IntSort.h:24-39. -/
def ilog2 (x : Nat) : Nat :=
  if x = 0 then 0
  else
    let i := shiftCount 64 x
    i + (if 2 ^ i < x then 1 else 0)

/-- `idiv_ceil`, IntSort.h:41-44 (no 64 bit overflow for array sizes). -/
def idivCeil (a b : Nat) : Nat := (a + b - 1) / b

/-- The parameters computed by the constructor, IntSort.h:57-69. -/
structure Cfg where
  maxBits : Nat
  msbWidth : Nat
  msbShift : Nat
  lsbWidth : Nat
  noIters : Nat
  adaptiveWidth : Nat

/-- IntSort.h:57-69. -/
def cfg (maxKey : Nat) : Cfg :=
  let maxBits := ilog2 maxKey
  let msbWidth := min maxBits 8
  let lsb := maxBits - msbWidth
  let iters := idivCeil (max 1 lsb) 8
  { maxBits := maxBits, msbWidth := msbWidth, msbShift := maxBits - msbWidth, lsbWidth := lsb, noIters := iters,
    adaptiveWidth := idivCeil lsb iters }

/-- `x++` on an array element -/
def bump (v : List Nat) (i : Nat) : Option (List Nat) := do
  let x ← rd v i
  wr v i (x + 1)

/-- `max_threads`, IntSort.h:78, from `omp_get_max_threads()`. -/
def maxThreads (ompThreads n : Nat) : Nat := min ompThreads (idivCeil n 131072)

/-- The chunk `[first, second)` of thread `tid` of `t`, IntSort.h:97-100, and the elements `it` runs over; undefined if
`first > second` (the loop `it != input_end` would leave the array). -/
def chunk (A : List T) (t tid : Nat) : Option (List T) :=
  let size := idivCeil A.length t
  let first := size * tid
  let second := min (size * (tid + 1)) A.length
  if first ≤ second then some ((A.drop first).take (second - first)) else none

/-- Counting, IntSort.h:109-113: `thread_counters[tid]` has `no_queues + 8` entries. -/
def countChunk (key : T → Nat) (c : Cfg) (xs : List T) : Option (List Nat) :=
  xs.foldlM (fun cs x => bump cs (key x >>> c.msbShift)) (List.replicate 264 0)

/-- One queue of the prefix sum, IntSort.h:123-126: running over the threads, `tmp` is the index before thread `tid`. -/
def queueStep (counters : List (List Nat)) (tid qid : Nat) (index tmp : Nat) : Option (Nat × Nat) :=
  (List.range counters.length).foldlM (fun s ttid => do
    let row ← rd counters ttid
    let x ← rd row qid
    some (s.1 + x, if ttid = tid then s.1 else s.2)) (index, tmp)

/-- `queue_pointer` of thread `tid`, IntSort.h:120-128. -/
def queuePointers (counters : List (List Nat)) (tid : Nat) : Option (List Nat) := do
  let r ← (List.range 256).foldlM (fun (s : (Nat × Nat) × List Nat) qid => do
    let it ← queueStep counters tid qid s.1.1 s.1.2
    some (it, s.2 ++ [it.2])) ((0, 0), [])
  some r.2

/-- The writes `buf_begin[index] = *it` of one thread in program order, IntSort.h:137-142. -/
def scatterWrites (key : T → Nat) (c : Cfg) : List T → List Nat → Option (List (Nat × T))
  | [], _ => some []
  | x :: xs, ptr => do
    let index ← rd ptr (key x >>> c.msbShift)
    let ptr ← bump ptr (key x >>> c.msbShift)
    let rest ← scatterWrites key c xs ptr
    some ((index, x) :: rest)

/-- perform writes in the given order -/
def applyWrites (B : List T) (ws : List (Nat × T)) : Option (List T) :=
  ws.foldlM (fun B w => wr B w.1 w.2) B

/-- the writes of all threads, and thread 0's pointers (the `splitter`s, IntSort.h:131-134) -/
def msdPhase (key : T → Nat) (c : Cfg) (t : Nat) (A : List T) : Option (List (List (Nat × T)) × List Nat) := do
  let chunks ← (List.range t).mapM (chunk A t)
  let counters ← chunks.mapM (countChunk key c)
  let wss ← (List.range t).mapM (fun tid => do
    let ptr ← queuePointers counters tid
    let xs ← rd chunks tid
    scatterWrites key c xs ptr)
  let splitter ← queuePointers counters 0
  some (wss, splitter ++ [A.length])

/-- `get_queue_index`, IntSort.h:216-218. -/
def digit (c : Cfg) (it k : Nat) : Nat := (k >>> (it * c.adaptiveWidth)) % 2 ^ c.adaptiveWidth

/-- where the thread sorting one bucket is, IntSort.h:155-194 -/
inductive Phase where
  /-- counting loop of iteration 0, lines 170-174 -/
  | count
  /-- `move_to_queues` of iteration `it`, lines 234-243 -/
  | move (it : Nat)
  | done
deriving DecidableEq

/-- private variables of the thread sorting one bucket -/
structure BState where
  phase : Phase
  /-- loop index -/
  k : Nat
  pointers : List Nat
  counters : List Nat

/-- exclusive prefix sums, `pointers` in IntSort.h:225-229 -/
def prefixSums : Nat → List Nat → List Nat
  | _, [] => []
  | s, x :: xs => s :: prefixSums (s + x) xs

/-- entry of `move_to_queues` for iteration `it`, IntSort.h:225-232; `count` is `it + 1 < no_iters` -/
def startMove (c : Cfg) (it : Nat) (s : BState) : BState :=
  { phase := .move it, k := 0, pointers := prefixSums 0 s.counters
    counters := if it + 1 < c.noIters then List.replicate (2 ^ c.adaptiveWidth) 0 else s.counters }

/-- One step (one loop iteration or one loop exit) of the thread sorting the bucket at positions `[lo, lo+size)`,
IntSort.h:155-194 and 221-244.  Iteration `it` reads the buffer and writes the input array if `it` is even, and vice
versa (the `std::swap`s). -/
def bstep (key : T → Nat) (c : Cfg) (lo size : Nat) (s : BState) (A B : List T) : Option (BState × List T × List T) :=
  match s.phase with
  | .count =>
    if s.k < size then do
      let x ← rd B (lo + s.k)
      let cs ← bump s.counters (digit c 0 (key x))
      some ({ s with k := s.k + 1, counters := cs }, A, B)
    else some (startMove c 0 s, A, B)
  | .move it =>
    if s.k < size then do
      let x ← rd (if it % 2 = 0 then B else A) (lo + s.k)
      let index ← rd s.pointers (digit c it (key x))
      let ps ← bump s.pointers (digit c it (key x))
      let cs ← (if it + 1 < c.noIters then bump s.counters (digit c (it + 1) (key x)) else some s.counters)
      let s' : BState := { s with k := s.k + 1, pointers := ps, counters := cs }
      if it % 2 = 0 then do
        let A' ← wr A (lo + index) x
        some (s', A', B)
      else do
        let B' ← wr B (lo + index) x
        some (s', A, B')
    else if it + 1 < c.noIters then some (startMove c (it + 1) s, A, B)
    else some ({ s with phase := .done }, A, B)
  | .done => some (s, A, B)

/-- start of a bucket: empty buckets are skipped (IntSort.h:156), otherwise the counters are cleared (line 170) -/
def binit (c : Cfg) (size : Nat) : BState :=
  { phase := if size = 0 then .done else .count, k := 0, pointers := [], counters := List.replicate (2 ^ c.adaptiveWidth) 0 }

/-- shared arrays and the private states of all buckets -/
structure Global (T : Type) where
  A : List T
  B : List T
  priv : List BState

/-- The thread sorting bucket `i` makes a step. -/
def gstep (key : T → Nat) (c : Cfg) (splitter : List Nat) (g : Global T) (i : Nat) : Option (Global T) := do
  let s ← rd g.priv i
  let lo ← rd splitter i
  let hi ← rd splitter (i + 1)
  let r ← bstep key c lo (hi - lo) s g.A g.B
  some { A := r.2.1, B := r.2.2, priv := g.priv.set i r.1 }

/-- Run a schedule: a sequence of bucket numbers saying which bucket's thread makes the next step.  (The work sharing
loop `omp for nowait`, IntSort.h:154-155, gives every bucket to one thread; which thread processes which bucket and in
which order only restricts the schedules.) -/
def runSched (key : T → Nat) (c : Cfg) (splitter : List Nat) (g : Global T) (sched : List Nat) : Option (Global T) :=
  sched.foldlM (gstep key c splitter) g

/-- the state in which the LSD phase starts -/
def lsdInit (c : Cfg) (splitter : List Nat) (A B : List T) : Global T :=
  { A := A, B := B, priv := (List.range (2 ^ c.msbWidth)).map fun i =>
      binit c (splitter.getD (i + 1) 0 - splitter.getD i 0) }

/-- `intsort(v, key_extract, max_key)` with a team of `t` threads, IntSort.h:73-199 and 292-305: the vector `A`, with
buffer contents `B0`, ends as `out` in some execution. -/
def Run (key : T → Nat) (maxKey t : Nat) (A B0 out : List T) : Prop :=
  if A.length < 2 ∨ maxKey < 1 then out = A
  else
    ∃ wss splitter ws B,
      msdPhase key (cfg maxKey) t A = some (wss, splitter) ∧ Interleaving wss ws ∧ applyWrites B0 ws = some B ∧
      if (cfg maxKey).lsbWidth = 0 then out = B
      else ∃ sched g, runSched key (cfg maxKey) splitter (lsdInit (cfg maxKey) splitter A B) sched = some g ∧
        (∀ s ∈ g.priv, s.phase = .done) ∧ out = if (cfg maxKey).noIters % 2 = 0 then g.B else g.A

/-- No execution of the same call reaches undefined behaviour: neither the counting and prefix sum code, nor any
interleaving of the scatter writes, nor any schedule of the bucket sorts.  (First two conjuncts: `std::fill_n` of
`adaptive_no_queues` entries stays inside the `IndexArray` of 256 entries, lines 170 and 232; the shifts of the 32 bit
key, lines 112 and 217, are by less than 32.) -/
def Safe (key : T → Nat) (maxKey t : Nat) (A B0 : List T) : Prop :=
  A.length < 2 ∨ maxKey < 1 ∨ 2 ^ (cfg maxKey).adaptiveWidth ≤ 256 ∧
    ((cfg maxKey).msbShift < 32 ∧ ∀ it < (cfg maxKey).noIters, it * (cfg maxKey).adaptiveWidth < 32) ∧
    ∃ wss splitter, msdPhase key (cfg maxKey) t A = some (wss, splitter) ∧
      ∀ ws, Interleaving wss ws → ∃ B, applyWrites B0 ws = some B ∧
        ∀ sched : List Nat, (∀ i ∈ sched, i < 2 ^ (cfg maxKey).msbWidth) →
          (cfg maxKey).lsbWidth = 0 ∨ ∃ g, runSched key (cfg maxKey) splitter (lsdInit (cfg maxKey) splitter A B) sched = some g

end Girgs.IntSort
