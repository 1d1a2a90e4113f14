import Verif.Model.Tools
/-
Model of the benchmark programs: source/examples/bench_girg/CounterPerThread.h (and the identical file of bench_hyper), `measure_edge_generation`, `measure` and
`main` of source/examples/bench_girg/main.cpp, and `benchmark` of source/examples/bench_hyper/main.cpp.
Not modelled: progress messages; the measured times are in Model/Timer.lean; `main` of bench_hyper is in Model/BenchHyper.lean.
-/
namespace Girgs
namespace Counter

/-- a thread that will call `add` `todo` more times; `loaded`: it is inside of `per_thread_[tid].first += x` and has read this value -/
structure Th where
  todo : Nat
  loaded : Option Nat

/-- the counters and the threads -/
structure State where
  slots : List Nat
  ths : List Th

/-- the constructor, CounterPerThread.h:18-23, and threads that will call `add` `calls[t]` times -/
def init (maxThreads : Nat) (calls : List Nat) : State := ⟨List.replicate maxThreads 0, calls.map fun k => ⟨k, none⟩⟩

/-- one step of thread `t`, whose calls of `add` (CounterPerThread.h:25-28) pass the thread id `tid t`: it reads its counter, or it writes the incremented value
(`uint64_t` wraps).  An id out of range is undefined (or a failed assertion).  A thread that has finished stays as it is. -/
def step (tid : Nat → Nat) (s : State) (t : Nat) : Option State := do
  let th ← rd s.ths t
  match th.loaded with
  | none =>
    match th.todo with
    | 0 => some s
    | k + 1 => do
      let v ← rd s.slots (tid t)
      some { s with ths := s.ths.set t ⟨k, some v⟩ }
  | some v => do
    let slots ← wr s.slots (tid t) ((v + 1) % 18446744073709551616)
    some { slots := slots, ths := s.ths.set t { th with loaded := none } }

/-- execute a schedule -/
def run (tid : Nat → Nat) (s : State) (sched : List Nat) : Option State := sched.foldlM (step tid) s

/-- `total()`, CounterPerThread.h:30-35 -/
def total (slots : List Nat) : Nat := slots.foldl (fun val x => (val + x) % 18446744073709551616) 0

/-- the thread has returned from its last call -/
def Th.finished (th : Th) : Prop := th.todo = 0 ∧ th.loaded = none

/-- some execution, in which thread `t` calls `add(tid t)` `calls[t]` times, ends with this total -/
def Run (maxThreads : Nat) (tid : Nat → Nat) (calls : List Nat) (result : Nat) : Prop :=
  ∃ sched s, run tid (init maxThreads calls) sched = some s ∧ (∀ th ∈ s.ths, th.finished) ∧ result = total s.slots

end Counter

namespace Bench
open CFloat Tools
variable {F : Type} [CFloat F]

/-- `measure_edge_generation<D>`, bench_girg main.cpp:18-34: some execution counts `total` edges -/
def CountEdges {D : Nat} (env : Env) (rng : Tree.Rng F) (gens : Nat → rng.G) (weights : List F) (points : List (Fin D → F)) (alpha : F) (total : Nat) : Prop :=
  ∃ T, Constructed env.ndebug weights points alpha T ∧ ∃ calls, treeCallbacks env T rng gens = some calls ∧
    Counter.Run env.threads id (calls.map List.length) total

/-- the `switch`, bench_girg main.cpp:68-75: dimensions other than 1,…,5 are treated as 1 -/
def switchDim (dimension : Int) : Nat := if 1 ≤ dimension ∧ dimension ≤ 5 then dimension.toNat else 1

/-- the arguments of `measure` -/
structure Call (F : Type) where
  dimension : Int
  n : Int
  avgDeg : Int
  alpha : F
  ple : F
  threads : Nat
  seed : Int
  plot : Int

/-- a line of the output without the times, bench_girg main.cpp:82-97 -/
structure Row (F : Type) where
  call : Call F
  edges : Nat
  degree : F

/-- `measure`, bench_girg main.cpp:37-98: some execution prints `row`.  The assertion of line 40 holds.  Negative `n` and dimensions do not occur (`toNat`). -/
def Measure (m : Machine F) (c : Call F) (row : Row F) : Prop :=
  ∃ wseed pseed sseed, int32 (c.seed + 1000) = some wseed ∧ int32 (c.seed + 10000) = some pseed ∧ int32 (c.seed + 100000) = some sseed ∧
  ∃ weights positions, (∃ device, GenerateWeights (m.omp c.threads) m.eng device c.n.toNat c.ple wseed true weights) ∧
    (∃ device, GeneratePositions (m.omp c.threads) m.eng device c.n.toNat c.dimension.toNat pseed true positions) ∧
  ∃ part, part.Perm (m.chunks (m.env c.threads).threads weights.length) ∧
  ∃ s ws, Scaling.ScaleWeights m.alg m.ndebug part weights (ofInt c.avgDeg) c.dimension.toNat c.alpha (.returned s ws) ∧
  ∃ device gens, seedGens (m.env c.threads).threads m.edgeSeed device sseed = some gens ∧
  ∃ points, asPoints (switchDim c.dimension) positions = some points ∧
  ∃ total, CountEdges (m.env c.threads) m.rng gens ws points c.alpha total ∧
    row = ⟨c, total, ofRat 2 *. ofNat total /. ofInt c.n⟩

/-- `dimension`, `n`, `avgDeg`, `alpha` and `plot` of the calls in one repetition, in order, bench_girg main.cpp:119-147 -/
def repCalls (F : Type) [CFloat F] : List (Int × Int × Int × F × Int) :=
  ((List.range 11).flatMap fun j => (([10, 100, 1000] : List Int).filter fun deg => decide (deg * 4 < 1024 * 2 ^ j)).map fun deg =>
    (1, 1024 * 2 ^ j, deg, (CFloat.inf : F), 0)) ++
  ((List.range 12).map fun j => (1, 32768, 2 * 2 ^ j, (CFloat.inf : F), 1)) ++
  ([CFloat.inf, ofRat 5, ofRat (9 / 2), ofRat 4, ofRat (7 / 2), ofRat 3, ofRat (5 / 2), ofRat 2].map fun a => (1, 32768, 10, a, 2)) ++
  (([1, 2, 3, 4, 5] : List Int).map fun d => (d, 32768, 10, (CFloat.inf : F), 3))

/-- the calls of `main`, bench_girg main.cpp:101-171: ten repetitions, one thread, exponent 2.5, the seeds 1, 2, 3, … -/
def mainCalls (F : Type) [CFloat F] : List (Call F) :=
  ((List.replicate 10 (repCalls F)).flatten.zipIdx).map fun p => ⟨p.1.1, p.1.2.1, p.1.2.2.1, p.1.2.2.2.1, ofRat (5 / 2), 1, p.2 + 1, p.1.2.2.2.2⟩

/-- `main` of bench_girg: some execution ends normally and prints these rows below the header -/
def GirgMain (m : Machine F) (rows : List (Row F)) : Prop := List.Forall₂ (Measure m) (mainCalls F) rows

/-- a line of the output of bench_hyper without the times, bench_hyper main.cpp:68-83 -/
structure HRow (F : Type) where
  seed : Nat
  n : Nat
  avgDeg : Nat
  alpha : F
  ple : F
  T : F
  R : F
  edges : Nat
  degree : F

/-- `benchmark`, bench_hyper main.cpp:33-89: some execution prints `row`; `threads` is `omp_get_max_threads()`.  `unsigned` parameters; passed to `int` parameters they
are converted modulo 2^32 (simplification: `n` and `seed + 12345678` fit into `int`). -/
def Benchmark (m : Machine F) (threads n avgDeg : Nat) (alpha T : F) (seed : Nat) (row : HRow F) : Prop :=
  n < 2147483648 ∧ seed + 12345678 < 2147483648 ∧
  ∃ R, Radius.LikeNetworKit m.ndebug n alpha T (ofNat avgDeg) R ∧
  ∃ radii angles, (∃ device, SampleRadiiAndAngles (m.omp threads) m.eng device n alpha R seed true radii angles) ∧
  ∃ device gs, m.hyperEngine.gens F (m.henv threads).threads (seed + 12345678) device = some gs ∧
  ∃ gens : Nat → m.rng.G, (∀ k g, gs[k]? = some g → gens k = g) ∧
  ∃ H, HConstructed m.ndebug radii angles T R H ∧ ∃ calls, HTree.Generate (m.henv threads) H m.rng gens calls ∧
  ∃ total, Counter.Run (m.henv threads).threads id (calls.map List.length) total ∧
    row = ⟨seed, n, avgDeg, alpha, ofRat 2 *. alpha +. ofRat 1, T, R, total, ofRat 2 *. ofNat total /. ofNat n⟩

end Bench
end Girgs
