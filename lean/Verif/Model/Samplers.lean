import Verif.Base.CFloat
import Verif.Base.Machine
import Verif.Base.Interleave
import Verif.Model.Generator
import Verif.Model.WeightScaling
/-
Model of the samplers of node data: `girgs::generateWeights` and `girgs::generatePositions`,
source/girgs/source/Generator.cpp:18-54, and `hypergirgs::sampleRadii`, `sampleAngles`, `sampleRadiiAndAngles`,
source/hypergirgs/source/Generator.cpp:82-132.

The threads of a parallel region write to the result vectors concurrently: an execution is an interleaving of the writes of the
threads (every write is atomic in the model; the theorems show that no two writes have the same target).
-/
namespace Girgs
open CFloat
variable {F : Type} [CFloat F]

/-- OpenMP runtime: `omp_get_max_threads()`, and the partition of a loop of `N` iterations with `schedule(static)` (no chunk size)
into one contiguous chunk for each thread of a team of `t` threads -/
structure Omp where
  maxThreads : Nat
  chunks : Nat → Nat → List (List Nat)
  max_pos : 1 ≤ maxThreads
  chunks_length : ∀ t N, 1 ≤ t → (chunks t N).length = t
  chunks_flatten : ∀ t N, 1 ≤ t → (chunks t N).flatten = List.range N

/-- a random engine with `std::uniform_real_distribution<>(a,b)` on top of it: an arbitrary state machine -/
structure Engine (F : Type) where
  G : Type
  /-- the state after construction with a seed (of `int` type) -/
  seed : Int → G
  /-- `gen()`, used as warm-up -/
  next : G → G
  /-- `std::uniform_real_distribution<>(a,b)(gen)` -/
  uniform : F → F → G → F × G

/-- the writes `v[i] = x` in order; out of range is undefined -/
def runWrites {α : Type} (v : List α) : List (Nat × α) → Option (List α)
  | [] => some v
  | (i, x) :: m => do
    let v ← wr v i x
    runWrites v m

/-- number of threads, girgs Generator.cpp:19,38 -/
def nodeThreads (omp : Omp) (n : Nat) (parallel : Bool) : Nat :=
  if parallel then max 1 (min omp.maxThreads (n / 10000)) else 1

/-- what iteration `i` of girgs Generator.cpp:29-31 stores, for the random number `u` -/
def weightOf (n : Nat) (ple u : F) : F :=
  CFloat.pow
    ((CFloat.pow (CFloat.ofRat (1 / 2) *. CFloat.ofNat n) (CFloat.neg ple +. CFloat.ofRat 1) -. CFloat.ofRat 1) *. u +. CFloat.ofRat 1)
    (CFloat.ofRat 1 /. (CFloat.neg ple +. CFloat.ofRat 1))

/-- the writes of one thread, girgs Generator.cpp:28-31 -/
def weightWrites (eng : Engine F) (n : Nat) (ple : F) : eng.G → List Nat → List (Nat × F)
  | _, [] => []
  | g, i :: is =>
    let r := eng.uniform (CFloat.ofRat 0) (CFloat.ofRat 1) g
    (i, weightOf n ple r.1) :: weightWrites eng n ple r.2 is

/-- `generateWeights(n, ple, weightSeed, parallel)` returns `out` in some execution, girgs Generator.cpp:18-35.
`device k` is the state of thread `k`'s engine if it is seeded by `std::random_device` -/
def GenerateWeights (omp : Omp) (eng : Engine F) (device : Nat → eng.G) (n : Nat) (ple : F) (seed : Int) (parallel : Bool)
    (out : List F) : Prop :=
  ∃ gens, seedGens (nodeThreads omp n parallel) eng.seed device seed = some gens ∧
  ∃ m, Interleaving ((omp.chunks (nodeThreads omp n parallel) n).zipIdx.map fun c => weightWrites eng n ple (gens c.2) c.1) m ∧
    runWrites (List.replicate n (CFloat.ofRat 0)) m = some out

/-- the writes `v[i][d] = x` in order -/
def runWrites2 (v : List (List F)) : List (Nat × Nat × F) → Option (List (List F))
  | [] => some v
  | (i, d, x) :: m => do
    let row ← rd v i
    let row ← wr row d x
    let v ← wr v i row
    runWrites2 v m

/-- the inner loop of girgs Generator.cpp:49-50: coordinates `ds` of node `i` -/
def rowWrites (eng : Engine F) (i : Nat) : eng.G → List Nat → List (Nat × Nat × F) × eng.G
  | g, [] => ([], g)
  | g, d :: ds =>
    let r := eng.uniform (CFloat.ofRat 0) (CFloat.ofRat 1) g
    let q := rowWrites eng i r.2 ds
    ((i, d, r.1) :: q.1, q.2)

/-- the writes of one thread, girgs Generator.cpp:47-50 -/
def positionWrites (eng : Engine F) (dimension : Nat) : eng.G → List Nat → List (Nat × Nat × F)
  | _, [] => []
  | g, i :: is =>
    let q := rowWrites eng i g (List.range dimension)
    q.1 ++ positionWrites eng dimension q.2 is

/-- `generatePositions(n, dimension, positionSeed, parallel)` returns `out` in some execution, girgs Generator.cpp:37-54 -/
def GeneratePositions (omp : Omp) (eng : Engine F) (device : Nat → eng.G) (n dimension : Nat) (seed : Int) (parallel : Bool)
    (out : List (List F)) : Prop :=
  ∃ gens, seedGens (nodeThreads omp n parallel) eng.seed device seed = some gens ∧
  ∃ m, Interleaving ((omp.chunks (nodeThreads omp n parallel) n).zipIdx.map fun c => positionWrites eng dimension (gens c.2) c.1) m ∧
    runWrites2 (List.replicate n (List.replicate dimension (CFloat.ofRat 0))) m = some out

/-! ### hypergirgs -/

/-- number of threads, hypergirgs Generator.cpp:93; the `int` sum may overflow -/
def hyperThreads (omp : Omp) (n : Nat) (parallel : Bool) : Option Nat :=
  if parallel then
    if n + 9999 < 2147483648 then some (min omp.maxThreads ((n + 9999) / 10000)) else none
  else some 1

/-- `std::nextafter(1.0, 2.0)` -/
def oneUp : F := CFloat.ofRat (1 + 1 / 4503599627370496)

/-- the warm-up loop, hypergirgs Generator.cpp:103-106 -/
def warmUp (eng : Engine F) (n threads : Nat) (g : eng.G) : eng.G := eng.next^[max (n / threads / 5) 1000] g

/-- a write to one of the two result vectors -/
inductive HWrite (F : Type) where
  | angle (i : Nat) (x : F)
  | radius (i : Nat) (x : F)

/-- the writes in order, on `(radii, angles)` -/
def runHWrites (s : List F × List F) : List (HWrite F) → Option (List F × List F)
  | [] => some s
  | .angle i x :: m => do
    let a ← wr s.2 i x
    runHWrites (s.1, a) m
  | .radius i x :: m => do
    let r ← wr s.1 i x
    runHWrites (r, s.2) m

/-- the writes of one thread, hypergirgs Generator.cpp:108-115 -/
def hyperWrites (eng : Engine F) (Radii Angles : Bool) (alpha R : F) : eng.G → List Nat → List (HWrite F)
  | _, [] => []
  | g, i :: is =>
    let a := eng.uniform (CFloat.ofRat 0) (CFloat.ofRat 2 *. CFloat.pi) g
    let g := if Angles then a.2 else g
    let r := eng.uniform oneUp (CFloat.cosh (alpha *. R)) g
    let g := if Radii then r.2 else g
    (if Angles then [HWrite.angle i a.1] else []) ++
      (if Radii then [HWrite.radius i (CFloat.acosh r.1 *. (CFloat.ofRat 1 /. alpha))] else []) ++
      hyperWrites eng Radii Angles alpha R g is

/-- `sampleRadiiAndAnglesHelper<Radii, Angles>(n, alpha, R, seed, parallel)` returns `out` in some execution, hypergirgs
Generator.cpp:82-119.  Undefined: `num_threads(0)` and the division by `threads = 0` (for `n = 0` and `parallel`), and a uniform
distribution on an empty interval. -/
def SampleHelper (omp : Omp) (eng : Engine F) (device : Nat → eng.G) (Radii Angles : Bool) (n : Nat) (alpha R : F) (seed : Int)
    (parallel : Bool) (out : List F × List F) : Prop :=
  ∃ threads, hyperThreads omp n parallel = some threads ∧ threads ≠ 0 ∧ ge (CFloat.cosh (alpha *. R)) (oneUp : F) = true ∧
  ∃ gens, seedGens threads eng.seed device seed = some gens ∧
  ∃ m, Interleaving ((omp.chunks threads n).zipIdx.map fun c =>
      hyperWrites eng Radii Angles alpha R (warmUp eng n threads (gens c.2)) c.1) m ∧
    runHWrites (List.replicate (if Radii then n else 0) (CFloat.ofRat 0), List.replicate (if Angles then n else 0) (CFloat.ofRat 0)) m = some out

/-- `sampleRadii`, hypergirgs Generator.cpp:122-124 -/
def SampleRadii (omp : Omp) (eng : Engine F) (device : Nat → eng.G) (n : Nat) (alpha R : F) (seed : Int) (parallel : Bool) (out : List F) : Prop :=
  ∃ angles, SampleHelper omp eng device true false n alpha R seed parallel (out, angles)

/-- `sampleAngles`, hypergirgs Generator.cpp:126-129 -/
def SampleAngles (omp : Omp) (eng : Engine F) (device : Nat → eng.G) (n : Nat) (seed : Int) (parallel : Bool) (out : List F) : Prop :=
  ∃ radii, SampleHelper omp eng device false true n (CFloat.ofRat 1) (CFloat.ofRat 10) seed parallel (radii, out)

/-- `sampleRadiiAndAngles`, hypergirgs Generator.cpp:131-133 -/
def SampleRadiiAndAngles (omp : Omp) (eng : Engine F) (device : Nat → eng.G) (n : Nat) (alpha R : F) (seed : Int) (parallel : Bool)
    (radii angles : List F) : Prop :=
  SampleHelper omp eng device true true n alpha R seed parallel (radii, angles)

end Girgs
