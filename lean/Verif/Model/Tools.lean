import Verif.Model.Cli
import Verif.Model.Output
import Verif.Model.Samplers
import Verif.Model.Radius
import Verif.Model.WeightScaling
import Verif.Model.Generator
import Verif.Model.HyperGenerate
/-
Model of the `main` functions of the two command line tools, source/cli/gengirg/main.cpp:53-164 and source/cli/genhrg/main.cpp:52-162: which
parameters are read and checked, which functions of the library are called with them, and which files are written.
Not modelled: what is printed to the terminal, time measurement, and negative numbers of nodes (accepted only together with `-deg nan`).
-/
namespace Girgs
namespace Tools
open Cli CFloat

/-- The computer: build type, `omp_get_max_threads()` at the start, the OpenMP runtime, the standard library (conversions, random engines and
distributions, sorting, printing) and the file system. -/
structure Machine (F : Type) [CFloat F] where
  ndebug : Bool
  maxThreads : Nat
  max_pos : 1 ≤ maxThreads
  max_le : maxThreads ≤ 8388608
  /-- the chunks of a static loop of `N` iterations in a team of `t` threads -/
  chunks : Nat → Nat → List (List Nat)
  chunks_length : ∀ t N, 1 ≤ t → (chunks t N).length = t
  chunks_flatten : ∀ t N, 1 ≤ t → (chunks t N).flatten = List.range N
  /-- `std::partition` on the task list of the hyperbolic sampler -/
  partition : List (Nat × Nat) → List (Nat × Nat)
  partition_perm : ∀ l, (partition l).Perm l
  partition_front : ∀ l, (partition l).Pairwise fun p q => q.1 = q.2 → p.1 = p.2
  /-- engine and distribution of the node data -/
  eng : Engine F
  /-- engine and distributions of the edge samplers, with their seeding -/
  rng : Tree.Rng F
  edgeSeed : Int → rng.G
  hyperEngine : HEngine rng.G
  alg : Scaling.StdAlg F
  printer : Output.Printer F
  canOpen : String → Bool
  /-- `std::stoi`; `none`: an exception -/
  stoi : String → Option Int
  stoi_int : ∀ s x, stoi s = some x → -2147483648 ≤ x ∧ x ≤ 2147483647
  /-- `std::stod`; `none`: an exception -/
  stod : String → Option F

variable {F : Type} [CFloat F]

/-- the OpenMP runtime after `omp_set_num_threads(t)`, gengirg main.cpp:110, genhrg main.cpp:108 -/
def Machine.omp (m : Machine F) (t : Nat) : Omp where
  maxThreads := max 1 t
  chunks := m.chunks
  max_pos := Nat.le_max_left _ _
  chunks_length := m.chunks_length
  chunks_flatten := m.chunks_flatten

/-- the environment of `girgs::generateEdges` after `omp_set_num_threads(t)`: `omp_get_max_threads()` is `t` (simplification: at most `2^23` threads) -/
def Machine.env (m : Machine F) (t : Nat) : Env where
  ndebug := m.ndebug
  threads := max 1 (min t 8388608)
  chunks := m.chunks (max 1 (min t 8388608))
  threads_pos := Nat.le_max_left _ _
  threads_le := by omega
  chunks_length := fun N => m.chunks_length _ N (Nat.le_max_left _ _)
  chunks_flatten := fun N => m.chunks_flatten _ N (Nat.le_max_left _ _)

/-- the environment of `hypergirgs::generateEdges` after `omp_set_num_threads(t)` -/
def Machine.henv (m : Machine F) (t : Nat) : HEnv where
  ndebug := m.ndebug
  threads := max 1 (min t 8388608)
  partition := m.partition
  threads_pos := Nat.le_max_left _ _
  threads_le := by omega
  partition_perm := m.partition_perm
  partition_front := m.partition_front

/-- how a tool ends -/
inductive Exit where
  /-- the help text has been printed, exit code 0 -/
  | help
  /-- the version has been printed, exit code 0 -/
  | version
  /-- `std::stoi` or `std::stod` threw an exception -/
  | badNumber
  /-- `rangeCheck` of this parameter called `exit(1)` -/
  | outOfRange (name : String)
  /-- `scaleWeights` threw an exception -/
  | scalingThrew
  /-- this file could not be opened: an exception -/
  | openFailed (name : String)
  /-- exit code 0 -/
  | done
deriving DecidableEq

/-- a file name and the text written to it -/
abbrev File := String × Output.Text

/-- files are written one after the other; an exception ends the program -/
def emit : List (String × Output.FileResult) → Exit × List File
  | [] => (.done, [])
  | (name, .written t) :: rest => ((emit rest).1, (name, t) :: (emit rest).2)
  | (name, .openFailed) :: _ => (.openFailed name, [])

/-- `argc < 2 || 0 == strcmp(argv[1], "--help") || 0 == strcmp(argv[1], "-help")`, gengirg main.cpp:56, genhrg main.cpp:55 -/
def wantsHelp (argv : List String) : Bool := argv.length < 2 || argv[1]? = some "--help" || argv[1]? = some "-help"

/-- `argc > 1 && 0 == strcmp(argv[1], "--version")`, gengirg main.cpp:74, genhrg main.cpp:73 -/
def wantsVersion (argv : List String) : Bool := argv[1]? = some "--version"

/-- the edges as pairs of `int`s -/
def intEdges (es : List (Nat × Nat)) : List (Int × Int) := es.map fun e => ((e.1 : Int), (e.2 : Int))

/-! ### genhrg -/

/-- the parameters of genhrg -/
structure HrgConfig (F : Type) where
  n : Int
  alpha : F
  T : F
  deg : F
  rseed : Int
  aseed : Int
  sseed : Int
  threads : Int
  nkr : Bool
  file : String
  edge : Bool
  coord : Bool

/-- genhrg main.cpp:84-96; `none`: a conversion threw -/
def readHrg (m : Machine F) (p : Params) : Option (HrgConfig F) := do
  let n ← getOr m.stoi p "n" 10000
  let alpha ← getOr m.stod p "alpha" (ofRat (3 / 4))
  let T ← getOr m.stod p "t" (ofRat 0)
  let deg ← getOr m.stod p "deg" (ofRat 10)
  let rseed ← getOr m.stoi p "rseed" 12
  let aseed ← getOr m.stoi p "aseed" 130
  let sseed ← getOr m.stoi p "sseed" 1400
  let threads ← getOr m.stoi p "threads" 1
  let file ← getOr some p "file" "graph"
  some ⟨n, alpha, T, deg, rseed, aseed, sseed, threads, flag p "nkr", file, flag p "edge", flag p "coord"⟩

/-- the range checks, genhrg main.cpp:101-107: the first parameter that is not in its range -/
def checkHrg (m : Machine F) (c : HrgConfig F) : Option String :=
  if rangeFails c.alpha (ofRat (1 / 2)) (ofRat 1) false false then some "alpha"
  else if rangeFails c.T (ofRat 0) (ofRat 1) false true then some "t"
  else if rangeFails c.deg (ofRat 1) (ofInt c.n -. ofRat 1) false false then some "deg"
  else if rangeFailsInt c.threads 1 m.maxThreads false false then some "threads"
  else none

/-- the estimated radius, genhrg main.cpp:116-118 -/
def HrgRadius (m : Machine F) (c : HrgConfig F) (R : F) : Prop :=
  if c.nkr then Radius.LikeNetworKit m.ndebug c.n c.alpha c.T c.deg R else Radius.calculateRadius c.n c.alpha c.T c.deg = some R

/-- the calls of the library, genhrg main.cpp:116-133: some execution has these results -/
def HrgData (m : Machine F) (c : HrgConfig F) (R : F) (radii angles : List F) (edges : List (Nat × Nat)) : Prop :=
  0 ≤ c.n ∧ HrgRadius m c R ∧
  (∃ device, SampleRadii (m.omp c.threads.toNat) m.eng device c.n.toNat c.alpha R c.rseed (decide (1 < c.threads)) radii) ∧
  (∃ device, SampleAngles (m.omp c.threads.toNat) m.eng device c.n.toNat c.aseed (decide (1 < c.threads)) angles) ∧
  ∃ device gs, m.hyperEngine.gens F (m.henv c.threads.toNat).threads c.sseed device = some gs ∧
  ∃ gens : Nat → m.rng.G, (∀ k g, gs[k]? = some g → gens k = g) ∧
    HGenerateEdges (m.henv c.threads.toNat) m.rng gens radii angles c.T R edges

/-- the requested files, genhrg main.cpp:136-159; `none`: an access out of bounds -/
def hrgFiles (m : Machine F) (c : HrgConfig F) (radii angles : List F) (edges : List (Nat × Nat)) : Option (List (String × Output.FileResult)) := do
  let coords ← if c.coord then (Output.writeCoords m.printer (m.canOpen (c.file ++ ".hyp")) c.n.toNat radii angles).map fun r => [(c.file ++ ".hyp", r)]
    else some []
  some ((if c.edge then [(c.file ++ ".txt", Output.writeEdgeList (m.canOpen (c.file ++ ".txt")) c.n (intEdges edges))] else []) ++ coords)

/-- the main part of genhrg, main.cpp:115-161 -/
def HrgRun (m : Machine F) (c : HrgConfig F) (exit : Exit) (files : List File) : Prop :=
  ∃ R radii angles edges, HrgData m c R radii angles edges ∧ ∃ fs, hrgFiles m c radii angles edges = some fs ∧ (exit, files) = emit fs

/-- `main` of genhrg, main.cpp:52-162: some execution ends with `exit` and has written `files` -/
def HrgMain (m : Machine F) (argv : List String) (exit : Exit) (files : List File) : Prop :=
  if wantsHelp argv then exit = .help ∧ files = []
  else if wantsVersion argv then exit = .version ∧ files = []
  else match readHrg m (parseArgs argv) with
    | none => exit = .badNumber ∧ files = []
    | some c => match checkHrg m c with
      | some name => exit = .outOfRange name ∧ files = []
      | none => HrgRun m c exit files

/-! ### gengirg -/

/-- the parameters of gengirg -/
structure GirgConfig (F : Type) where
  n : Int
  d : Int
  ple : F
  alpha : F
  deg : F
  wseed : Int
  pseed : Int
  sseed : Int
  threads : Int
  file : String
  dot : Bool
  edge : Bool

/-- gengirg main.cpp:85-97; `none`: a conversion threw -/
def readGirg (m : Machine F) (p : Params) : Option (GirgConfig F) := do
  let n ← getOr m.stoi p "n" 10000
  let d ← getOr m.stoi p "d" 1
  let ple ← getOr m.stod p "ple" (ofRat (5 / 2))
  let alpha ← getOr m.stod p "alpha" CFloat.inf
  let deg ← getOr m.stod p "deg" (ofRat 10)
  let wseed ← getOr m.stoi p "wseed" 12
  let pseed ← getOr m.stoi p "pseed" 130
  let sseed ← getOr m.stoi p "sseed" 1400
  let threads ← getOr m.stoi p "threads" 1
  let file ← getOr some p "file" "graph"
  some ⟨n, d, ple, alpha, deg, wseed, pseed, sseed, threads, file, flag p "dot", flag p "edge"⟩

/-- the range checks, gengirg main.cpp:102-109: the first parameter that is not in its range -/
def checkGirg (m : Machine F) (c : GirgConfig F) : Option String :=
  if rangeFailsInt c.d 1 5 false false then some "d"
  else if rangeFails c.ple (ofRat 2) (ofRat 3) true false then some "ple"
  else if rangeFails c.alpha (ofRat 1) CFloat.inf true false then some "alpha"
  else if rangeFails c.deg (ofRat 1) (ofInt c.n -. ofRat 1) false false then some "deg"
  else if rangeFailsInt c.threads 1 m.maxThreads false false then some "threads"
  else none

/-- the node data, gengirg main.cpp:121-129: `generateWeights`, `*max_element` of the weights (needs a node), `generatePositions` (in parallel, the
default of Generator.h:42) -/
def GirgNodes (m : Machine F) (c : GirgConfig F) (weights : List F) (positions : List (List F)) : Prop :=
  0 ≤ c.n ∧ weights ≠ [] ∧
  (∃ device, GenerateWeights (m.omp c.threads.toNat) m.eng device c.n.toNat c.ple c.wseed (decide (1 < c.threads)) weights) ∧
  (∃ device, GeneratePositions (m.omp c.threads.toNat) m.eng device c.n.toNat c.d.toNat c.pseed true positions)

/-- the scaling, gengirg main.cpp:134; the private copies of the reductions are combined in an unspecified order -/
def GirgScaling (m : Machine F) (c : GirgConfig F) (weights : List F) (r : Scaling.ScaleResult F) : Prop :=
  ∃ part, part.Perm (m.chunks (m.env c.threads.toNat).threads weights.length) ∧
    Scaling.ScaleWeights m.alg m.ndebug part weights c.deg c.d.toNat c.alpha r

/-- the sampling of the edges, gengirg main.cpp:139 -/
def GirgEdges (m : Machine F) (c : GirgConfig F) (weights : List F) (positions : List (List F)) (edges : List (Nat × Nat)) : Prop :=
  ∃ device gens, seedGens (m.env c.threads.toNat).threads m.edgeSeed device c.sseed = some gens ∧
    ∃ notice, GenerateEdges (m.env c.threads.toNat) m.rng gens weights positions c.alpha edges notice

/-- the requested files, gengirg main.cpp:143-161; `none`: an access out of bounds -/
def girgFiles (m : Machine F) (c : GirgConfig F) (weights : List F) (positions : List (List F)) (edges : List (Nat × Nat)) :
    Option (List (String × Output.FileResult)) := do
  let dots ← if c.dot then (Output.saveDot m.printer (m.canOpen (c.file ++ ".dot")) weights positions (intEdges edges)).map fun r => [(c.file ++ ".dot", r)]
    else some []
  some (dots ++ if c.edge then [(c.file ++ ".txt", Output.writeEdgeList (m.canOpen (c.file ++ ".txt")) c.n (intEdges edges))] else [])

/-- the main part of gengirg, main.cpp:118-163 -/
def GirgRun (m : Machine F) (c : GirgConfig F) (exit : Exit) (files : List File) : Prop :=
  ∃ weights positions, GirgNodes m c weights positions ∧
    ((∃ ws, GirgScaling m c weights (.thrown ws) ∧ exit = .scalingThrew ∧ files = []) ∨
      ∃ s ws edges, GirgScaling m c weights (.returned s ws) ∧ GirgEdges m c ws positions edges ∧
        ∃ fs, girgFiles m c ws positions edges = some fs ∧ (exit, files) = emit fs)

/-- `main` of gengirg, main.cpp:53-164: some execution ends with `exit` and has written `files` -/
def GirgMain (m : Machine F) (argv : List String) (exit : Exit) (files : List File) : Prop :=
  if wantsHelp argv then exit = .help ∧ files = []
  else if wantsVersion argv then exit = .version ∧ files = []
  else match readGirg m (parseArgs argv) with
    | none => exit = .badNumber ∧ files = []
    | some c => match checkGirg m c with
      | some name => exit = .outOfRange name ∧ files = []
      | none => GirgRun m c exit files

end Tools
end Girgs
