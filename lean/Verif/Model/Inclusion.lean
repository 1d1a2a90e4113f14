import Verif.Model.Tools
import Verif.Model.Examples
/-
Model of the `main` functions of the example programs source/examples/inclusion_single/main.cpp:89-181 and source/examples/inclusion_range/main.cpp:86-215,
which search for the expected degrees at which a GIRG contains a hyperbolic random graph and is contained in it.
Not modelled: what is printed to `clog`.
-/
namespace Girgs
namespace Inclusion
open Cli CFloat Tools Examples
variable {F : Type} [CFloat F]

/-- the result of `std::sort` on a list of edges, inclusion_single main.cpp:137,155 and inclusion_range main.cpp:142,158 -/
def Sorted (g out : List Edge) : Prop := out.Perm g ∧ out.Pairwise fun a b => edgeLt b a = false

/-- node data and hyperbolic edges with `threads` threads: the samplers are called with `parallel = false`, temperature and sampling seed are 0;
inclusion_single main.cpp:125-133, inclusion_range main.cpp:125-138.  `n * Radii` in Generator.cpp:88-89 is non-negative for an executable call. -/
def HrgPart (m : Machine F) (threads : ℕ) (n : ℤ) (alpha R : F) (rseed aseed : ℤ) (radii angles : List F) (edges : List (ℕ × ℕ)) : Prop :=
  0 ≤ n ∧
  (∃ device, SampleRadii (m.omp threads) m.eng device n.toNat alpha R rseed false radii) ∧
  (∃ device, SampleAngles (m.omp threads) m.eng device n.toNat aseed false angles) ∧
  ∃ device gs, m.hyperEngine.gens F (m.henv threads).threads 0 device = some gs ∧
  ∃ gens : Nat → m.rng.G, (∀ k g, gs[k]? = some g → gens k = g) ∧ HGenerateEdges (m.henv threads) m.rng gens radii angles (ofRat 0) R edges

/-- `girg_weights`, inclusion_single main.cpp:141-146, inclusion_range main.cpp:145-150 -/
def girgWeights (radii : List F) (R : F) : List F := radii.map fun r => Radius.radiusToGirgWeight r R

/-- `girg_positions`, inclusion_single main.cpp:142-146, inclusion_range main.cpp:146-150 -/
def girgPositions (angles : List F) : List (List F) := angles.map fun a => [Radius.angleToGirgPosition a]

/-- scaling and GIRG edges inside of `diff`, inclusion_single main.cpp:150-152, inclusion_range main.cpp:154-156: `scaleWeights` on a copy of the
weights returns `scaling`, then `generateEdges` with dimension 1, `alpha` infinite and seed 0 returns `edges` -/
def GirgPart (m : Machine F) (threads : ℕ) (weights : List F) (positions : List (List F)) (desired : F) (scaling : F) (edges : List (ℕ × ℕ)) : Prop :=
  ∃ part, part.Perm (m.chunks (m.env threads).threads weights.length) ∧
  ∃ ws, Scaling.ScaleWeights m.alg m.ndebug part weights desired 1 CFloat.inf (.returned scaling ws) ∧
  ∃ device gens, seedGens (m.env threads).threads m.edgeSeed device 0 = some gens ∧
  ∃ notice, GenerateEdges (m.env threads) m.rng gens ws positions CFloat.inf edges notice

/-! ### inclusion_single -/

/-- the parameters of inclusion_single -/
structure SingleConfig (F : Type) where
  n : Int
  alpha : F
  deg : F
  odeg : F
  step : F
  rseed : Int
  aseed : Int

/-- inclusion_single main.cpp:105-112; `none`: a conversion threw -/
def readSingle (m : Machine F) (p : Params) : Option (SingleConfig F) := do
  let n ← getOr m.stoi p "n" 10000
  let alpha ← getOr m.stod p "alpha" (ofRat (3 / 4))
  let deg ← getOr m.stod p "deg" (ofRat 10)
  let odeg ← getOr m.stod p "odeg" (ofRat 0)
  let step ← getOr m.stod p "step" (ofRat (1 / 10))
  let rseed ← getOr m.stoi p "rseed" 12
  let aseed ← getOr m.stoi p "aseed" 130
  some ⟨n, alpha, deg, odeg, step, rseed, aseed⟩

/-- the range checks, inclusion_single main.cpp:117-118 -/
def checkSingle (c : SingleConfig F) : Option String :=
  if rangeFails c.alpha (ofRat (1 / 2)) (ofRat 1) false false then some "alpha"
  else if rangeFails c.deg (ofRat 1) (ofInt c.n -. ofRat 1) false false then some "deg"
  else none

/-- a line of the output, inclusion_single main.cpp:158 -/
structure Row (F : Type) where
  deg : F
  hrgOnly : ℕ
  girgOnly : ℕ
  scaling : F
  girgEdges : ℕ

/-- the lambda `diff`, inclusion_single main.cpp:148-160: it prints `row` and returns `sub` -/
def SingleDiff (m : Machine F) (weights : List F) (positions : List (List F)) (hrg : List Edge) (desired : F) (sub : List Edge × List Edge)
    (row : Row F) : Prop :=
  ∃ scaling edges, GirgPart m 1 weights positions desired scaling edges ∧
  ∃ g, createReverseEdges (intEdges edges) = some g ∧ ∃ sorted, Sorted g sorted ∧ sub = edgeDiff hrg sorted ∧
    row = ⟨desired, sub.1.length / 2, sub.2.length / 2, scaling, sorted.length / 2⟩

/-- the first loop, inclusion_single main.cpp:167-171: started with `high`, it ends after printing `rows` -/
inductive SearchUp (diff : F → List Edge × List Edge → Row F → Prop) (deg step : F) : F → List (Row F) → Prop
  | stop {high sub row} : diff (deg +. high) sub row → sub.1 = [] → SearchUp diff deg step high [row]
  | next {high sub row rows} : diff (deg +. high) sub row → sub.1 ≠ [] → SearchUp diff deg step (high +. step) rows →
      SearchUp diff deg step high (row :: rows)

/-- the second loop, inclusion_single main.cpp:174-178 -/
inductive SearchDown (diff : F → List Edge × List Edge → Row F → Prop) (deg step : F) : F → List (Row F) → Prop
  | stop {low sub row} : diff (deg +. low) sub row → sub.2 = [] → SearchDown diff deg step low [row]
  | next {low sub row rows} : diff (deg +. low) sub row → sub.2 ≠ [] → SearchDown diff deg step (low -. step) rows →
      SearchDown diff deg step low (row :: rows)

/-- the main part, inclusion_single main.cpp:125-178 -/
def SingleRun (m : Machine F) (c : SingleConfig F) (rows : List (Row F)) : Prop :=
  ∃ R radii angles edges, Radius.calculateRadius c.n c.alpha (ofRat 0) c.deg = some R ∧ HrgPart m 1 c.n c.alpha R c.rseed c.aseed radii angles edges ∧
  ∃ g, createReverseEdges (intEdges edges) = some g ∧ ∃ hrg, Sorted g hrg ∧
  ∃ ups downs, SearchUp (SingleDiff m (girgWeights radii R) (girgPositions angles) hrg) c.deg c.step c.odeg ups ∧
    SearchDown (SingleDiff m (girgWeights radii R) (girgPositions angles) hrg) c.deg c.step (c.odeg -. c.step) downs ∧ rows = ups ++ downs

/-- `main` of inclusion_single, main.cpp:89-181: some execution ends with `exit` and has printed `rows` -/
def SingleMain (m : Machine F) (argv : List String) (exit : Exit) (rows : List (Row F)) : Prop :=
  if wantsHelp argv then exit = .help ∧ rows = []
  else match readSingle m (parseArgs argv) with
    | none => exit = .badNumber ∧ rows = []
    | some c => match checkSingle c with
      | some name => exit = .outOfRange name ∧ rows = []
      | none => exit = .done ∧ SingleRun m c rows

/-! ### inclusion_range -/

/-- the parameters of inclusion_range -/
structure RangeConfig (F : Type) where
  n1 : Int
  n2 : Int
  alpha : F
  deg : Int
  rseed : Int
  aseed : Int
  reps : Int
  para : Int

/-- inclusion_range main.cpp:103-111; `none`: a conversion threw -/
def readRange (m : Machine F) (p : Params) : Option (RangeConfig F) := do
  let n1 ← getOr m.stoi p "n1" 4096
  let n2 ← getOr m.stoi p "n2" 2097152
  let alpha ← getOr m.stod p "alpha" (ofRat (3 / 4))
  let deg ← getOr m.stoi p "deg" 100
  let rseed ← getOr m.stoi p "rseed" 12
  let aseed ← getOr m.stoi p "aseed" 130
  let reps ← getOr m.stoi p "reps" 50
  let para ← getOr m.stoi p "para" 4
  some ⟨n1, n2, alpha, deg, rseed, aseed, reps, para⟩

/-- the range checks, inclusion_range main.cpp:117-122.  Simplification: `n1 - 1` does not overflow (undefined for `n1 = -2^31`). -/
def checkRange (c : RangeConfig F) : Option String :=
  if rangeFails c.alpha (ofRat (1 / 2)) (ofRat 1) false false then some "alpha"
  else if rangeFailsInt c.deg 1 (c.n1 - 1) false false then some "deg"
  else if rangeFailsInt c.reps 0 100000 false false then some "reps"
  else if rangeFailsInt c.para 1 8 false false then some "para"
  else none

/-- the lambda `diff`, inclusion_range main.cpp:153-165: sizes of the two differences.  Simplification: lists of `2^31` and more edges are excluded (their
sizes are counted in `int`s). -/
def RangeDiff (m : Machine F) (threads : ℕ) (weights : List F) (positions : List (List F)) (hrg : List Edge) (desired : F) (sub : ℕ × ℕ) : Prop :=
  ∃ scaling edges, GirgPart m threads weights positions desired scaling edges ∧
  ∃ sorted, Sorted (unifyEdges (intEdges edges)) sorted ∧ hrg.length < 2147483648 ∧ sorted.length < 2147483648 ∧ sub = edgeDiffCount hrg sorted

/-- `while (high - low > 0.5) …`, inclusion_range main.cpp:170-177 (with `pick sub := sub.first != 0`) and 184-191 (with `pick sub := sub.second == 0`): if
`pick sub` the lower bound moves to the middle, else the upper one.  The loop ends with the bounds `lo'` and `hi'`; `trace` lists the degrees tried with
the results of `diff`. -/
inductive Bisect (diff : F → ℕ × ℕ → Prop) (pick : ℕ × ℕ → Bool) : F → F → F → F → List (F × (ℕ × ℕ)) → Prop
  | stop {lo hi} : ((ofRat (1 / 2) : F) <. (hi -. lo)) = false → Bisect diff pick lo hi lo hi []
  | up {lo hi lo' hi' sub trace} : ((ofRat (1 / 2) : F) <. (hi -. lo)) = true → diff ((lo +. hi) /. ofRat 2) sub → pick sub = true →
      Bisect diff pick ((lo +. hi) /. ofRat 2) hi lo' hi' trace → Bisect diff pick lo hi lo' hi' (((lo +. hi) /. ofRat 2, sub) :: trace)
  | down {lo hi lo' hi' sub trace} : ((ofRat (1 / 2) : F) <. (hi -. lo)) = true → diff ((lo +. hi) /. ofRat 2) sub → pick sub = false →
      Bisect diff pick lo ((lo +. hi) /. ofRat 2) lo' hi' trace → Bisect diff pick lo hi lo' hi' (((lo +. hi) /. ofRat 2, sub) :: trace)

/-- a line of the output -/
inductive Line (F : Type) where
  /-- `WARNING: default deg no high diff`, inclusion_range main.cpp:178 -/
  | warnHigh
  /-- `WARNING: default deg no low diff`, inclusion_range main.cpp:192 -/
  | warnLow
  /-- inclusion_range main.cpp:204-209 -/
  | row (n : Int) (hrgDeg low high : F) (rep : ℕ)

/-- one call of `deg_low_high(n)` and the output of its result, inclusion_range main.cpp:133-209 -/
def RangeCall (m : Machine F) (c : RangeConfig F) (rep : ℕ) (n : Int) (lines : List (Line F)) : Prop :=
  ∃ rs as R radii angles edges, int32 (c.rseed + rep) = some (c.rseed + rep) ∧ int32 (c.aseed + rep) = some (c.aseed + rep) ∧
  int32 (c.rseed + rep + n) = some rs ∧ int32 (c.aseed + rep + n) = some as ∧
  Radius.LikeNetworKit m.ndebug n c.alpha (ofRat 0) (ofInt c.deg) R ∧ HrgPart m c.para.toNat n c.alpha R rs as radii angles edges ∧
  ∃ hrg, Sorted (unifyEdges (intEdges edges)) hrg ∧
  let hrgDeg : F := ofNat edges.length *. ofRat 2 /. ofInt n
  let diff := RangeDiff m c.para.toNat (girgWeights radii R) (girgPositions angles) hrg
  ∃ l1 h1 t1, Bisect diff (fun sub => sub.1 != 0) hrgDeg (ofRat 2 *. hrgDeg) l1 h1 t1 ∧
  ∃ l2 h2 t2, Bisect diff (fun sub => sub.2 == 0) (ofRat (1 / 2) *. hrgDeg) (hrgDeg *. ofRat (6 / 5)) l2 h2 t2 ∧
    lines = (if CFloat.eq l1 hrgDeg then [.warnHigh] else []) ++ (if CFloat.eq h2 (hrgDeg *. ofRat (6 / 5)) then [.warnLow] else []) ++
      [.row n hrgDeg ((l2 +. h2) /. ofRat 2) ((l1 +. h1) /. ofRat 2) rep]

/-- `for (int n = n1; n <= n2; n <<= 1)`, inclusion_range main.cpp:200-210.  Simplification: a shift out of the range of `int` has no result. -/
inductive SizeLoop (call : Int → List (Line F) → Prop) (n2 : Int) : Int → List (Line F) → Prop
  | stop {n} : n2 < n → SizeLoop call n2 n []
  | next {n n' lines rest} : n ≤ n2 → call n lines → int32 (2 * n) = some n' → SizeLoop call n2 n' rest → SizeLoop call n2 n (lines ++ rest)

/-- the loop over the repetitions, inclusion_range main.cpp:130-212: the repetitions `rep`, …, with `k` of them left -/
inductive RepLoop (body : ℕ → List (Line F) → Prop) : ℕ → ℕ → List (Line F) → Prop
  | stop {rep} : RepLoop body rep 0 []
  | next {rep k lines rest} : body rep lines → RepLoop body (rep + 1) k rest → RepLoop body rep (k + 1) (lines ++ rest)

/-- `main` of inclusion_range, main.cpp:86-215: some execution ends with `exit` and has printed `lines` below the header -/
def RangeMain (m : Machine F) (argv : List String) (exit : Exit) (lines : List (Line F)) : Prop :=
  if wantsHelp argv then exit = .help ∧ lines = []
  else match readRange m (parseArgs argv) with
    | none => exit = .badNumber ∧ lines = []
    | some c => match checkRange c with
      | some name => exit = .outOfRange name ∧ lines = []
      | none => exit = .done ∧ RepLoop (fun rep l => SizeLoop (RangeCall m c rep) c.n2 c.n1 l) 0 c.reps.toNat lines

end Inclusion
end Girgs
