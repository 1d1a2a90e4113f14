import Verif.Base.CFloat
import Verif.Base.Machine
/-
Model of source/girgs/source/WeightScaling.cpp and of `girgs::scaleWeights`, source/girgs/source/Generator.cpp:56-70.
-/
namespace Girgs
open CFloat
variable {F : Type} [CFloat F]

namespace CFloat
/-- `a >= b` on `double` (false if an operand is NaN) -/
def ge (a b : F) : Bool := (b <. a) || CFloat.eq a b
/-- `std::numeric_limits<double>::max()` -/
def dblMax : F := CFloat.ofRat (((2 ^ 53 - 1) * 2 ^ 971 : Nat) : ℚ)
/-- `std::numeric_limits<double>::lowest()` -/
def dblLowest : F := CFloat.ofRat (-(((2 ^ 53 - 1) * 2 ^ 971 : Nat) : ℚ))
/-- `std::numeric_limits<double>::min()`, the smallest positive normal number -/
def dblMin : F := CFloat.ofRat (1 / ((2 ^ 1022 : Nat) : ℚ))
end CFloat

namespace Scaling

/-! ### exponentialSearch, WeightScaling.cpp:13-40

`f` may have side effects on a state `S` (the lazily sorted weights); `none` is undefined behaviour or a failed assertion.
The loops need not terminate, so the search is a state machine executed with fuel. -/

/-- which loop of `exponentialSearch` is running: lines 18-21, lines 24-27, lines 31-37 (with the value of `mid`) -/
inductive Phase (F : Type) where
  | grow
  | shrink
  | bisect (mid : F)

/-- the local variables of `exponentialSearch` and the state of `f` -/
structure Search (F S : Type) where
  phase : Phase F
  lower : F
  upper : F
  st : S

/-- the state of an execution -/
inductive Outcome (F S : Type) where
  | running (s : Search F S)
  | returned (c : F) (st : S)
  | undefined

/-- `(upper + lower) / 2`, WeightScaling.cpp:30,33,35,36,39 -/
def midpoint (s : Search F S) : F := (s.upper +. s.lower) /. CFloat.ofRat 2

/-- evaluation of `mid = f((upper + lower) / 2)`, WeightScaling.cpp:30,36 -/
def enterBisect (f : F → S → Option (F × S)) (s : Search F S) : Outcome F S :=
  match f (midpoint s) s.st with
  | none => .undefined
  | some (mid, st) => .running { s with phase := .bisect mid, st := st }

/-- one loop test and, if it holds, one iteration; WeightScaling.cpp:18-37 -/
def step (f : F → S → Option (F × S)) (desired accuracy : F) (s : Search F S) : Outcome F S :=
  match s.phase with
  | .grow =>                                            -- lines 18-21
    match f s.upper s.st with
    | none => .undefined
    | some (v, st) =>
      if v <. desired then .running { s with lower := s.upper, upper := s.upper *. CFloat.ofRat 2, st := st }
      else .running { s with phase := .shrink, st := st }
  | .shrink =>                                          -- lines 24-30
    match f s.lower s.st with
    | none => .undefined
    | some (v, st) =>
      if desired <. v then .running { s with upper := s.lower, lower := s.lower /. CFloat.ofRat 2, st := st }
      else enterBisect f { s with st := st }
  | .bisect mid =>                                      -- lines 31-39
    if accuracy <. CFloat.abs (mid -. desired) then
      if mid <. desired then enterBisect f { s with lower := midpoint s }
      else enterBisect f { s with upper := midpoint s }
    else .returned (midpoint s) s.st

/-- `k` steps -/
def run (f : F → S → Option (F × S)) (desired accuracy : F) : Nat → Outcome F S → Outcome F S
  | 0, o => o
  | k + 1, .running s => run f desired accuracy k (step f desired accuracy s)
  | _ + 1, o => o

/-- the state at the call, with the default arguments `accuracy = 0.02`, `lower = 1.0`, `upper = 2.0` of lines 14-15 -/
def start (st : S) : Outcome F S := .running ⟨.grow, CFloat.ofRat 1, CFloat.ofRat 2, st⟩

/-- default argument, WeightScaling.cpp:14 -/
def accuracy : F := CFloat.ofRat (2 / 100)

/-- `exponentialSearch(f, desired)` returns `c` -/
def Returns (f : F → S → Option (F × S)) (desired : F) (st : S) (c : F) : Prop :=
  ∃ k st', run f desired accuracy k (start st) = .returned c st'

/-- `exponentialSearch(f, desired)` runs forever -/
def Diverges (f : F → S → Option (F × S)) (desired : F) (st : S) : Prop :=
  ∀ k, ∃ s, run f desired accuracy k (start st) = .running s

/-! ### LazySorter, WeightScaling.cpp:43-82 -/

/-- `operator<` on the elements of `l` is a strict weak ordering, as `std::sort` requires (no NaN) -/
structure StrictWeakOn (l : List F) : Prop where
  irrefl : ∀ a ∈ l, (a <. a) = false
  trans : ∀ a ∈ l, ∀ b ∈ l, ∀ c ∈ l, (a <. b) = true → (b <. c) = true → (a <. c) = true
  incomp : ∀ a ∈ l, ∀ b ∈ l, ∀ c ∈ l, (a <. b) = false → (b <. c) = false → (a <. c) = false

/-- `std::partition` and `std::sort(.., std::greater<double>())` of the standard library: any implementation with the
guarantees of the C++ standard.  (If the elements are not strictly weakly ordered, `std::sort` is undefined; here it is
some permutation and no theorem says more.) -/
structure StdAlg (F : Type) [CFloat F] where
  partition : (F → Bool) → List F → List F × List F
  partition_perm : ∀ p l, ((partition p l).1 ++ (partition p l).2).Perm l
  partition_left : ∀ p l, ∀ x ∈ (partition p l).1, p x = true
  partition_right : ∀ p l, ∀ x ∈ (partition p l).2, p x = false
  sort : List F → List F
  sort_perm : ∀ l, (sort l).Perm l
  sort_sorted : ∀ l, StrictWeakOn l → (sort l).Pairwise fun a b => (a <. b) = false

/-- `std::is_sorted(begin, end, std::greater<double>())` -/
def isSortedDesc : List F → Bool
  | a :: b :: l => !(a <. b) && isSortedDesc (b :: l)
  | _ => true

/-- `class LazySorter`, WeightScaling.cpp:44-82: `vec` is the referenced vector `m_sweights`, `sortedEnd` the position of
the iterator `m_sorted_end` -/
structure LazySorter (F : Type) where
  vec : List F
  sortedEnd : Nat
  lower : F

/-- constructor, WeightScaling.cpp:48-50,81 -/
def LazySorter.new (vec : List F) : LazySorter F := ⟨vec, 0, dblMax⟩

/-- `sort_downto`, WeightScaling.cpp:52-75.  Returns the new state and the returned position; `none` if an assertion fails
(debug build only).  `std::lower_bound` (line 71) returns the partition point of a range that is partitioned with respect
to `x > thresh`. -/
def LazySorter.sortDownto (alg : StdAlg F) (ndebug : Bool) (s : LazySorter F) (thresh : F) : Option (LazySorter F × Nat) :=
  if thresh <. s.lower then
    if ndebug = false ∧ s.sortedEnd = s.vec.length then none else       -- line 56
    let parts := alg.partition (fun x => ge x thresh) (s.vec.drop s.sortedEnd)
    if parts.1.length = 0 then
      some ({ s with vec := s.vec.take s.sortedEnd ++ (parts.1 ++ parts.2) }, s.sortedEnd)   -- line 60
    else
      let vec := s.vec.take s.sortedEnd ++ (alg.sort parts.1 ++ parts.2)
      if ndebug = false ∧ isSortedDesc (vec.take s.sortedEnd) = false then none else     -- line 63
      let e := s.sortedEnd + parts.1.length
      some (⟨vec, e, if e = vec.length then dblMin else thresh⟩, e)
  else
    some (s, ((s.vec.take s.sortedEnd).takeWhile fun x => thresh <. x).length)

/-- a sequence of calls of `sort_downto` with the thresholds `ts`; returns the final state and the returned positions
(WeightScaling.cpp:113,219: one call per evaluation of the searched function) -/
def LazySorter.queries (alg : StdAlg F) (ndebug : Bool) (s : LazySorter F) : List F → Option (LazySorter F × List Nat)
  | [] => some (s, [])
  | t :: ts => do
    let (s, p) ← s.sortDownto alg ndebug t
    let (s, ps) ← s.queries alg ndebug ts
    some (s, p :: ps)

/-- evaluation of the searched function at the points `cs`, one after the other; returns the values -/
def evaluations (f : F → S → Option (F × S)) : S → List F → Option (List F)
  | _, [] => some []
  | st, c :: cs => do
    let (v, st) ← f c st
    let vs ← evaluations f st cs
    some (v :: vs)

/-! ### OpenMP reductions, WeightScaling.cpp:94-105,185-202

`part` is the partition of the iterations among the threads, in the order in which the private copies are combined. -/

/-- `reduction(+:x)` of `x += g(i)` with initial value `0.0` -/
def ompSum (part : List (List Nat)) (g : Nat → F) : F :=
  part.foldl (fun acc chunk => acc +. chunk.foldl (fun a i => a +. g i) (CFloat.ofRat 0)) (CFloat.ofRat 0)

/-- `reduction(max:x)` of `x = std::max(x, g(i))` with initial value `0.0`: private copies start at the lowest value -/
def ompMax (part : List (List Nat)) (g : Nat → F) : F :=
  part.foldl (fun acc chunk => fmax acc (chunk.foldl (fun a i => fmax a (g i)) dblLowest)) (CFloat.ofRat 0)

/-- `weights[i]`, in range in every use -/
def wAt (weights : List F) (i : Nat) : F := weights.getD i (CFloat.ofRat 0)

/-! ### estimateWeightScalingThreshold, WeightScaling.cpp:84-161 -/

/-- `for(; w2 < richclub_end && *w2 >= my_thres; w2sum += *(w2++));`, WeightScaling.cpp:128; `fuel` is the number of
elements from `w2` to `richclub_end` -/
def advance (w : List F) (thr : F) : Nat → F → Nat → Option (F × Nat)
  | 0, w2sum, i2 => some (w2sum, i2)
  | fuel + 1, w2sum, i2 => do
    let x ← rd w i2
    if ge x thr then advance w thr fuel (w2sum +. x) (i2 + 1) else some (w2sum, i2)

/-- the loop of WeightScaling.cpp:121-143; the first number is the number of iterations left, `w1 - sweights.begin()` -/
def errorLoop (w : List F) (W pow2c : F) (re : Nat) : Nat → F → F → Nat → Option F
  | 0, error, _, _ => some error
  | i1 + 1, error, w2sum, i2 => do
    let x ← rd w i1
    let fac := x /. W
    let thr := CFloat.ofRat 1 /. fac /. pow2c
    let (w2sum, i2) ← advance w thr (re - i2) w2sum i2
    let error := error +. (w2sum *. pow2c *. fac -. CFloat.ofNat i2)
    let error := if i1 ≤ i2 then error -. (pow2c *. fac *. x -. CFloat.ofRat 1) else error
    errorLoop w W pow2c re i1 error w2sum i2

/-- the lambda `f`, WeightScaling.cpp:108-146 -/
def thresholdDegree (alg : StdAlg F) (ndebug : Bool) (n dimension : Nat) (W sqW maxWeight : F) (c : F) (s : LazySorter F) :
    Option (F × LazySorter F) := do
  let pow2c := CFloat.pow (CFloat.ofRat 2 *. c) (CFloat.ofNat dimension)
  let overestimation := pow2c *. (W -. sqW /. W)
  let (s, re) ← s.sortDownto alg ndebug (W /. pow2c /. maxWeight)
  if ndebug = false ∧ ¬ re ≤ s.vec.length then none else                  -- line 116
  let error ← errorLoop s.vec W pow2c re re (CFloat.ofRat 0) (CFloat.ofRat 0) 0
  some ((overestimation -. error) /. CFloat.ofNat n, s)

/-- the function `f` for the given weights: WeightScaling.cpp:86-108 -/
def thresholdFn (alg : StdAlg F) (ndebug : Bool) (part : List (List Nat)) (weights : List F) (dimension : Nat) :
    F → LazySorter F → Option (F × LazySorter F) :=
  thresholdDegree alg ndebug weights.length dimension (ompSum part (wAt weights))
    (ompSum part fun i => wAt weights i *. wAt weights i) (ompMax part (wAt weights))

/-- `estimateWeightScalingThreshold(weights, desired, dimension)` returns `r`, WeightScaling.cpp:85-161 -/
def EstimateThreshold (alg : StdAlg F) (ndebug : Bool) (part : List (List Nat)) (weights : List F) (desired : F)
    (dimension : Nat) (r : F) : Prop :=
  ∃ c, Returns (thresholdFn alg ndebug part weights dimension) desired (LazySorter.new weights) c ∧
    r = CFloat.pow c (CFloat.ofNat dimension)

/-! ### estimateWeightScaling, WeightScaling.cpp:164-282 -/

/-- state of the lambda `f`: the lazy sorter and the vector `pow_weights` -/
structure AlphaState (F : Type) where
  sorter : LazySorter F
  powWeights : List F

/-- `while(pow_weights.size() < num_richclub) pow_weights.push_back(std::pow(sweights[pow_weights.size()], alpha));`,
WeightScaling.cpp:228-230; the first number is the number of missing elements -/
def growPows (w : List F) (alpha : F) : Nat → List F → Option (List F)
  | 0, pw => some pw
  | k + 1, pw => do
    let x ← rd w pw.length
    growPows w alpha k (pw ++ [CFloat.pow x alpha])

/-- WeightScaling.cpp:245-248 -/
def advanceA (w pw : List F) (thr : F) : Nat → F → F → Nat → Option (F × F × Nat)
  | 0, s, sa, i2 => some (s, sa, i2)
  | fuel + 1, s, sa, i2 => do
    let x ← rd w i2
    if ge x thr then
      let xa ← rd pw i2
      advanceA w pw thr fuel (s +. x) (sa +. xa) (i2 + 1)
    else some (s, sa, i2)

/-- a value of type `size_t` (arithmetic modulo 2^64) -/
def sizeT (x : Nat) : Nat := x % 18446744073709551616

/-- the accumulators of WeightScaling.cpp:235-241; `numTerms` is a `size_t` -/
structure Terms (F : Type) where
  i2 : Nat
  w2sum : F
  w2alphaSum : F
  wTerms : F
  wAlphaTerms : F
  numTerms : Nat

/-- the loop of WeightScaling.cpp:243-259; the first number is `i1` at the loop test -/
def termLoop (w pw : List F) (W Walpha thresh : F) (re : Nat) : Nat → Terms F → Option (Terms F)
  | 0, t => some t
  | i1 + 1, t => do
    let x ← rd w i1
    let thr := thresh *. W /. x
    let (s, sa, i2) ← advanceA w pw thr (re - t.i2) t.w2sum t.w2alphaSum t.i2
    let xa ← rd pw i1
    let num := sizeT (t.numTerms + i2)
    let wt := t.wTerms +. x *. s /. W
    let wa := t.wAlphaTerms +. xa *. sa /. Walpha
    if i1 ≤ i2 then
      termLoop w pw W Walpha thresh re i1
        ⟨i2, s, sa, wt -. x *. x /. W, wa -. xa *. xa /. Walpha, sizeT (num + 18446744073709551615)⟩
    else
      termLoop w pw W Walpha thresh re i1 ⟨i2, s, sa, wt, wa, num⟩

/-- the lambda `f`, WeightScaling.cpp:214-267.  `two` is the value of `1 << dimension`.  The `long double` accumulator
`w2_alpha_sum` is modelled as a `double`. -/
def alphaDegree (alg : StdAlg F) (ndebug : Bool) (n dimension : Nat) (alpha W maxWW factor1 factor2 Walpha two : F) (c : F)
    (s : AlphaState F) : Option (F × AlphaState F) := do
  let one : F := CFloat.ofRat 1
  let dim : F := CFloat.ofNat dimension
  let longAndShort := CFloat.pow c (one /. alpha) *. factor1 -. c *. factor2
  let richThresh := CFloat.exp (dim *. CFloat.log (CFloat.ofRat (1 / 2) /. CFloat.pow c (one /. alpha /. dim)) -. CFloat.log maxWW)
  let (sorter, re) ← s.sorter.sortDownto alg ndebug richThresh
  if re = 0 then some (longAndShort /. CFloat.ofNat n, { s with sorter := sorter }) else do
  if ndebug = false ∧ ¬ re ≤ n then none else do                       -- line 224
  let pw ← growPows sorter.vec alpha (re - s.powWeights.length) s.powWeights
  let thresh := CFloat.exp (CFloat.log (CFloat.ofRat (1 / 2)) *. dim -. CFloat.log c /. alpha)
  let zero : F := CFloat.ofRat 0
  let t ← termLoop sorter.vec pw W Walpha thresh re re ⟨0, zero, zero, zero, zero, 0⟩
  let shortError := two *. CFloat.pow c (one /. alpha) *. t.wTerms -. CFloat.ofNat t.numTerms
  let longError := c *. dim *. two /. (dim -. alpha *. dim) *.
    (CFloat.pow (CFloat.ofRat (1 / 2)) (dim -. alpha *. dim) *. t.wAlphaTerms -.
      CFloat.pow c (one /. alpha -. one) *. t.wTerms)
  some ((longAndShort -. shortError -. longError) /. CFloat.ofNat n, ⟨sorter, pw⟩)

/-- the function `f` for the given weights, WeightScaling.cpp:165-214; `1 << dimension` is undefined from dimension 31 on -/
def alphaFn (alg : StdAlg F) (ndebug : Bool) (part : List (List Nat)) (weights : List F) (dimension : Nat) (alpha : F) :
    F → AlphaState F → Option (F × AlphaState F) := fun c s => do
  if ndebug = false ∧ CFloat.eq alpha (CFloat.ofRat 1) = true then none else do          -- line 166
  let one : F := CFloat.ofRat 1
  let dim : F := CFloat.ofNat dimension
  let W := weights.foldl CFloat.add (CFloat.ofRat 0)
  let w := wAt weights
  let sumSqW := ompSum part fun i => w i *. (w i /. W)
  let sumWWWa := ompSum part fun i => CFloat.pow (w i) alpha
  let sumWa := ompSum part fun i => CFloat.pow (w i /. W) alpha
  let sumSqWa := ompSum part fun i => CFloat.pow (w i) alpha *. CFloat.pow (w i /. W) alpha
  let maxW := ompMax part w
  let sumWWWa := sumWWWa *. sumWa
  let two ← shl1 dimension
  let factor1 := (W -. sumSqW) *. (one +. one /. (alpha -. one)) *. CFloat.ofInt two
  let factor2 := CFloat.pow (CFloat.ofRat 2) (alpha *. dim) /. (alpha -. one) *. (sumWWWa -. sumSqWa)
  alphaDegree alg ndebug weights.length dimension alpha W (maxW /. W) factor1 factor2 (CFloat.pow W alpha)
    (CFloat.ofInt two) c s

/-- `estimateWeightScaling(weights, desired, dimension, alpha)` returns `r`, WeightScaling.cpp:165-282 -/
def EstimateAlpha (alg : StdAlg F) (ndebug : Bool) (part : List (List Nat)) (weights : List F) (desired : F)
    (dimension : Nat) (alpha r : F) : Prop :=
  ∃ c, Returns (alphaFn alg ndebug part weights dimension alpha) desired ⟨LazySorter.new weights, []⟩ c ∧
    r = CFloat.pow c (CFloat.ofRat 1 /. alpha)

/-! ### scaleWeights, Generator.cpp:56-70 -/

/-- how a call ends -/
inductive ScaleResult (F : Type) where
  | returned (scaling : F) (weights : List F)
  /-- the exception of Generator.cpp:64 -/
  | thrown (weights : List F)

/-- which branch of Generator.cpp:59-64 is taken -/
inductive Estimator where
  | threshold | general | throw
deriving DecidableEq

/-- Generator.cpp:59-64 -/
def estimatorFor (alpha : F) : Estimator :=
  if CFloat.ofRat 8 <. alpha then .threshold
  else if (CFloat.ofRat 0 <. alpha) && !(CFloat.eq alpha (CFloat.ofRat 1)) then .general
  else .throw

/-- `scaleWeights(weights, desired, dimension, alpha)` ends with `r`, Generator.cpp:56-70 -/
def ScaleWeights (alg : StdAlg F) (ndebug : Bool) (part : List (List Nat)) (weights : List F) (desired : F)
    (dimension : Nat) (alpha : F) (r : ScaleResult F) : Prop :=
  match estimatorFor alpha with
  | .threshold => ∃ s, EstimateThreshold alg ndebug part weights desired dimension s ∧
      r = .returned s (weights.map fun x => x *. s)
  | .general => ∃ s, EstimateAlpha alg ndebug part weights desired dimension alpha s ∧
      r = .returned s (weights.map fun x => x *. s)
  | .throw => r = .thrown weights

/-- `scaleWeights(weights, desired, dimension, alpha)` runs forever, Generator.cpp:56-70 -/
def ScaleWeightsDiverges (alg : StdAlg F) (ndebug : Bool) (part : List (List Nat)) (weights : List F) (desired : F)
    (dimension : Nat) (alpha : F) : Prop :=
  match estimatorFor alpha with
  | .threshold => Diverges (thresholdFn alg ndebug part weights dimension) desired (LazySorter.new weights)
  | .general => Diverges (alphaFn alg ndebug part weights dimension alpha) desired ⟨LazySorter.new weights, []⟩
  | .throw => False

end Scaling
end Girgs
