import Verif.Base.CFloat
import Verif.Base.Machine
import Mathlib.Logic.Function.Iterate
/-
Model of the disk radius estimation in source/hypergirgs/source/Generator.cpp:17-80 and of the parameter conversions in
source/girgs/include/girgs/Hyperbolic.h.  Generic in the floating point type.
-/
namespace Girgs
namespace Radius
open CFloat
variable {F : Type} [CFloat F]

/-- `1 / PI` respectively `T / sin(PI * T)`, hypergirgs Generator.cpp:18 -/
def tempFactor (T : F) : F :=
  if CFloat.eq T (ofRat 0) then ofRat 1 /. CFloat.pi else T /. CFloat.sin (CFloat.pi *. T)

/-- `calculateRadius(n, alpha, T, deg)`, hypergirgs Generator.cpp:17-20.  `n * 2` is an `int` multiplication, undefined on overflow. -/
def calculateRadius (n : ℤ) (alpha T deg : F) : Option F := do
  let n2 ← int32 (n * 2)
  some (ofRat 2 *. CFloat.log
    ((((ofInt n2 *. alpha) *. alpha) *. tempFactor T) /. ((deg *. (alpha -. ofRat (1 / 2))) *. (alpha -. ofRat (1 / 2)))))

/-- `getExpectedDegree(n, alpha, R)`, hypergirgs Generator.cpp:23-30 -/
def getExpectedDegree (n alpha R : F) : F :=
  let gamma := (ofRat 2 *. alpha) +. ofRat 1
  let xi := (gamma -. ofRat 1) /. (gamma -. ofRat 2)
  let firstSumTerm := CFloat.exp (CFloat.neg R /. ofRat 2)
  let secondSumTerm := CFloat.exp (CFloat.neg alpha *. R) *.
    (((alpha *. (R /. ofRat 2)) *.
      ((((CFloat.pi /. ofRat 4) *. CFloat.pow (ofRat 1 /. alpha) (ofRat 2)) -. ((CFloat.pi -. ofRat 1) *. (ofRat 1 /. alpha))) +.
        (CFloat.pi -. ofRat 2))) -. ofRat 1)
  ((((ofRat 2 /. CFloat.pi) *. xi) *. xi) *. n) *. (firstSumTerm +. secondSumTerm)

/-- local variables of `searchTargetRadiusForColdGraphs` at the end of an iteration -/
structure Bracket (F : Type) where
  lower : F
  upper : F
  current : F

/-- state of an execution: before or between iterations, or returned -/
inductive Outcome (F : Type) where
  | running (b : Bracket F)
  | returned (R : F)
  /-- one of the assertions of lines 39-40 failed (only without `NDEBUG`) -/
  | aborted

/-- lines 33-36: the first guess -/
def firstGuess (n k alpha : F) : F :=
  let gamma := (ofRat 2 *. alpha) +. ofRat 1
  let xiInv := (gamma -. ofRat 2) /. (gamma -. ofRat 1)
  let v := ((k *. (CFloat.pi /. ofRat 2)) *. xiInv) *. xiInv
  ofRat 2 *. CFloat.log (n /. v)

/-- lines 33-40: the initial bounds and the two assertions -/
def start (ndebug : Bool) (n k alpha : F) : Outcome F :=
  let r := firstGuess n k alpha
  let lower := r /. ofRat 2
  let upper := r *. ofRat 2
  if ndebug || ((k <. getExpectedDegree n alpha lower) && (getExpectedDegree n alpha upper <. k)) then .running ⟨lower, upper, r⟩
  else .aborted

/-- one iteration of the loop, lines 41-50, including the test after it -/
def step (n k alpha epsilon : F) : Outcome F → Outcome F
  | .running b =>
    let cur := (b.lower +. b.upper) /. ofRat 2
    let currentK := getExpectedDegree n alpha cur
    let b' : Bracket F := if currentK <. k then ⟨b.lower, cur, cur⟩ else ⟨cur, b.upper, cur⟩
    if epsilon <. CFloat.abs (getExpectedDegree n alpha cur -. k) then .running b' else .returned cur
  | o => o

/-- the state after `i` iterations of `searchTargetRadiusForColdGraphs(n, k, alpha, epsilon)`, lines 32-52 -/
def searchState (ndebug : Bool) (n k alpha epsilon : F) (i : ℕ) : Outcome F := (step n k alpha epsilon)^[i] (start ndebug n k alpha)

/-- `searchTargetRadiusForColdGraphs` returns `R` -/
def SearchReturns (ndebug : Bool) (n k alpha epsilon R : F) : Prop := ∃ i, searchState ndebug n k alpha epsilon i = .returned R

/-- `getTargetRadius(n, m, alpha, T, epsilon)` returns `R`, lines 54-75.  (The value computed first for `T == 0` in line 61 is overwritten.) -/
def TargetRadius (ndebug : Bool) (n m alpha T epsilon R : F) : Prop :=
  let plexp := (ofRat 2 *. alpha) +. ofRat 1
  let target := (m /. n) *. ofRat 2
  let xiInv := (plexp -. ofRat 2) /. (plexp -. ofRat 1)
  if CFloat.eq T (ofRat 0) then SearchReturns ndebug n target alpha epsilon R
  else
    let beta := ofRat 1 /. T
    if T <. ofRat 1 then
      let Iinv := (beta /. CFloat.pi) *. CFloat.sin (CFloat.pi /. beta)
      let v := (((target *. Iinv) *. (CFloat.pi /. ofRat 2)) *. xiInv) *. xiInv
      R = ofRat 2 *. CFloat.log (n /. v)
    else
      let v := (((target *. (ofRat 1 -. beta)) *. CFloat.pow (CFloat.pi /. ofRat 2) beta) *. xiInv) *. xiInv
      R = (ofRat 2 *. CFloat.log (n /. v)) /. beta

/-- `calculateRadiusLikeNetworKit(n, alpha, T, deg)` returns `R`, lines 78-80, with the default `epsilon = 0.01` of line 54 -/
def LikeNetworKit (ndebug : Bool) (n : ℤ) (alpha T deg R : F) : Prop :=
  TargetRadius ndebug (ofInt n) ((ofRat (1 / 2) *. deg) *. ofInt n) alpha T (ofRat (1 / 100)) R

/-! ### source/girgs/include/girgs/Hyperbolic.h -/

/-- Hyperbolic.h:8 -/
def radiusToGirgWeight (r R : F) : F := CFloat.exp ((R -. r) /. ofRat 2)
/-- Hyperbolic.h:9 -/
def girgWeightToRadius (w R scaling : F) : F := R -. (ofRat 2 *. CFloat.log (w /. scaling))
/-- Hyperbolic.h:11.  `M_PI` is modelled as the constant `pi` of the floating point type. -/
def angleToGirgPosition (angle : F) : F := (angle /. ofRat 2) /. CFloat.pi
/-- Hyperbolic.h:12 -/
def girgPositionToAngle (position : F) : F := (position *. ofRat 2) *. CFloat.pi

end Radius
end Girgs
