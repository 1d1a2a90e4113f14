import Verif.Model.HPoint
/-
Model of source/benchmarks/math-benchmarks/main.cpp: the two versions of the edge decision (lines 65-101).  The timing loops are not modelled.
-/
namespace Girgs
namespace MathBench
open CFloat
variable {F : Type} [CFloat F]

/-- `EdgeProbNaive{T, R, maxProb}(a, b, uni_rnd)`, math-benchmarks/main.cpp:79-87; the points are given by radius and angle
(`POINT_WITH_ORIGINAL` is defined, so they are stored) -/
def naive (T R maxProb r1 phi1 r2 phi2 rnd : F) : Bool :=
  let dist := CFloat.acosh (fmax (ofRat 1) (CFloat.cosh (r1 -. r2) +. (ofRat 1 -. CFloat.cos (phi1 -. phi2)) *. CFloat.sinh r1 *. CFloat.sinh r2))
  let connectionProb := ofRat 1 /. (ofRat 1 +. CFloat.exp (ofRat (1 / 2) /. T *. (dist -. R)))
  rnd <. connectionProb /. maxProb

/-- `EdgeProbSimplified{T, R, maxProb}(a, b, uni_rnd)`, math-benchmarks/main.cpp:89-99 -/
def simplified (T R maxProb : F) (a b : HPoint F) (rnd : F) : Bool :=
  let scale := ofRat (1 / 2) /. T
  let dist := CFloat.acosh (fmax (ofRat 1) ((a.coth *. b.coth -. a.cosPhi *. b.cosPhi -. a.sinPhi *. b.sinPhi) /. (a.invsinh *. b.invsinh)))
  let connectionProb := ofRat 1 +. CFloat.exp (scale *. (dist -. R))
  rnd *. maxProb *. connectionProb <. ofRat 1

end MathBench
end Girgs
