import Verif.Base.Machine
import Verif.Base.CFloat
/-
Model of source/hypergirgs/include/hypergirgs/Point.h and DistanceFilter.h.
-/
namespace Girgs
open CFloat
variable {F : Type} [CFloat F]

/-- `a <= b` on doubles -/
def fle (a b : F) : Bool := (a <. b) || CFloat.eq a b

/-- `hyperbolicDistance(r1, phi1, r2, phi2)`, Point.h:21-23. -/
def hyperbolicDistance (r1 phi1 r2 phi2 : F) : F :=
  CFloat.acosh (fmax (ofRat 1) (CFloat.cosh (r1 -. r2) +. (ofRat 1 -. CFloat.cos (phi1 -. phi2)) *. CFloat.sinh r1 *. CFloat.sinh r2))

/-- `Point`, Point.h:25-37 and 78-90.  (`radius` and `angle` exist in debug builds only, where they are used by assertions.) -/
structure HPoint (F : Type) where
  id : Nat
  cellId : Nat
  invsinh : F
  coth : F
  cosPhi : F
  sinPhi : F

namespace HPoint

/-- the constructor `Point(id, radius, angle, cell_id)`, Point.h:27-37 -/
def make (id : Nat) (radius angle : F) (cellId : Nat) : HPoint F :=
  { id := id, cellId := cellId, invsinh := ofRat 1 /. CFloat.sinh radius, coth := CFloat.cosh radius /. CFloat.sinh radius,
    cosPhi := CFloat.cos angle, sinPhi := CFloat.sin angle }

/-- `isDistanceBelowR(pt, coshR)`, Point.h:47-51. -/
def isDistanceBelowR (p q : HPoint F) (coshR : F) : Bool :=
  (p.coth *. q.coth -. coshR *. p.invsinh *. q.invsinh) <. (p.cosPhi *. q.cosPhi +. p.sinPhi *. q.sinPhi)

/-- `hyperbolicDistanceCosh(pt)`, Point.h:54-61. -/
def distCosh (p q : HPoint F) : F :=
  fmax (ofRat 1) ((p.coth *. q.coth -. p.cosPhi *. q.cosPhi -. p.sinPhi *. q.sinPhi) /. (p.invsinh *. q.invsinh))

/-- `hyperbolicDistance(pt)`, Point.h:64-66. -/
def dist (p q : HPoint F) : F := CFloat.acosh (distCosh p q)

end HPoint

/-- `DistanceFilter<100>`, DistanceFilter.h:17-18, 59 and 68-69. -/
structure DistFilter (F : Type) where
  maxProb : F
  stageWidth : F
  stages : List F

namespace DistFilter

/-- `invConnectionProb(p, R, T)`, DistanceFilter.h:64-66. -/
def invConnectionProb (p R T : F) : F := R +. ofRat 2 *. T *. CFloat.log (ofRat 1 /. p -. ofRat 1)

/-- the constructor `DistanceFilter(max_prob, R, T)`, DistanceFilter.h:31-40: entry 0 is infinity, entry 100 is 1, entry `i`
between is `cosh(invConnectionProb(max_prob / 100 * i, R, T))`. -/
def make (maxProb R T : F) : DistFilter F :=
  { maxProb := maxProb
    stageWidth := ofRat 100 /. maxProb
    stages := CFloat.inf :: ((List.range' 1 99).map fun i =>
      CFloat.cosh (invConnectionProb (maxProb /. ofRat 100 *. ofNat i) R T)) ++ [ofRat 1] }

/-- `coshDistForProb_upperBound(prob)`, DistanceFilter.h:44-48; an index outside of the array is undefined. -/
def upper (f : DistFilter F) (prob : F) : Option F := do
  let i ← toI32 (f.stageWidth *. prob)
  if i < 0 then none else rd f.stages i.toNat

/-- `coshDistForProb_lowerBound(prob)`, DistanceFilter.h:52-56. -/
def lower (f : DistFilter F) (prob : F) : Option F := do
  let i ← toI32 (CFloat.ceil (f.stageWidth *. prob))
  if i < 0 then none else rd f.stages i.toNat

end DistFilter
end Girgs
