import Verif.Base.Machine
import Verif.Base.CFloat
import Verif.Model.BitManipulation
/-
Model of source/girgs/include/girgs/SpatialTreeCoordinateHelper.h and .inl.
Cells are `unsigned int` values (`Nat` below 2^32, arithmetic reduced by `u32`).  The portable `BitManipulation`
implementation is used; C03 shows that the BMI2 one agrees with it.
-/
namespace Girgs.Coord
open CFloat

/-- `numChildren()`, SpatialTreeCoordinateHelper.h:12-14. -/
def numChildren (D : Nat) : Option Nat := shl1u D

/-- `numCellsInLevel(level)`, SpatialTreeCoordinateHelper.h:16-18. -/
def numCellsInLevel (D level : Nat) : Option Nat := shl1u (u32 (D * level))

/-- `firstCellOfLevel(level)`, SpatialTreeCoordinateHelper.h:20-22. -/
def firstCellOfLevel (D level : Nat) : Option Nat := do
  let p ← shl1u (u32 (D * level))
  let c ← numChildren D
  -- division by zero (D = 0) is undefined
  if subU c 1 = 0 then none else some (subU p 1 / subU c 1)

/-- `parent(cell)`, SpatialTreeCoordinateHelper.h:24-26. -/
def parent (D cell : Nat) : Option Nat := do
  let c ← numChildren D
  some (subU cell 1 / c)

/-- `firstChild(cell)`, SpatialTreeCoordinateHelper.h:28-30. -/
def firstChild (D cell : Nat) : Option Nat := do
  let c ← numChildren D
  some (u32 (u32 (c * cell) + 1))

/-- `lastChild(cell)`, SpatialTreeCoordinateHelper.h:32-34. -/
def lastChild (D cell : Nat) : Option Nat := do
  let f ← firstChild D cell
  let c ← numChildren D
  some (subU (u32 (f + c)) 1)

/-- `assertLower` (GNU/clang branch), SpatialTreeCoordinateHelper.inl:10-24: `__builtin_clz(x)` of a non-zero 32 bit
word is `31 - ⌊log2 x⌋`; the result is `(1llu << (32 - clz)) - 1` narrowed to 32 bits. -/
def assertLower (x : Nat) : Nat := if x = 0 then 0 else u32 (2 ^ (32 - (31 - Nat.log2 x)) - 1)

/-- `assertLower` (portable branch), SpatialTreeCoordinateHelper.inl:18-23. -/
def assertLowerPortable (x : Nat) : Nat :=
  let x := x ||| x >>> 1
  let x := x ||| x >>> 2
  let x := x ||| x >>> 4
  let x := x ||| x >>> 8
  x ||| x >>> 16

/-- `cellOfLevel(cell)`, SpatialTreeCoordinateHelper.inl:8-35. (`>>= D` is undefined for `D ≥ 32`.) -/
def cellOfLevel (D cell : Nat) : Option Nat :=
  let first := Bits.kEveryDthBit D &&& assertLower cell
  if cell < first then
    (if D < 32 then some (subU cell (first >>> D)) else none)
  else some (subU cell first)

/-- the coordinates `BitManipulation<D>::extract(cellOfLevel(cell))` used by `bounds`, `touching` and `dist` -/
def coordsOf (D cell : Nat) : Option (Coords D) := do
  let c ← cellOfLevel D cell
  some (Bits.extract D (BitVec.ofNat 32 c))

/-- One iteration of the loops in `touching` and `dist`, SpatialTreeCoordinateHelper.inl:67-68 and 83-84:
`dist = abs((int)a - (int)b); dist = min(dist, (1<<level) - dist)`. -/
def axisDist (a b : BitVec 32) (level : Nat) : Option Int := do
  let s ← int32 (a.toInt - b.toInt)
  let d ← int32 (s.natAbs : Int)
  let w ← shl1 level
  let e ← int32 (w - d)
  some (imin d e)

/-- `touching(cellA, cellB, level)`, SpatialTreeCoordinateHelper.inl:60-73. -/
def touching (D cellA cellB level : Nat) : Option Bool := do
  let a ← coordsOf D cellA
  let b ← coordsOf D cellB
  (List.finRange D).foldlM (fun t d => do
    let dist ← axisDist (a d) (b d) level
    some (t && decide (dist ≤ 1))) true

/-- the integer part of `dist(cellA, cellB, level)`, SpatialTreeCoordinateHelper.inl:78-86 -/
def distInt (D cellA cellB level : Nat) : Option Int := do
  let a ← coordsOf D cellA
  let b ← coordsOf D cellB
  (List.finRange D).foldlM (fun r d => do
    let dist ← axisDist (a d) (b d) level
    some (imax r dist)) 0

variable {F : Type} [CFloat F]

/-- `dist(cellA, cellB, level)`, SpatialTreeCoordinateHelper.inl:75-91: `max(0.0, (result-1) * (1.0 / (1<<level)))`. -/
def dist (D cellA cellB level : Nat) : Option F := do
  let r ← distInt D cellA cellB level
  let w ← shl1 level
  let diameter : F := ofRat 1 /. ofInt w
  some (fmax (ofRat 0) (ofInt (r - 1) *. diameter))

/-- `bounds(cell, level)`, SpatialTreeCoordinateHelper.inl:37-47 (`coord[d]+1` is `unsigned`). -/
def bounds (D cell level : Nat) : Option (Fin D → F × F) := do
  let w ← shl1 level
  let diameter : F := ofRat 1 /. ofInt w
  let c ← coordsOf D cell
  some (fun d => (ofNat (c d).toNat *. diameter, ofNat (u32 ((c d).toNat + 1)) *. diameter))

/-- collect per-dimension results of a loop that may be undefined in one of its iterations -/
def tupleM {α : Type} (D : Nat) (f : Fin D → Option α) : Option (Fin D → α) :=
  if h : ∀ d, (f d).isSome then some (fun d => (f d).get (h d)) else none

/-- `cellForPoint(position, targetLevel)`, SpatialTreeCoordinateHelper.inl:49-58. -/
def cellForPoint (D : Nat) (position : Fin D → F) (targetLevel : Nat) : Option Nat := do
  let w ← shl1 targetLevel
  let diameter : F := ofInt w
  let coords ← tupleM D (fun d => toU32 (position d *. diameter))
  some (Bits.deposit D (fun d => BitVec.ofNat 32 (coords d))).toNat

end Girgs.Coord
