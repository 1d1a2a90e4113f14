import Verif.Model.AngleHelper
import Verif.Model.HPoint
import Mathlib.Data.Nat.Find
/-
Model of source/hypergirgs/include/hypergirgs/RadiusLayer.h.
-/
namespace Girgs
open CFloat

/-- `RadiusLayer`, RadiusLayer.h:89-97: radial bounds, target level, and the offset of the pointer `m_prefix_sums` into the
shared index array (`first_in_cell.data() + first_cell_of_layer[layer]`, RadiusLayer.cpp:194); `m_base` is always the start of
the shared point array. -/
structure RadiusLayer (F : Type) where
  rMin : F
  rMax : F
  target : Nat
  off : Nat

namespace RadiusLayer
variable {F : Type} [CFloat F]

/-- `levelledCell(cell, level)`, RadiusLayer.h:71-86. -/
def levelledCell (rl : RadiusLayer F) (cell level : Nat) : Option (Nat × Nat) := do
  let descendants ← Angle.numCellsInLevel (subU rl.target level)
  let first ← Angle.firstCellOfLevel level
  let localIndexCell := subU cell first
  let begin_ := u32 (localIndexCell * descendants)
  let end_ := subU (u32 (begin_ + descendants)) 1
  some (begin_, end_)

/-- `cellIterators(cell, level)`, RadiusLayer.h:38-45, as positions in the point array. -/
def cellIterators (firstInCell : List Nat) (rl : RadiusLayer F) (cell level : Nat) : Option (Nat × Nat) := do
  let be ← levelledCell rl cell level
  let b ← rd firstInCell (rl.off + be.1)
  let e ← rd firstInCell (rl.off + u32 (be.2 + 1))
  some (b, e)

/-- `pointsInCell(cell, level)`, RadiusLayer.h:25-31. -/
def pointsInCell (firstInCell : List Nat) (rl : RadiusLayer F) (cell level : Nat) : Option Nat := do
  let be ← levelledCell rl cell level
  let e ← rd firstInCell (rl.off + u32 (be.2 + 1))
  let b ← rd firstInCell (rl.off + be.1)
  some (subU e b)

/-- position of `kthPoint(cell, level, k)` in the point array, RadiusLayer.h:33-36 -/
def kthPos (firstInCell : List Nat) (rl : RadiusLayer F) (cell level k : Nat) : Option Nat := do
  let be ← levelledCell rl cell level
  let b ← rd firstInCell (rl.off + be.1)
  some (b + k)

/-- `cellDiameter` in the `level`-th test of the loop of `partitioningBaseLevel`, RadiusLayer.h:60-64 -/
def cellDiameter : Nat → F
  | 0 => ofRat 2 *. CFloat.pi
  | level + 1 => cellDiameter level /. ofRat 2

/-- the loop condition of `partitioningBaseLevel` in its `level`-th test, RadiusLayer.h:62 -/
def pblCond (r1 r2 R : F) (level : Nat) : Bool :=
  R <. hyperbolicDistance r1 (ofRat 0) r2 (cellDiameter level /. ofRat 2)

open Classical in
/-- `partitioningBaseLevel(r1, r2, R)`, RadiusLayer.h:56-67: the number of times the loop body is executed, i.e. the first
level at which the loop condition is false; `none` if the loop does not end. -/
noncomputable def partitioningBaseLevel (r1 r2 R : F) : Option Nat :=
  if h : ∃ level, pblCond r1 r2 R level = false then some (Nat.find h) else none

end RadiusLayer
end Girgs
