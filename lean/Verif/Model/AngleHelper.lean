import Verif.Base.Machine
import Verif.Base.CFloat
/-
Model of source/hypergirgs/include/hypergirgs/AngleHelper.h and source/hypergirgs/source/AngleHelper.cpp.
Cells are `unsigned int` values (`Nat` below 2^32, arithmetic reduced by `u32` / `subU`).
-/
namespace Girgs.Angle
open CFloat

/-- `numCellsInLevel(level)`, AngleHelper.h:18. -/
def numCellsInLevel (level : Nat) : Option Nat := shl1u level

/-- `firstCellOfLevel(level)`, AngleHelper.h:19. -/
def firstCellOfLevel (level : Nat) : Option Nat := do
  let p ← shl1u level
  some (subU p 1)

/-- `parent(cell)`, AngleHelper.h:21. -/
def parent (cell : Nat) : Nat := subU cell 1 / 2

/-- `firstChild(cell)`, AngleHelper.h:22. -/
def firstChild (cell : Nat) : Nat := u32 (u32 (2 * cell) + 1)

/-- `secondChild(cell)`, AngleHelper.h:23. -/
def secondChild (cell : Nat) : Nat := u32 (2 * u32 (cell + 1))

/-- `numChildren()`, AngleHelper.h:24. -/
def numChildren : Nat := 2

/-- `cellForPoint(angle, targetLevel)`, AngleHelper.h:29-31. -/
def cellForPoint {F : Type} [CFloat F] (angle : F) (targetLevel : Nat) : Option Nat := do
  let c ← numCellsInLevel targetLevel
  toU32 (angle /. ofRat 2 /. CFloat.pi *. ofNat c)

/-- `bounds(cell, level)`, AngleHelper.cpp:11-15. -/
def bounds {F : Type} [CFloat F] (cell level : Nat) : Option (F × F) := do
  let w ← shl1 level
  let diameter : F := ofRat 2 *. CFloat.pi /. ofInt w
  let first ← firstCellOfLevel level
  let localIndex := subU cell first
  some (ofNat localIndex *. diameter, ofNat (u32 (localIndex + 1)) *. diameter)

/-- `mm.second - mm.first` for `mm = std::minmax(cellA, cellB)`, AngleHelper.cpp:18-19 and 28-29. -/
def diff (cellA cellB : Nat) : Nat := subU (max cellA cellB) (min cellA cellB)

/-- `touching(cellA, cellB, level)`, AngleHelper.cpp:17-21. -/
def touching (cellA cellB level : Nat) : Option Bool := do
  if diff cellA cellB ≤ 1 then some true
  else
    let c ← numCellsInLevel level
    some (diff cellA cellB == subU c 1)

/-- `cellsBetween(cellA, cellB, level)`, AngleHelper.cpp:27-32 (the conversion to `int` does not change values that
occur, they are below 2^31). -/
def cellsBetween (cellA cellB level : Nat) : Option Nat := do
  let c ← numCellsInLevel level
  let d := min (diff cellA cellB) (subU c (diff cellA cellB))
  some (if d ≤ 1 then 0 else d - 1)

/-- `dist(cellA, cellB, level)`, AngleHelper.cpp:23-25: `cellsBetween * 2.0*PI / (1<<level)`. -/
def dist {F : Type} [CFloat F] (cellA cellB level : Nat) : Option F := do
  let b ← cellsBetween cellA cellB level
  let w ← shl1 level
  some (ofNat b *. ofRat 2 *. CFloat.pi /. ofInt w)

end Girgs.Angle
