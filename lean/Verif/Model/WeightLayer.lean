import Verif.Model.CoordHelper
import Verif.Model.Node
/-
Model of source/girgs/include/girgs/WeightLayer.h.
-/
namespace Girgs

/-- `WeightLayer<D>`, WeightLayer.h:18-35: the target level and a pointer `m_prefix_sums` into the shared index array,
here the offset of that pointer (`m_first_in_cell.data() + first_cell_of_layer[layer]`, SpatialTree.inl:469);
`m_base` is always the start of the shared node array. -/
structure WeightLayer where
  target : Nat
  off : Nat

namespace WeightLayer

/-- `levelledCell(cell, level)`, WeightLayer.h:106-121. -/
def levelledCell (D : Nat) (wl : WeightLayer) (cell level : Nat) : Option (Nat × Nat) := do
  let descendants ← Coord.numCellsInLevel D (subU wl.target level)
  let first ← Coord.firstCellOfLevel D level
  let localIndexCell := subU cell first
  let begin_ := u32 (localIndexCell * descendants)
  let end_ := subU (u32 (begin_ + descendants)) 1
  some (begin_, end_)

/-- `cellIterators(cell, level)`, WeightLayer.h:96-102, as positions in the node array (pointers `m_base + ...`). -/
def cellIterators (D : Nat) (firstInCell : List Nat) (wl : WeightLayer) (cell level : Nat) : Option (Nat × Nat) := do
  let be ← levelledCell D wl cell level
  let b ← rd firstInCell (wl.off + be.1)
  let e ← rd firstInCell (wl.off + u32 (be.2 + 1))
  some (b, e)

/-- `pointsInCell(cell, level)`, WeightLayer.h:51-57 (`unsigned` difference returned as `int`). -/
def pointsInCell (D : Nat) (firstInCell : List Nat) (wl : WeightLayer) (cell level : Nat) : Option Nat := do
  let be ← levelledCell D wl cell level
  let e ← rd firstInCell (wl.off + u32 (be.2 + 1))
  let b ← rd firstInCell (wl.off + be.1)
  some (subU e b)

/-- `kthPoint(cell, level, k)`, WeightLayer.h:78-81: `m_base[m_prefix_sums[first] + k]`. -/
def kthPoint {α : Type} (D : Nat) (nodes : List α) (firstInCell : List Nat) (wl : WeightLayer) (cell level k : Nat) :
    Option α := do
  let be ← levelledCell D wl cell level
  let b ← rd firstInCell (wl.off + be.1)
  rd nodes (b + k)

end WeightLayer
end Girgs
