import Mathlib.Algebra.BigOperators.Group.Finset.Basic
import Mathlib.Algebra.BigOperators.Intervals
/-
Specification of the cell numbering: a complete `2^D`-ary tree numbered level by level.
-/
namespace Girgs.Spec

/-- number of cells on the levels above level `l`: `1 + 2^D + ... + 2^(D(l-1))`; the id of the first cell of level `l` -/
def levelStart (D l : Nat) : Nat := ∑ i ∈ Finset.range l, 2 ^ (D * i)

/-- the cell id `c` belongs to level `l` -/
def OnLevel (D l c : Nat) : Prop := levelStart D l ≤ c ∧ c < levelStart D (l + 1)

end Girgs.Spec
