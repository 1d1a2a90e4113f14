import Verif.Spec.CellTree
import Mathlib.Data.Real.Basic
import Mathlib.Data.Fintype.Basic
import Mathlib.Algebra.Order.Group.Abs
import Mathlib.Order.ConditionallyCompleteLattice.Finset
/-
Specification: boxes and the max-norm metric of the torus `[0,1)^D`, and the grid of `2^l` cells per axis.
-/
namespace Girgs.Spec

/-- distance of two coordinates on a circle of circumference 1 -/
noncomputable def circleDist (x y : ℝ) : ℝ := min |x - y| (1 - |x - y|)

/-- max-norm distance on the torus: the maximum over the dimensions of the circle distances (0 for `D = 0`) -/
noncomputable def torusDist {D : Nat} (x y : Fin D → ℝ) : ℝ :=
  (List.finRange D).foldr (fun d r => max (circleDist (x d) (y d)) r) 0

/-- Grid coordinate `d` of the cell with id `A` on level `l`: its level-local index is `A - levelStart D l`, and bit `k`
of the coordinate is bit `D*k+d` of that index. -/
def gridCoord (D l A d : Nat) : Nat :=
  ∑ k ∈ Finset.range l, if (A - levelStart D l).testBit (D * k + d) then 2 ^ k else 0

/-- the point `p` lies in the half open box of cell `A` of level `l` -/
def InBox (D l A : Nat) (p : Fin D → ℝ) : Prop :=
  ∀ d : Fin D, (gridCoord D l A d : ℝ) / 2 ^ l ≤ p d ∧ p d < ((gridCoord D l A d : ℝ) + 1) / 2 ^ l

/-- the point `p` lies in the closed box of cell `A` of level `l` -/
def InClosedBox (D l A : Nat) (p : Fin D → ℝ) : Prop :=
  ∀ d : Fin D, (gridCoord D l A d : ℝ) / 2 ^ l ≤ p d ∧ p d ≤ ((gridCoord D l A d : ℝ) + 1) / 2 ^ l

/-- the closed boxes of `A` and `B` intersect on the torus: they contain points that agree modulo 1 -/
def BoxesTouch (D l A B : Nat) : Prop :=
  ∃ p q : Fin D → ℝ, InClosedBox D l A p ∧ InClosedBox D l B q ∧ ∃ z : Fin D → ℤ, ∀ d, p d = q d + z d

end Girgs.Spec
