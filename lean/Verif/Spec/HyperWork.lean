import Mathlib.Analysis.SpecialFunctions.Arcosh
import Mathlib.Analysis.SpecialFunctions.Trigonometric.Basic
/-
Specification of C90: points in the hyperbolic disk, and the sum that measures the number of close pairs.
-/
open Real
namespace Girgs.Spec

/-- the angles of `n` positions on the circle of length 1 -/
noncomputable def circleAngles {n : ℕ} (X : Fin n → Fin 1 → ℝ) : List ℝ := List.ofFn fun u => 2 * π * X u 0

/-- the sum of `exp ((R - r_u - r_v) / 2)` over all pairs of points -/
noncomputable def hypPairSum (radii : List ℝ) (R : ℝ) : ℝ :=
  ∑ v ∈ Finset.range radii.length, ∑ u ∈ Finset.range v, Real.exp ((R - radii.getD u 0 - radii.getD v 0) / 2)

/-- the radius that `sampleRadii` computes from a number that is uniform in `[1 + 2^-52, cosh (alpha * R))`, written with `y` uniform in `[0,1)` -/
noncomputable def sampledRadius (alpha R y : ℝ) : ℝ :=
  Real.arcosh ((1 + 1 / 2 ^ 52) + (Real.cosh (alpha * R) - (1 + 1 / 2 ^ 52)) * y) / alpha

/-- the radii of `n` points -/
noncomputable def sampledRadii {n : ℕ} (alpha R : ℝ) (Y : Fin n → Fin 1 → ℝ) : List ℝ := List.ofFn fun u => sampledRadius alpha R (Y u 0)

end Girgs.Spec
