import Mathlib.Analysis.SpecialFunctions.Arcosh
import Mathlib.Analysis.SpecialFunctions.Trigonometric.Basic
/-
Specification: the hyperbolic plane in polar coordinates, and the inputs of the hyperbolic sampler (exact arithmetic).
-/
namespace Girgs.Spec
open Real

/-- hyperbolic law of cosines: the cosh of the distance of the points with polar coordinates `(r, φ)` and `(s, ψ)` -/
noncomputable def hypCosh (r φ s ψ : ℝ) : ℝ := cosh r * cosh s - sinh r * sinh s * cos (φ - ψ)

/-- hyperbolic distance -/
noncomputable def hypDist (r φ s ψ : ℝ) : ℝ := arcosh (hypCosh r φ s ψ)

/-- the threshold rule for nodes `u` and `v`: their distance is less than `R` -/
def HypRule (radii angles : List ℝ) (R : ℝ) (u v : ℕ) : Prop :=
  ∃ r s a b, radii[u]? = some r ∧ radii[v]? = some s ∧ angles[u]? = some a ∧ angles[v]? = some b ∧ hypDist r a s b < R

/-- the connection probability of two points at distance `d` with temperature `T`: `1 / (1 + exp((d - R) / (2 T)))` -/
noncomputable def hypProb (d R T : ℝ) : ℝ := 1 / (1 + Real.exp ((d - R) / (2 * T)))

/-- Supported inputs of `hypergirgs::generateEdges`: as many angles as radii, between one and 2^31-1 points, radii in `(0, R]`,
angles in `[0, 2π)`, temperature non-negative, and a disk radius with `2/3 ≤ R ≤ 1` or `4/3 ≤ R ≤ 41.25`.  (Other radii are not
supported by the code: see `Verif/Props/HyperLevels.lean`.) -/
structure HypInput (radii angles : List ℝ) (T R : ℝ) : Prop where
  len : angles.length = radii.length
  pos : 1 ≤ radii.length
  small : radii.length < 2147483648
  radius : ∀ r ∈ radii, 0 < r ∧ r ≤ R
  angle : ∀ a ∈ angles, 0 ≤ a ∧ a < 2 * π
  temp : 0 ≤ T
  disk : (2 / 3 ≤ R ∧ R ≤ 1) ∨ (4 / 3 ≤ R ∧ R ≤ 165 / 4)

end Girgs.Spec
