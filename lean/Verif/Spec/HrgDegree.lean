import Mathlib.Analysis.SpecialFunctions.Trigonometric.Basic
import Mathlib.Analysis.SpecialFunctions.Exp
/-
The published formulas for the average degree of hyperbolic random graphs, used to choose the disk radius.
-/
namespace Girgs.Spec
open Real

/-- `ξ = α / (α - 1/2)` -/
noncomputable def xi (α : ℝ) : ℝ := α / (α - 1 / 2)

/-- the leading term of the expected average degree of a hyperbolic random graph with `n` nodes, parameter `α`, temperature `T` in a disk of radius `R`:
`(2/π) ξ² n e^{-R/2}`, times `π T / sin(π T)` for positive temperature (Krioukov et al.) -/
noncomputable def hrgDegree (n α T R : ℝ) : ℝ :=
  2 / π * xi α ^ 2 * n * exp (-R / 2) * (if T = 0 then 1 else π * T / sin (π * T))

/-- the estimate with a second order term for temperature 0 that NetworKit uses:
`(2/π) ξ² n (e^{-R/2} + e^{-αR} (α (R/2) ((π/4) α⁻² - (π-1) α⁻¹ + (π-2)) - 1))` -/
noncomputable def coldDegree (n α R : ℝ) : ℝ :=
  2 / π * xi α ^ 2 * n * (exp (-R / 2) + exp (-α * R) * (α * (R / 2) * (π / 4 * (1 / α) ^ 2 - (π - 1) * (1 / α) + (π - 2)) - 1))

end Girgs.Spec
