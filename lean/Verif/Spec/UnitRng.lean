import Verif.Base.XR
import Verif.Model.SpatialTree
/-
Specification: ranges of random numbers.
-/
namespace Girgs.Spec

/-- uniform draws lie in the half open interval they are drawn from, and geometric numbers are below 2^63 -/
structure UnitRng (rng : Tree.Rng XR) : Prop where
  uniform : ∀ g, ∃ x : ℝ, (rng.uniform g).1 = XR.fin x ∧ 0 ≤ x ∧ x < 1
  uniformTo : ∀ (b : ℝ) g, 0 < b → ∃ x : ℝ, (rng.uniformTo (XR.fin b) g).1 = XR.fin x ∧ 0 ≤ x ∧ x < b
  geo : ∀ p g, (rng.geo p g).1 < 9223372036854775808

end Girgs.Spec
