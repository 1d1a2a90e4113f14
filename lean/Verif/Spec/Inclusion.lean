import Verif.Spec.Girg
import Verif.Spec.Hyperbolic
import Mathlib.Data.Set.Card
/-
Specification: the GIRG that belongs to a hyperbolic random graph, and counting edges.
-/
namespace Girgs.Spec

/-- the weight of a point with radius `r` in a disk of radius `R` is `exp((R - r) / 2)` -/
noncomputable def convWeights (radii : List ℝ) (R : ℝ) : List ℝ := radii.map fun r => Real.exp ((R - r) / 2)

/-- the position of a point with angle `a` is `a / 2π`, on a circle of circumference 1 -/
noncomputable def convPositions (angles : List ℝ) : List (Fin 1 → ℝ) := angles.map fun a _ => a / (2 * Real.pi)

/-- the threshold GIRG of the converted points, all weights multiplied by `k` -/
def ConvRule (radii angles : List ℝ) (R k : ℝ) : ℕ → ℕ → Prop := ThresholdRule ((convWeights radii R).map (· * k)) (convPositions angles)

/-- number of unordered pairs of distinct nodes of `0..n-1` with property `P` -/
noncomputable def pairCount (n : ℕ) (P : ℕ → ℕ → Prop) : ℕ := Set.ncard {p : ℕ × ℕ | p.1 < p.2 ∧ p.2 < n ∧ P p.1 p.2}

end Girgs.Spec
