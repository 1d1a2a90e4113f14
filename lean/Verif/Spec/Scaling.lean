import Verif.Spec.Girg
import Mathlib.MeasureTheory.Measure.Lebesgue.Basic
import Mathlib.MeasureTheory.Constructions.Pi
import Mathlib.MeasureTheory.Integral.Bochner.Basic
/-
Specification: the expected average degree of a GIRG with uniformly distributed positions.
-/
namespace Girgs.Spec
open MeasureTheory

/-- the uniform distribution on `[0,1)^D` -/
noncomputable def unitCube (D : ℕ) : Measure (Fin D → ℝ) := Measure.pi fun _ => volume.restrict (Set.Ico 0 1)

/-- `n` independent uniform positions in `[0,1)^D` -/
noncomputable def uniformPositions (n D : ℕ) : Measure (Fin n → Fin D → ℝ) := Measure.pi fun _ => unitCube D

/-- The expected average degree of a random graph on `n` nodes with independent uniform positions in which, given the
positions `x`, nodes `u ≠ v` are connected with probability `p x u v`: the expectation of the sum of the degrees, divided by
the number of nodes. -/
noncomputable def expectedAverageDegree (n D : ℕ) (p : List (Fin D → ℝ) → ℕ → ℕ → ℝ) : ℝ :=
  (∫ x, ∑ u : Fin n, ∑ v : Fin n, (if u = v then 0 else p (List.ofFn x) u v) ∂uniformPositions n D) / n

open Classical in
/-- connection probability of the threshold rule: 0 or 1 -/
noncomputable def thresholdProb {D : ℕ} (w : List ℝ) (x : List (Fin D → ℝ)) (u v : ℕ) : ℝ :=
  if ThresholdRule w x u v then 1 else 0

/-- expected average degree of the threshold GIRG (`alpha = infinity`) with weights `w` -/
noncomputable def thresholdGirgDegree (D : ℕ) (w : List ℝ) : ℝ := expectedAverageDegree w.length D (thresholdProb w)

/-- expected average degree of the GIRG with weights `w` and parameter `a` -/
noncomputable def girgDegree (D : ℕ) (a : ℝ) (w : List ℝ) : ℝ :=
  expectedAverageDegree w.length D fun x u v => girgProb w x a u v

/-- weights that are positive normal doubles: from `2^-1022` to `(2^53 - 1) * 2^971` -/
def NormalWeights (w : List ℝ) : Prop := ∀ y ∈ w, 1 / 2 ^ 1022 ≤ y ∧ y ≤ (2 ^ 53 - 1) * 2 ^ 971

end Girgs.Spec
