import Verif.Model.Generator
import Verif.Spec.Random
import Verif.Spec.Girg
/-
Specification: the expected number of edges of the result of `girgs::generateEdges`.
-/
namespace Girgs.Spec
open MeasureTheory Tree
open scoped ENNReal

/-- the expected number of edges of the result of `girgs::generateEdges` for fixed weights and positions, if the threads' generators have independent
states distributed like `μ`: `0*P(0 edges) + 1*P(1 edge) + 2*P(2 edges) + ...` -/
noncomputable def expectedEdges (env : Env) (rng : Rng XR) [MeasurableSpace rng.G] (μ : Measure rng.G) (weights : List XR) (positions : List (List XR))
    (alpha : XR) : ℝ≥0∞ :=
  ∑' k : ℕ, k * (Measure.pi fun _ : Fin env.threads => μ)
    {g | ∃ out notice, GenerateEdges env rng (gensOf env.threads_pos g) weights positions alpha out notice ∧ out.length = k}

/-- weights with which every choice of positions in `[0,1)^D` is a supported input -/
def SupportedWeights (D : ℕ) (w : List ℝ) : Prop :=
  ∀ x : List (Fin D → ℝ), x.length = w.length → (∀ p ∈ x, ∀ d, 0 ≤ p d ∧ p d < 1) → SupportedInput D w x

end Girgs.Spec
