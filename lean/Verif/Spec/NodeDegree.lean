import Verif.Spec.Degree
import Verif.Spec.HypDegree
/-
Specification: the expected degree of a single node.
-/
namespace Girgs.Spec
open MeasureTheory Tree
open scoped ENNReal

/-- the degree of node `u` in the graph with edge list `es` -/
def degreeOf (u : ℕ) (es : List (ℕ × ℕ)) : ℕ := es.countP fun e => e.1 = u ∨ e.2 = u

/-- the expected degree of node `u` in the result of `girgs::generateEdges` for fixed weights and positions, if the threads' generators have independent
states distributed like `μ`: `0*P(degree 0) + 1*P(degree 1) + 2*P(degree 2) + ...` -/
noncomputable def expectedNodeDegree (env : Env) (rng : Rng XR) [MeasurableSpace rng.G] (μ : Measure rng.G) (weights : List XR) (positions : List (List XR))
    (alpha : XR) (u : ℕ) : ℝ≥0∞ :=
  ∑' k : ℕ, k * (Measure.pi fun _ : Fin env.threads => μ)
    {g | ∃ out notice, GenerateEdges env rng (gensOf env.threads_pos g) weights positions alpha out notice ∧ degreeOf u out = k}

/-- the same for `hypergirgs::generateEdges` and fixed points, with `n` generators, as many as the call uses -/
noncomputable def hypExpectedNodeDegree (env : HEnv) (rng : Tree.Rng XR) [MeasurableSpace rng.G] (μ : Measure rng.G) {n : ℕ} (hn : 1 ≤ n)
    (radii angles : List XR) (T R : XR) (u : ℕ) : ℝ≥0∞ :=
  ∑' k : ℕ, k * (Measure.pi fun _ : Fin n => μ) {g | ∃ out, HGenerateEdges env rng (gensOf hn g) radii angles T R out ∧ degreeOf u out = k}

/-- the probability that two nodes at uniformly distributed positions are connected, for finite `alpha = a`, if the pairs closer than the threshold have
volume `t` (`2^D w_u w_v / W`): 1 if `t ≥ 1`, otherwise `t + (t - t^a) / (a - 1)`, and `t - t ln t` for `a = 1` -/
noncomputable def meanConnection (a t : ℝ) : ℝ := if 1 ≤ t then 1 else if a = 1 then t - t * Real.log t else t + (t - t ^ a) / (a - 1)

/-- leading term of the expected degree of a node with radius `r` in a hyperbolic random graph with `n` other nodes:
`n (2/π) ξ exp(-r/2)` with `ξ = α/(α-1/2)`, for `T > 0` times `πT / sin(πT)` -/
noncomputable def hrgNodeDegree (n α T r : ℝ) : ℝ :=
  n * (2 / Real.pi) * xi α * Real.exp (-r / 2) * (if T = 0 then 1 else Real.pi * T / Real.sin (Real.pi * T))

/-- relative error of this term: `(α - 1/2) / (α - γ/2) exp(-(γ-1)r/2)`, for any `γ` between 1 and `min(2, 2α, 1/T)` -/
noncomputable def nodeError (α γ r : ℝ) : ℝ := kappa α γ * Real.exp (-((γ - 1) * r / 2))

end Girgs.Spec
