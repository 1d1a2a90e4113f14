import Verif.Model.HyperGenerate
import Verif.Model.Samplers
import Verif.Spec.SampleLaw
import Verif.Spec.HrgDegree
import Verif.Spec.Random
/-
Specification: the expected number of edges of a hyperbolic random graph, and the error terms of the published formula for the average degree.
-/
namespace Girgs.Spec
open MeasureTheory
open scoped ENNReal

/-- the expected number of edges of the result of `hypergirgs::generateEdges` for fixed points, if the generators `gens`, as many as the call uses, have
independent states distributed like `μ`: `0*P(0 edges) + 1*P(1 edge) + 2*P(2 edges) + ...` -/
noncomputable def hypExpectedEdges (env : HEnv) (rng : Tree.Rng XR) [MeasurableSpace rng.G] (μ : Measure rng.G) {n : ℕ} (hn : 1 ≤ n) (radii angles : List XR)
    (T R : XR) : ℝ≥0∞ :=
  ∑' k : ℕ, k * (Measure.pi fun _ : Fin n => μ) {g | ∃ out, HGenerateEdges env rng (gensOf hn g) radii angles T R out ∧ out.length = k}

/-- `n` random points of the disk of radius `R`, drawn with ideal engines: either by `sampleRadiiAndAngles`, with threads that start in independent states, or by
`sampleRadii` and `sampleAngles`, with ranges of seeds that do not overlap -/
def SampledPoints {Ω : Type} [MeasurableSpace Ω] (P : Measure Ω) (omp : Omp) (eng : Engine XR) [MeasurableSpace eng.G] (μ : Measure eng.G) (σ : ℤ → Ω → eng.G)
    (device : ℕ → Ω → eng.G) (n : ℕ) (α R : ℝ) (radii angles : Ω → List XR) : Prop :=
  IdealEngine eng μ ∧
  ((∃ (seed : ℤ) (parallel : Bool) (threads : ℕ), hyperThreads omp n parallel = some threads ∧
    ((0 ≤ seed ∧ seed + threads ≤ 2147483648 ∧ IndependentStates P μ σ) ∨ (seed < 0 ∧ IndependentStates P μ device)) ∧
    ∀ ω, SampleRadiiAndAngles omp (withSeeds eng fun s => σ s ω) (fun k => device k ω) n (XR.fin α) (XR.fin R) seed parallel (radii ω) (angles ω)) ∨
  (∃ (rseed aseed : ℤ) (rpar apar : Bool) (rt at' : ℕ), hyperThreads omp n rpar = some rt ∧ hyperThreads omp n apar = some at' ∧
    IndependentStates P μ σ ∧ (0 ≤ rseed ∧ rseed + rt ≤ 2147483648) ∧ (0 ≤ aseed ∧ aseed + at' ≤ 2147483648) ∧
    (rseed + rt ≤ aseed ∨ aseed + at' ≤ rseed) ∧
    ∀ ω, SampleRadii omp (withSeeds eng fun s => σ s ω) (fun k => device k ω) n (XR.fin α) (XR.fin R) rseed rpar (radii ω) ∧
      SampleAngles omp (withSeeds eng fun s => σ s ω) (fun k => device k ω) n aseed apar (angles ω)))

/-- the factor `1 / (1 - 2.1 exp(-αR))`: the radial density, relative to `α exp(-α(R-r))` -/
noncomputable def slack (α R : ℝ) : ℝ := 1 / (1 - 2.1 * Real.exp (-(α * R)))

/-- `(α - 1/2) / (α - γ/2)` -/
noncomputable def kappa (α γ : ℝ) : ℝ := (α - 1 / 2) / (α - γ / 2)

/-- relative error of the leading term: `(α - 1/2)² / (α - γ/2)² exp(-(γ-1)R/2)`, for any `γ` between 1 and `min(2, 2α, 1/T)` -/
noncomputable def degreeError (α γ R : ℝ) : ℝ := kappa α γ ^ 2 * Real.exp (-((γ - 1) * R / 2))

end Girgs.Spec
