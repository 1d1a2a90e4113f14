import Verif.Spec.NodeDegree
/-
Specification: concentration of the number of edges and of the degrees.
-/
namespace Girgs.Spec
open MeasureTheory Tree
open scoped ENNReal

open Classical in
/-- the number of edges of the list `es` whose end points are related by `A`; with `A u v` always true this is the number of edges of the graph, with
`A = incident c` (below) the degree of node `c` -/
noncomputable def edgesIn (A : ℕ → ℕ → Prop) (es : List (ℕ × ℕ)) : ℕ := es.countP fun e => A e.1 e.2

/-- one of the two nodes is `c` -/
def incident (c : ℕ) (u v : ℕ) : Prop := u = c ∨ v = c

/-- the probability that the number of edges related by `A` in the result of `girgs::generateEdges` satisfies `Q`, for fixed weights and positions, if the
threads' generators have independent states distributed like `μ` -/
noncomputable def edgesProb (env : Env) (rng : Rng XR) [MeasurableSpace rng.G] (μ : Measure rng.G) (weights : List XR) (positions : List (List XR))
    (alpha : XR) (A : ℕ → ℕ → Prop) (Q : ℕ → Prop) : ℝ≥0∞ :=
  (Measure.pi fun _ : Fin env.threads => μ)
    {g | ∃ out notice, GenerateEdges env rng (gensOf env.threads_pos g) weights positions alpha out notice ∧ Q (edgesIn A out)}

/-- the same for `hypergirgs::generateEdges` and fixed points, with `n` generators, as many as the call uses -/
noncomputable def hypEdgesProb (env : HEnv) (rng : Tree.Rng XR) [MeasurableSpace rng.G] (μ : Measure rng.G) {n : ℕ} (hn : 1 ≤ n)
    (radii angles : List XR) (T R : XR) (A : ℕ → ℕ → Prop) (Q : ℕ → Prop) : ℝ≥0∞ :=
  (Measure.pi fun _ : Fin n => μ) {g | ∃ out, HGenerateEdges env rng (gensOf hn g) radii angles T R out ∧ Q (edgesIn A out)}

open Classical in
/-- the sum of `f u v` over the unordered pairs of different nodes below `n` that are related by `A` -/
noncomputable def pairSum (n : ℕ) (A : ℕ → ℕ → Prop) (f : ℕ → ℕ → ℝ) : ℝ := ∑ u : Fin n, ∑ v : Fin n, if u < v ∧ A u v then f u v else 0

/-- upper integral: the infimum of the means of the measurable functions above `f` (the mean of `f`, if `f` is measurable) -/
noncomputable def upperMean {Ω : Type} [MeasurableSpace Ω] (P : Measure Ω) (f : Ω → ℝ≥0∞) : ℝ≥0∞ :=
  ⨅ F : Ω → ℝ≥0∞, ⨅ _ : Measurable F, ⨅ _ : ∀ ω, f ω ≤ F ω, ∫⁻ ω, F ω ∂P

end Girgs.Spec
