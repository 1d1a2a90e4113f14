import Verif.Spec.Concentration
/-
Specification: paths of length two and triangles.
-/
namespace Girgs.Spec
open MeasureTheory Tree
open scoped ENNReal

/-- `u` and `v` are neighbours in the graph with edge list `es` -/
def adjacent (es : List (ℕ × ℕ)) (u v : ℕ) : Prop := (u, v) ∈ es ∨ (v, u) ∈ es

/-- `v` and `x` are neighbours of `u` -/
def wedge (es : List (ℕ × ℕ)) (u v x : ℕ) : Prop := adjacent es u v ∧ adjacent es u x

/-- and they are neighbours of each other -/
def triangle (es : List (ℕ × ℕ)) (u v x : ℕ) : Prop := adjacent es u v ∧ adjacent es u x ∧ adjacent es v x

/-- all pairs of nodes related by `A` are connected, all pairs related by `B` are not -/
def hasEdges (n : ℕ) (A B : ℕ → ℕ → Prop) (es : List (ℕ × ℕ)) : Prop :=
  ∀ u v, u < n → v < n → u ≠ v → (A u v → adjacent es u v) ∧ (B u v → ¬ adjacent es u v)

/-- the probability that the result of `girgs::generateEdges` satisfies `S`, for fixed weights and positions, if the threads' generators have independent states
distributed like `μ` -/
noncomputable def graphProb (env : Env) (rng : Rng XR) [MeasurableSpace rng.G] (μ : Measure rng.G) (weights : List XR) (positions : List (List XR))
    (alpha : XR) (S : List (ℕ × ℕ) → Prop) : ℝ≥0∞ :=
  (Measure.pi fun _ : Fin env.threads => μ) {g | ∃ out notice, GenerateEdges env rng (gensOf env.threads_pos g) weights positions alpha out notice ∧ S out}

/-- the same for `hypergirgs::generateEdges` and fixed points, with `n` generators, as many as the call uses -/
noncomputable def hypGraphProb (env : HEnv) (rng : Tree.Rng XR) [MeasurableSpace rng.G] (μ : Measure rng.G) {n : ℕ} (hn : 1 ≤ n)
    (radii angles : List XR) (T R : XR) (S : List (ℕ × ℕ) → Prop) : ℝ≥0∞ :=
  (Measure.pi fun _ : Fin n => μ) {g | ∃ out, HGenerateEdges env rng (gensOf hn g) radii angles T R out ∧ S out}

end Girgs.Spec
