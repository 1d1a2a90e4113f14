import Verif.Model.SpatialTree
import Verif.Base.XR
import Mathlib.Probability.ProbabilityMassFunction.Constructions
import Mathlib.MeasureTheory.Measure.Prod
import Mathlib.MeasureTheory.Measure.Lebesgue.Basic
import Mathlib.Analysis.SpecificLimits.Basic
/-
Specification of ideal random numbers.
-/
namespace Girgs.Spec
open MeasureTheory
open scoped ENNReal

/-- Bernoulli distribution with success probability `p` (forced into `[0,1]`) -/
noncomputable def coin (p : ℝ) : PMF Bool :=
  PMF.ofFintype (fun b => cond b (ENNReal.ofReal (max 0 (min p 1))) (ENNReal.ofReal (1 - max 0 (min p 1)))) (by
    rw [Fintype.sum_bool]
    simp only [cond_true, cond_false]
    rw [← ENNReal.ofReal_add (by positivity) (by
      rw [sub_nonneg, max_le_iff]; exact ⟨by norm_num, min_le_right _ _⟩)]
    simp)

/-- geometric distribution with success probability `p`: `k` failures before the first success have probability
`(1-p)^k * p` -/
noncomputable def geoPMF (p : ℝ) (h0 : 0 < p) (h1 : p ≤ 1) : PMF ℕ :=
  ⟨fun k => ENNReal.ofReal ((1 - p) ^ k * p), by
    have hs : HasSum (fun k : ℕ => (1 - p) ^ k * p) 1 := by
      have := (hasSum_geometric_of_lt_one (sub_nonneg.2 h1) (by linarith)).mul_right p
      rwa [sub_sub_cancel, inv_mul_cancel₀ h0.ne'] at this
    have h := ENNReal.ofReal_tsum_of_nonneg (f := fun k : ℕ => (1 - p) ^ k * p)
      (fun k => mul_nonneg (pow_nonneg (sub_nonneg.2 h1) k) h0.le) hs.summable
    rw [hs.tsum_eq, ENNReal.ofReal_one] at h
    rw [h]
    exact ENNReal.summable.hasSum⟩

/-- flip an independent coin for every entry of the list, and keep the entries whose coin shows success -/
noncomputable def flips {E : Type} : List (E × ℝ) → PMF (List E)
  | [] => PMF.pure []
  | (e, p) :: L => (coin p).bind fun c => (flips L).map fun es => if c then e :: es else es

/-- `rng` is a source of ideal random numbers if its state is distributed like `μ`: every draw has exactly the requested
distribution, and leaves a state that is independent of the drawn value and again distributed like `μ`.  (Hence all draws
are independent.)  Geometric numbers beyond the range of the counter are cut to `2^63-1`. -/
structure IdealRng (rng : Tree.Rng XR) [MeasurableSpace rng.G] (μ : Measure rng.G) : Prop where
  prob : IsProbabilityMeasure μ
  uniform : ∃ u : rng.G → ℝ × rng.G, Measurable u ∧ (∀ g, rng.uniform g = (XR.fin (u g).1, (u g).2)) ∧
    μ.map u = (volume.restrict (Set.Ico 0 1)).prod μ
  uniformTo : ∀ b : ℝ, 0 < b → ∃ u : rng.G → ℝ × rng.G, Measurable u ∧
    (∀ g, rng.uniformTo (XR.fin b) g = (XR.fin (u g).1, (u g).2)) ∧
    μ.map u = ((ENNReal.ofReal b)⁻¹ • volume.restrict (Set.Ico 0 b)).prod μ
  geo : ∀ (p : ℝ) (h0 : 0 < p) (h1 : p ≤ 1), ∃ k : rng.G → ℕ × rng.G, Measurable k ∧
    (∀ g, rng.geo (XR.fin p) g = (min (k g).1 9223372036854775807, (k g).2)) ∧
    μ.map k = (geoPMF p h0 h1).toMeasure.prod μ
  bounded : ∀ p g, (rng.geo p g).1 < 9223372036854775808

/-- the generators of the threads, given by their joint state -/
def gensOf {G : Type} {n : Nat} (h : 1 ≤ n) (g : Fin n → G) (k : Nat) : G := g ⟨min k (n - 1), by omega⟩

end Girgs.Spec
