import Verif.Proofs.ExpectedDegree
import Verif.Spec.NodeDegree
import Mathlib.Analysis.SpecialFunctions.Integrals.Basic
/-
The mean connection probability of two nodes, for all finite `alpha`.
-/
namespace Girgs.Scaling
open Spec MeasureTheory Set

/-- the integral behind the closed form, `alpha = 1` -/
theorem tail_integral_one {τ : ℝ} (hτ : 0 < τ) :
    ∫ s in Ioo (0 : ℝ) 1, min 1 (τ * s ^ (-(1 / (1 : ℝ)))) = if 1 ≤ τ then 1 else τ - τ * Real.log τ := by
  rw [← integral_Ioc_eq_integral_Ioo, ← intervalIntegral.integral_of_le zero_le_one]
  have hpow : ∀ s : ℝ, s ^ (-(1 / (1 : ℝ))) = s⁻¹ := fun s => by rw [div_one, Real.rpow_neg_one]
  simp only [hpow]
  split_ifs with h
  · rw [intervalIntegral.integral_congr_ae (g := fun _ => (1 : ℝ))]
    · simp
    · refine Filter.Eventually.of_forall fun s hs => ?_
      rw [uIoc_of_le zero_le_one] at hs
      apply min_eq_left
      have : 1 ≤ s⁻¹ := (one_le_inv₀ hs.1).2 hs.2
      nlinarith
  push Not at h
  have i1 : ∀ s ∈ uIoc 0 τ, min 1 (τ * s⁻¹) = 1 := by
    intro s hs
    rw [uIoc_of_le hτ.le] at hs
    apply min_eq_left
    rw [← div_eq_mul_inv, le_div_iff₀ hs.1]; linarith [hs.2]
  have i2 : ∀ s ∈ uIcc τ 1, min 1 (τ * s⁻¹) = τ * s⁻¹ := by
    intro s hs
    rw [uIcc_of_le h.le] at hs
    apply min_eq_right
    rw [← div_eq_mul_inv, div_le_one (hτ.trans_le hs.1)]; exact hs.1
  have hzero : (0 : ℝ) ∉ uIcc τ 1 := by
    rw [uIcc_of_le h.le]; intro h0; exact absurd h0.1 (not_le.2 hτ)
  have c2 : ContinuousOn (fun s : ℝ => τ * s⁻¹) (uIcc τ 1) := by
    refine continuousOn_const.mul (continuousOn_id.inv₀ fun s hs => ?_)
    rintro rfl; exact hzero hs
  have e1 : ∫ s in (0 : ℝ)..τ, min 1 (τ * s⁻¹) = τ := by
    rw [intervalIntegral.integral_congr_ae (g := fun _ => (1 : ℝ)) (Filter.Eventually.of_forall i1)]
    simp
  have e2 : ∫ s in τ..1, min 1 (τ * s⁻¹) = -(τ * Real.log τ) := by
    rw [intervalIntegral.integral_congr (g := fun s => τ * s⁻¹) i2, intervalIntegral.integral_const_mul, integral_inv hzero,
      Real.log_div one_ne_zero hτ.ne', Real.log_one]
    ring
  rw [← intervalIntegral.integral_add_adjacent_intervals (b := τ), e1, e2]
  · ring
  · refine IntervalIntegrable.congr_ae (f := fun _ => (1 : ℝ)) intervalIntegrable_const ?_
    exact (ae_restrict_iff' measurableSet_uIoc).2 (Filter.Eventually.of_forall fun s hs => (i1 s hs).symm)
  · refine IntervalIntegrable.congr_ae (c2.intervalIntegrable) ?_
    exact (ae_restrict_iff' measurableSet_uIoc).2 (Filter.Eventually.of_forall fun s hs => (i2 s (uIoc_subset_uIcc hs)).symm)

theorem meanConnection_eq {a : ℝ} (ha : a ≠ 1) (t : ℝ) : meanConnection a t = probAlpha a t := by
  unfold meanConnection
  rw [if_neg ha]
  rfl

/-- the mean connection probability, for all finite `alpha` -/
theorem mean_expect {D : ℕ} (hD : 1 ≤ D) {q : Fin D → ℝ} (hq : ∀ d, q d ∈ Ico (0 : ℝ) 1) {a t : ℝ} (ha : 0 < a) (ht : 0 < t) :
    ∫ p, connProb D a t (torusDist p q) ∂unitCube D = meanConnection a (2 ^ D * t) := by
  by_cases h : a = 1
  · subst h
    rw [conn_integral hD hq ha ht, tail_integral_one (by positivity), meanConnection, if_pos rfl]
  · rw [conn_expect hD hq ha h ht, meanConnection_eq h]

theorem meanConnection_mem {a t : ℝ} (ha : 0 < a) (ht : 0 < t) : 0 ≤ meanConnection a t ∧ meanConnection a t ≤ 1 := by
  have h := mean_expect (D := 1) le_rfl (q := fun _ => 0) (by intro d; norm_num) ha (t := t / 2) (by positivity)
  rw [show (2 : ℝ) ^ 1 * (t / 2) = t by ring] at h
  rw [← h]
  have hm := fun p : Fin 1 → ℝ => connProb_mem (D := 1) a (t / 2) (torusDist p fun _ => 0) (by positivity) (torusDist_nonneg p _)
  have hdm : Measurable fun p : Fin 1 → ℝ => torusDist p (fun _ => 0) := torusDist_measurable.comp (measurable_id.prodMk measurable_const)
  refine ⟨integral_nonneg fun p => (hm p).1, ?_⟩
  have hint : Integrable (fun p => connProb 1 a (t / 2) (torusDist p fun _ => 0)) (unitCube 1) := by
    refine Integrable.of_bound ((connProb_measurable 1 a _).comp hdm).aestronglyMeasurable 1 (Filter.Eventually.of_forall fun p => ?_)
    rw [Real.norm_eq_abs, abs_of_nonneg (hm p).1]; exact (hm p).2
  refine (integral_mono hint (integrable_const 1) fun p => (hm p).2).trans ?_
  simp

end Girgs.Scaling
