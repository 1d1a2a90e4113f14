import Verif.Spec.HyperWork
import Verif.Proofs.HWorkSum
import Mathlib.Probability.Independence.Integration
import Mathlib.Analysis.SpecialFunctions.Integrals.Basic
/-
The expectation of the sum over the pairs for radii that are distributed as `sampleRadii` returns them.
-/
open Real
namespace Girgs
open Spec MeasureTheory
open scoped ENNReal

section
variable {α R : ℝ}

theorem cosh_big (hα : 1 / 2 < α) (hR : 2 / 3 ≤ R) : 1 + 1 / 2 ^ 52 < Real.cosh (α * R) := by
  have h1 : 1 / 3 ≤ α * R := by nlinarith
  have h2 : Real.cosh (1 / 3) ≤ Real.cosh (α * R) := Real.cosh_le_cosh.2 (by rw [abs_of_pos (by norm_num), abs_of_pos (by linarith)]; exact h1)
  have h3 : (1 : ℝ) + 1 / 18 ≤ Real.cosh (1 / 3) := by
    have e : Real.cosh (1 / 3) = 1 + 2 * Real.sinh (1 / 6) ^ 2 := by
      rw [show (1 : ℝ) / 3 = 2 * (1 / 6) by norm_num, Real.cosh_two_mul, Real.cosh_sq]; ring
    have h4 : (1 : ℝ) / 6 ≤ Real.sinh (1 / 6) := Real.self_le_sinh_iff.2 (by norm_num)
    have h5 := pow_le_pow_left₀ (by norm_num) h4 2
    rw [e]
    norm_num at h5 ⊢
    linarith
  norm_num at h3 ⊢
  linarith

theorem sampledRadius_range (hα : 1 / 2 < α) (hR : 2 / 3 ≤ R) {y : ℝ} (h0 : 0 ≤ y) (h1 : y < 1) :
    0 < sampledRadius α R y ∧ sampledRadius α R y ≤ R := by
  have hb := cosh_big hα hR
  have hα0 : 0 < α := by linarith
  set b := Real.cosh (α * R) with hbdef
  have hx1 : 1 < (1 + 1 / 2 ^ 52) + (b - (1 + 1 / 2 ^ 52)) * y := by
    have : 0 ≤ (b - (1 + 1 / 2 ^ 52)) * y := mul_nonneg (by linarith) h0
    have : (0 : ℝ) < 1 / 2 ^ 52 := by positivity
    linarith
  have hx2 : (1 + 1 / 2 ^ 52) + (b - (1 + 1 / 2 ^ 52)) * y ≤ b := by
    have : (b - (1 + 1 / 2 ^ 52)) * y ≤ (b - (1 + 1 / 2 ^ 52)) * 1 := mul_le_mul_of_nonneg_left h1.le (by linarith)
    linarith
  unfold sampledRadius
  rw [← hbdef]
  refine ⟨div_pos (Real.arcosh_pos hx1) hα0, ?_⟩
  rw [div_le_iff₀ hα0, mul_comm R, ← Real.arcosh_cosh (x := α * R) (by nlinarith)]
  exact (Real.arcosh_le_arcosh (by linarith) (by linarith)).2 hx2

/-- a bound for `exp (- r / 2)` -/
theorem exp_radius_le (hα : 1 / 2 < α) (hR : 2 / 3 ≤ R) {y : ℝ} (h0 : 0 < y) (h1 : y < 1) :
    Real.exp (-(sampledRadius α R y / 2)) ≤ 2 * Real.exp (-(R / 2)) * y ^ (-(1 / (2 * α))) := by
  have hb := cosh_big hα hR
  have hα0 : 0 < α := by linarith
  obtain ⟨hr0, _⟩ := sampledRadius_range hα hR h0.le h1
  set s := 1 / (2 * α) with hs
  have hs0 : 0 < s := by positivity
  have hs1 : s < 1 := by rw [hs, div_lt_one (by positivity)]; linarith
  set r := sampledRadius α R y with hrdef
  have he0 : (0 : ℝ) < 1 / 2 ^ 52 := by positivity
  set e : ℝ := 1 / 2 ^ 52
  set b := Real.cosh (α * R) with hbdef
  have hx1 : 1 ≤ (1 + e) + (b - (1 + e)) * y := by
    have : 0 ≤ (b - (1 + e)) * y := mul_nonneg (by linarith) h0.le
    linarith
  have hx2 : b * y ≤ (1 + e) + (b - (1 + e)) * y := by nlinarith
  have hc : Real.cosh (α * r) = (1 + e) + (b - (1 + e)) * y := by
    rw [hrdef]
    unfold sampledRadius
    rw [mul_div_cancel₀ _ hα0.ne', Real.cosh_arcosh hx1]
  have h2 : b * y ≤ Real.exp (α * r) := by
    refine le_trans (hx2.trans hc.ge) ?_
    rw [Real.cosh_eq]
    have : Real.exp (-(α * r)) ≤ Real.exp (α * r) := Real.exp_le_exp.2 (by nlinarith)
    linarith
  have h3 : Real.exp (α * R) / 2 ≤ b := by
    rw [hbdef, Real.cosh_eq]
    have := Real.exp_pos (-(α * R))
    linarith
  have h4 : Real.exp (α * R) / 2 * y ≤ Real.exp (α * r) := (mul_le_mul_of_nonneg_right h3 h0.le).trans h2
  have h5 : Real.exp (-(r / 2)) = Real.exp (α * r) ^ (-s) := by
    rw [← Real.exp_mul]; congr 1; rw [hs]; field_simp
  rw [h5]
  refine (Real.rpow_le_rpow_of_nonpos (by positivity) h4 (by linarith)).trans ?_
  rw [Real.mul_rpow (by positivity) h0.le, Real.div_rpow (Real.exp_pos _).le (by norm_num), ← Real.exp_mul]
  refine mul_le_mul_of_nonneg_right ?_ (Real.rpow_nonneg h0.le _)
  rw [show α * R * -s = -(R / 2) by rw [hs]; field_simp]
  rw [Real.rpow_neg (by norm_num), div_inv_eq_mul, mul_comm]
  refine mul_le_mul_of_nonneg_right ?_ (Real.exp_pos _).le
  calc (2 : ℝ) ^ s ≤ 2 ^ (1 : ℝ) := Real.rpow_le_rpow_of_exponent_le (by norm_num) hs1.le
    _ = 2 := Real.rpow_one 2

/-- the integral of a power -/
theorem lintegral_power {s : ℝ} (hs1 : s < 1) :
    ∫⁻ y in Set.Ico (0 : ℝ) 1, ENNReal.ofReal (y ^ (-s)) = ENNReal.ofReal (1 / (1 - s)) := by
  have hii := intervalIntegral.intervalIntegrable_rpow' (a := 0) (b := 1) (r := -s) (by linarith)
  have hv := integral_rpow (a := 0) (b := 1) (r := -s) (Or.inl (by linarith))
  rw [Real.one_rpow, Real.zero_rpow (by linarith), sub_zero, show -s + 1 = 1 - s by ring] at hv
  rw [intervalIntegral.integral_of_le (by norm_num)] at hv
  rw [← hv, restrict_Ico_eq_restrict_Ioc, ofReal_integral_eq_lintegral_ofReal]
  · exact (intervalIntegrable_iff_integrableOn_Ioc_of_le (by norm_num)).1 hii
  · refine (ae_restrict_iff' measurableSet_Ioc).2 (Filter.Eventually.of_forall fun y hy => ?_)
    exact Real.rpow_nonneg hy.1.le _

theorem uniformPositions_pos (n D : ℕ) : ∀ᵐ X ∂uniformPositions n D, ∀ u d, X u d ∈ Set.Ioo (0 : ℝ) 1 := by
  have h1 : ∀ᵐ x : ℝ ∂(volume.restrict (Set.Ico (0 : ℝ) 1)), x ∈ Set.Ioo (0 : ℝ) 1 := by
    rw [← restrict_Ioo_eq_restrict_Ico]
    exact ae_restrict_mem measurableSet_Ioo
  have : IsProbabilityMeasure (volume.restrict (Set.Ico (0 : ℝ) 1)) := ⟨by simp⟩
  rw [ae_all_iff]
  intro u
  have h2 : ∀ᵐ x ∂unitCube D, ∀ d, x d ∈ Set.Ioo (0 : ℝ) 1 := by
    rw [ae_all_iff]
    intro d
    unfold unitCube
    exact (measurePreserving_eval (fun _ : Fin D => volume.restrict (Set.Ico (0 : ℝ) 1)) d).quasiMeasurePreserving.ae h1
  unfold uniformPositions
  exact (measurePreserving_eval (fun _ : Fin n => unitCube D) u).quasiMeasurePreserving.ae h2

/-- one coordinate of uniform positions -/
theorem lintegral_coord {n : ℕ} (u : Fin n) {f : ℝ → ℝ≥0∞} (hf : Measurable f) :
    ∫⁻ X, f (X u 0) ∂uniformPositions n 1 = ∫⁻ y in Set.Ico (0 : ℝ) 1, f y := by
  have : IsProbabilityMeasure (volume.restrict (Set.Ico (0 : ℝ) 1)) := ⟨by simp⟩
  have h1 := (measurePreserving_eval (fun _ : Fin n => unitCube 1) u).lintegral_comp (f := fun p : Fin 1 → ℝ => f (p 0)) (hf.comp (measurable_pi_apply 0))
  have h2 := (measurePreserving_eval (fun _ : Fin 1 => volume.restrict (Set.Ico (0 : ℝ) 1)) 0).lintegral_comp (f := f) hf
  unfold uniformPositions
  exact h1.trans h2

/-- two independent coordinates -/
theorem lintegral_coords {n : ℕ} {u v : Fin n} (huv : u ≠ v) {f : ℝ → ℝ≥0∞} (hf : Measurable f) :
    ∫⁻ X, f (X u 0) * f (X v 0) ∂uniformPositions n 1 = (∫⁻ y in Set.Ico (0 : ℝ) 1, f y) * ∫⁻ y in Set.Ico (0 : ℝ) 1, f y := by
  have : IsProbabilityMeasure (volume.restrict (Set.Ico (0 : ℝ) 1)) := ⟨by simp⟩
  have hi := ProbabilityTheory.iIndepFun_pi (μ := fun _ : Fin n => unitCube 1) (X := fun _ => fun p : Fin 1 → ℝ => f (p 0))
    (fun _ => (hf.comp (measurable_pi_apply 0)).aemeasurable)
  have h1 := ProbabilityTheory.lintegral_mul_eq_lintegral_mul_lintegral_of_indepFun'' (μ := uniformPositions n 1)
    (f := fun X : Fin n → Fin 1 → ℝ => f (X u 0)) (g := fun X : Fin n → Fin 1 → ℝ => f (X v 0))
    (hf.comp ((measurable_pi_apply 0).comp (measurable_pi_apply u))).aemeasurable
    (hf.comp ((measurable_pi_apply 0).comp (measurable_pi_apply v))).aemeasurable (hi.indepFun huv)
  rw [h1, lintegral_coord u hf, lintegral_coord v hf]

/-- the expected sum over the pairs -/
theorem expected_pairSum (n : ℕ) (hα : 1 / 2 < α) (hR : 2 / 3 ≤ R) :
    ∫⁻ Y, ENNReal.ofReal (hypPairSum (sampledRadii α R Y) R) ∂uniformPositions n 1 ≤
      ENNReal.ofReal (2 * (2 * α / (2 * α - 1)) ^ 2 * n ^ 2 * Real.exp (-(R / 2))) := by
  have hα0 : 0 < α := by linarith
  set s := 1 / (2 * α) with hs
  have hs0 : 0 < s := by positivity
  have hs1 : s < 1 := by rw [hs, div_lt_one (by positivity)]; linarith
  set f : ℝ → ℝ≥0∞ := fun y => ENNReal.ofReal (y ^ (-s)) with hf
  have hfm : Measurable f := ENNReal.measurable_ofReal.comp (by fun_prop)
  set g : ℕ → (Fin n → Fin 1 → ℝ) → ℝ≥0∞ := fun u Y => if h : u < n then f (Y ⟨u, h⟩ 0) else 0 with hg
  set c := 4 * Real.exp (-(R / 2)) with hc
  have hc0 : 0 < c := by positivity
  have hae : ∀ᵐ Y ∂uniformPositions n 1, ENNReal.ofReal (hypPairSum (sampledRadii α R Y) R) ≤
      ∑ v ∈ Finset.range n, ∑ u ∈ Finset.range v, ENNReal.ofReal c * (g u Y * g v Y) := by
    filter_upwards [uniformPositions_pos n 1] with Y hY
    unfold hypPairSum
    rw [ENNReal.ofReal_sum_of_nonneg fun _ _ => Finset.sum_nonneg fun _ _ => (Real.exp_pos _).le]
    rw [show (sampledRadii α R Y).length = n by simp [sampledRadii]]
    refine Finset.sum_le_sum fun v hv => ?_
    rw [ENNReal.ofReal_sum_of_nonneg fun _ _ => (Real.exp_pos _).le]
    refine Finset.sum_le_sum fun u hu => ?_
    rw [Finset.mem_range] at hu hv
    have hun : u < n := by omega
    have e1 : ∀ i (hi : i < n), (sampledRadii α R Y).getD i 0 = sampledRadius α R (Y ⟨i, hi⟩ 0) := by
      intro i hi
      rw [List.getD_eq_getElem?_getD, List.getElem?_eq_getElem (by simpa [sampledRadii] using hi)]
      simp [sampledRadii]
    rw [e1 u hun, e1 v hv]
    simp only [hg, hun, hv, dite_true, hf]
    obtain ⟨hu0, hu1⟩ := hY ⟨u, hun⟩ 0
    obtain ⟨hv0, hv1⟩ := hY ⟨v, hv⟩ 0
    have b1 := exp_radius_le hα hR hu0 hu1
    have b2 := exp_radius_le hα hR hv0 hv1
    rw [← hs] at b1 b2
    rw [← ENNReal.ofReal_mul (Real.rpow_nonneg hu0.le _), ← ENNReal.ofReal_mul hc0.le]
    refine ENNReal.ofReal_le_ofReal ?_
    set ru := sampledRadius α R (Y ⟨u, hun⟩ 0)
    set rv := sampledRadius α R (Y ⟨v, hv⟩ 0)
    have e2 : Real.exp ((R - ru - rv) / 2) = Real.exp (R / 2) * (Real.exp (-(ru / 2)) * Real.exp (-(rv / 2))) := by
      rw [← Real.exp_add, ← Real.exp_add]; congr 1; ring
    rw [e2]
    refine (mul_le_mul_of_nonneg_left (mul_le_mul b1 b2 (Real.exp_pos _).le (le_trans (Real.exp_pos _).le b1)) (Real.exp_pos _).le).trans (le_of_eq ?_)
    have e3 : Real.exp (R / 2) * Real.exp (-(R / 2)) = 1 := by rw [← Real.exp_add]; simp
    rw [hc]
    linear_combination (4 * Real.exp (-(R / 2)) * (Y ⟨u, hun⟩ 0) ^ (-s) * (Y ⟨v, hv⟩ 0) ^ (-s)) * e3
  refine le_trans (lintegral_mono_ae hae) ?_
  have hgm : ∀ u, Measurable (g u) := by
    intro u
    simp only [hg]
    by_cases h : u < n
    · simp only [h, dite_true]
      exact hfm.comp ((measurable_pi_apply 0).comp (measurable_pi_apply _))
    · simp only [h, dite_false]; exact measurable_const
  have hm : ∀ u v, Measurable fun Y => ENNReal.ofReal c * (g u Y * g v Y) := fun u v => ((hgm u).mul (hgm v)).const_mul _
  rw [lintegral_finset_sum _ fun v _ => Finset.measurable_sum _ fun u _ => hm u v]
  simp_rw [lintegral_finset_sum _ fun u _ => hm u _]
  set K := 1 / (1 - s) with hK
  have hK0 : 0 < K := by rw [hK]; exact one_div_pos.2 (by linarith)
  have hterm : ∀ v ∈ Finset.range n, ∀ u ∈ Finset.range v, ∫⁻ Y, ENNReal.ofReal c * (g u Y * g v Y) ∂uniformPositions n 1 = ENNReal.ofReal (c * (K * K)) := by
    intro v hv u hu
    rw [Finset.mem_range] at hu hv
    have hun : u < n := by omega
    rw [lintegral_const_mul' _ _ ENNReal.ofReal_ne_top]
    simp only [hg, hun, hv, dite_true]
    rw [lintegral_coords (by intro h; rw [Fin.mk.injEq] at h; omega) hfm]
    simp only [hf]
    rw [lintegral_power hs1, ← ENNReal.ofReal_mul hK0.le, ← ENNReal.ofReal_mul hc0.le]
  rw [Finset.sum_congr rfl fun v hv => Finset.sum_congr rfl fun u hu => hterm v hv u hu]
  simp only [Finset.sum_const, Finset.card_range, nsmul_eq_mul]
  rw [← Finset.sum_mul, ← Nat.cast_sum, Finset.sum_range_id, ← ENNReal.ofReal_natCast, ← ENNReal.ofReal_mul (Nat.cast_nonneg _)]
  refine ENNReal.ofReal_le_ofReal ?_
  have h1 : ((n * (n - 1) / 2 : ℕ) : ℝ) ≤ n ^ 2 / 2 := by
    refine (Nat.cast_div_le).trans ?_
    rw [Nat.cast_two]
    refine div_le_div_of_nonneg_right ?_ (by norm_num)
    have : n * (n - 1) ≤ n ^ 2 := by rw [sq]; exact Nat.mul_le_mul_left _ (by omega)
    exact_mod_cast this
  have h2 : K = 2 * α / (2 * α - 1) := by
    rw [hK, hs]
    have : 2 * α - 1 ≠ 0 := by linarith
    field_simp
  rw [← h2]
  refine (mul_le_mul_of_nonneg_right h1 (by positivity)).trans (le_of_eq ?_)
  rw [hc]; ring

end
end Girgs
