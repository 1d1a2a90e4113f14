import Verif.Proofs.TorusVolume
import Verif.Proofs.ScalingAlphaFn
import Mathlib.MeasureTheory.Integral.Prod
/-
Expected average degrees in closed form.
-/
namespace Girgs.Scaling
open Spec MeasureTheory Set

variable {D : ℕ}

theorem unitCube_ae (D : ℕ) : ∀ᵐ q ∂unitCube D, ∀ d, q d ∈ Ico (0 : ℝ) 1 := by
  rw [ae_all_iff]
  intro d
  unfold unitCube
  haveI : IsProbabilityMeasure (volume.restrict (Ico (0 : ℝ) 1)) := ⟨by simp⟩
  exact (measurePreserving_eval (fun _ : Fin D => volume.restrict (Ico (0 : ℝ) 1)) d).quasiMeasurePreserving.ae
    (ae_restrict_mem measurableSet_Ico)

/-- the expectation of a function of two of the positions -/
theorem pair_expect {n : ℕ} {f : (Fin D → ℝ) → (Fin D → ℝ) → ℝ} (hm : Measurable fun z : (Fin D → ℝ) × (Fin D → ℝ) => f z.1 z.2)
    (hb : ∀ p q, |f p q| ≤ 1) {k : ℝ} (hk : ∀ q : Fin D → ℝ, (∀ d, q d ∈ Ico (0 : ℝ) 1) → ∫ p, f p q ∂unitCube D = k) {u v : Fin n} (huv : u ≠ v) :
    ∫ x, f (x u) (x v) ∂uniformPositions n D = k := by
  obtain ⟨m, rfl⟩ : ∃ m, n = m + 1 := ⟨n - 1, by have := u.2; omega⟩
  obtain ⟨j, rfl⟩ := Fin.exists_succAbove_eq huv.symm
  have mp := measurePreserving_piFinSuccAbove (fun _ : Fin (m + 1) => unitCube D) u
  have e : ∀ x : Fin (m + 1) → Fin D → ℝ, f (x u) (x (u.succAbove j)) =
      (fun z : (Fin D → ℝ) × (Fin m → Fin D → ℝ) => f z.1 (z.2 j)) (MeasurableEquiv.piFinSuccAbove (fun _ => Fin D → ℝ) u x) := by
    intro x
    rfl
  unfold uniformPositions
  rw [integral_congr_ae (Filter.Eventually.of_forall e)]
  rw [mp.integral_comp' (g := fun z : (Fin D → ℝ) × (Fin m → Fin D → ℝ) => f z.1 (z.2 j))]
  have hmeas : Measurable fun z : (Fin D → ℝ) × (Fin m → Fin D → ℝ) => f z.1 (z.2 j) :=
    hm.comp (measurable_fst.prodMk ((measurable_pi_apply j).comp measurable_snd))
  rw [integral_prod_symm]
  · have : ∀ᵐ y ∂(Measure.pi fun _ : Fin m => unitCube D), ∫ x, f x (y j) ∂unitCube D = k := by
      have := (measurePreserving_eval (fun _ : Fin m => unitCube D) j).quasiMeasurePreserving.ae (unitCube_ae D)
      filter_upwards [this] with y hy using hk _ hy
    rw [integral_congr_ae this]
    simp
  · exact Integrable.of_bound hmeas.aestronglyMeasurable 1 (Filter.Eventually.of_forall fun z => hb _ _)

/-- the expectation of the connection probability of the threshold rule -/
theorem threshold_expect (hD : 1 ≤ D) {q : Fin D → ℝ} (hq : ∀ d, q d ∈ Ico (0 : ℝ) 1) {t : ℝ} (ht : 0 < t) :
    ∫ p, ({p | torusDist p q ^ D < t} : Set (Fin D → ℝ)).indicator (fun _ => (1 : ℝ)) p ∂unitCube D = probThreshold (2 ^ D * t) := by
  have hm : MeasurableSet {p : Fin D → ℝ | torusDist p q ^ D < t} :=
    measurableSet_lt ((torusDist_measurable.comp (measurable_id.prodMk measurable_const)).pow_const D) measurable_const
  rw [integral_indicator hm]
  simp only [integral_const, smul_eq_mul, mul_one, measureReal_restrict_apply_univ]
  exact torus_pow_volume hD hq ht

/-- connection probability as a function of the distance -/
noncomputable def connProb (D : ℕ) (α t r : ℝ) : ℝ := if r = 0 then 1 else min 1 ((t / r ^ D) ^ α)

theorem lt_connProb (hD : 1 ≤ D) {α t r s : ℝ} (hα : 0 < α) (ht : 0 < t) (hr : 0 ≤ r) (hs : 0 < s) (hs1 : s < 1) :
    s < connProb D α t r ↔ r ^ D < t * s ^ (-(1 / α)) := by
  unfold connProb
  have hk : 0 < t * s ^ (-(1 / α)) := mul_pos ht (Real.rpow_pos_of_pos hs _)
  split_ifs with h
  · simp only [hs1, true_iff, h, zero_pow (by omega : D ≠ 0)]
    exact hk
  have hr' : 0 < r ^ D := pow_pos (lt_of_le_of_ne hr (Ne.symm h)) D
  have hs' : s ^ (-(1 / α)) = (s ^ (1 / α))⁻¹ := Real.rpow_neg hs.le _
  have hsp : 0 < s ^ (1 / α) := Real.rpow_pos_of_pos hs _
  rw [lt_min_iff, and_iff_right hs1, hs', ← div_eq_mul_inv, lt_div_iff₀ hsp, mul_comm, ← lt_div_iff₀ hr']
  have e : s = (s ^ (1 / α)) ^ α := by rw [← Real.rpow_mul hs.le, one_div_mul_cancel hα.ne', Real.rpow_one]
  conv_lhs => rw [e]
  exact Real.rpow_lt_rpow_iff hsp.le (by positivity) hα

theorem connProb_mem (α t r : ℝ) (ht : 0 < t) (hr : 0 ≤ r) : 0 ≤ connProb D α t r ∧ connProb D α t r ≤ 1 := by
  unfold connProb
  split_ifs
  · exact ⟨zero_le_one, le_rfl⟩
  · exact ⟨le_min zero_le_one (Real.rpow_nonneg (by positivity) _), min_le_left _ _⟩

theorem connProb_measurable (D : ℕ) (α t : ℝ) : Measurable (connProb D α t) := by
  unfold connProb
  refine Measurable.ite (measurableSet_eq) measurable_const ?_
  fun_prop

/-- the integral behind the closed form -/
theorem tail_integral {α τ : ℝ} (hα : 0 < α) (hα1 : α ≠ 1) (hτ : 0 < τ) :
    ∫ s in Ioo (0 : ℝ) 1, min 1 (τ * s ^ (-(1 / α))) = probAlpha α τ := by
  rw [← integral_Ioc_eq_integral_Ioo, ← intervalIntegral.integral_of_le zero_le_one]
  unfold probAlpha
  split_ifs with h
  · rw [intervalIntegral.integral_congr_ae (g := fun _ => (1 : ℝ))]
    · simp
    · refine Filter.Eventually.of_forall fun s hs => ?_
      rw [uIoc_of_le zero_le_one] at hs
      apply min_eq_left
      have : 1 ≤ s ^ (-(1 / α)) := Real.one_le_rpow_of_pos_of_le_one_of_nonpos hs.1 hs.2 (by simp [hα.le])
      nlinarith
  push Not at h
  have hp : 0 < τ ^ α := Real.rpow_pos_of_pos hτ _
  have hp1 : τ ^ α < 1 := Real.rpow_lt_one hτ.le h hα
  have i1 : ∀ s ∈ uIoc 0 (τ ^ α), min 1 (τ * s ^ (-(1 / α))) = 1 := by
    intro s hs
    rw [uIoc_of_le hp.le] at hs
    apply min_eq_left
    have h1 : (τ ^ α) ^ (-(1 / α)) ≤ s ^ (-(1 / α)) := Real.rpow_le_rpow_of_nonpos hs.1 hs.2 (by simp [hα.le])
    rw [← Real.rpow_mul hτ.le, show α * -(1 / α) = -1 by field_simp, Real.rpow_neg_one] at h1
    calc (1 : ℝ) = τ * τ⁻¹ := (mul_inv_cancel₀ hτ.ne').symm
      _ ≤ _ := mul_le_mul_of_nonneg_left h1 hτ.le
  have i2 : ∀ s ∈ uIcc (τ ^ α) 1, min 1 (τ * s ^ (-(1 / α))) = τ * s ^ (-(1 / α)) := by
    intro s hs
    rw [uIcc_of_le hp1.le] at hs
    apply min_eq_right
    have h1 : s ^ (-(1 / α)) ≤ (τ ^ α) ^ (-(1 / α)) := Real.rpow_le_rpow_of_nonpos hp hs.1 (by simp [hα.le])
    rw [← Real.rpow_mul hτ.le, show α * -(1 / α) = -1 by field_simp, Real.rpow_neg_one] at h1
    calc _ ≤ τ * τ⁻¹ := mul_le_mul_of_nonneg_left h1 hτ.le
      _ = 1 := mul_inv_cancel₀ hτ.ne'
  have hzero : (0 : ℝ) ∉ uIcc (τ ^ α) 1 := by
    rw [uIcc_of_le hp1.le]; intro h0; exact absurd h0.1 (not_le.2 hp)
  have c2 : ContinuousOn (fun s : ℝ => τ * s ^ (-(1 / α))) (uIcc (τ ^ α) 1) := by
    refine continuousOn_const.mul (continuousOn_id.rpow_const fun s hs => Or.inl ?_)
    rintro rfl; exact hzero hs
  have e1 : ∫ s in (0 : ℝ)..(τ ^ α), min 1 (τ * s ^ (-(1 / α))) = τ ^ α := by
    rw [intervalIntegral.integral_congr_ae (g := fun _ => (1 : ℝ)) (Filter.Eventually.of_forall i1)]
    simp
  have hne : -(1 / α) ≠ -1 := by
    intro h2
    have : (1 : ℝ) / α = 1 := neg_injective h2
    rw [div_eq_iff hα.ne'] at this
    exact hα1 (by linarith)
  have e2 : ∫ s in (τ ^ α)..1, min 1 (τ * s ^ (-(1 / α))) = τ * ((1 - τ ^ (α - 1)) / (1 - 1 / α)) := by
    rw [intervalIntegral.integral_congr (g := fun s => τ * s ^ (-(1 / α))) i2, intervalIntegral.integral_const_mul,
      integral_rpow (Or.inr ⟨hne, hzero⟩), Real.one_rpow, ← Real.rpow_mul hτ.le,
      show α * (-(1 / α) + 1) = α - 1 by field_simp; ring, show -(1 / α) + 1 = 1 - 1 / α by ring]
  rw [← intervalIntegral.integral_add_adjacent_intervals (b := τ ^ α), e1, e2]
  · unfold rawAlpha
    have hα1' : α - 1 ≠ 0 := sub_ne_zero.2 hα1
    rw [Real.rpow_sub_one hτ.ne', show (1 : ℝ) - 1 / α = (α - 1) / α by field_simp]
    field_simp
    ring
  · refine IntervalIntegrable.congr_ae (f := fun _ => (1 : ℝ)) intervalIntegrable_const ?_
    exact (ae_restrict_iff' measurableSet_uIoc).2 (Filter.Eventually.of_forall fun s hs => (i1 s hs).symm)
  · refine IntervalIntegrable.congr_ae (c2.intervalIntegrable) ?_
    exact (ae_restrict_iff' measurableSet_uIoc).2 (Filter.Eventually.of_forall fun s hs => (i2 s (uIoc_subset_uIcc hs)).symm)

/-- the expectation of the connection probability of the probabilistic rule, as an integral -/
theorem conn_integral (hD : 1 ≤ D) {q : Fin D → ℝ} (hq : ∀ d, q d ∈ Ico (0 : ℝ) 1) {α t : ℝ} (hα : 0 < α) (ht : 0 < t) :
    ∫ p, connProb D α t (torusDist p q) ∂unitCube D = ∫ s in Ioo (0 : ℝ) 1, min 1 (2 ^ D * t * s ^ (-(1 / α))) := by
  have hdm : Measurable fun p : Fin D → ℝ => torusDist p q := torusDist_measurable.comp (measurable_id.prodMk measurable_const)
  have hint : Integrable (fun p => connProb D α t (torusDist p q)) (unitCube D) := by
    refine Integrable.of_bound ((connProb_measurable D α t).comp hdm).aestronglyMeasurable 1 (Filter.Eventually.of_forall fun p => ?_)
    obtain ⟨h1, h2⟩ := connProb_mem (D := D) α t _ ht (torusDist_nonneg p q)
    rw [Real.norm_eq_abs, abs_of_nonneg h1]; exact h2
  rw [hint.integral_eq_integral_meas_lt (Filter.Eventually.of_forall fun p => (connProb_mem α t _ ht (torusDist_nonneg p q)).1)]
  rw [← Ioo_union_Ici_eq_Ioi (zero_lt_one' ℝ), setIntegral_union]
  · have h0 : ∫ s in Ici (1 : ℝ), (unitCube D).real {p | s < connProb D α t (torusDist p q)} = 0 := by
      rw [setIntegral_congr_fun (g := fun _ => (0 : ℝ)) measurableSet_Ici]
      · simp
      · intro s hs
        have : {p : Fin D → ℝ | s < connProb D α t (torusDist p q)} = ∅ := by
          ext p
          simp only [mem_setOf_eq, mem_empty_iff_false, iff_false, not_lt]
          exact (connProb_mem α t _ ht (torusDist_nonneg p q)).2.trans hs
        show (unitCube D).real {p | s < connProb D α t (torusDist p q)} = 0
        rw [this]; simp
    rw [h0, add_zero]
    refine setIntegral_congr_fun measurableSet_Ioo fun s hs => ?_
    have e : {p : Fin D → ℝ | s < connProb D α t (torusDist p q)} = {p | torusDist p q ^ D < t * s ^ (-(1 / α))} := by
      ext p
      exact lt_connProb hD hα ht (torusDist_nonneg p q) hs.1 hs.2
    show (unitCube D).real {p | s < connProb D α t (torusDist p q)} = _
    rw [e, torus_pow_volume hD hq (mul_pos ht (Real.rpow_pos_of_pos hs.1 _)), mul_assoc]
  · rw [Set.disjoint_left]
    rintro s ⟨_, h2⟩ h3
    exact absurd h3 (not_le.2 h2)
  · exact measurableSet_Ici
  · refine Integrable.of_bound ?_ 1 (Filter.Eventually.of_forall fun s => ?_)
    · refine (Measurable.aestronglyMeasurable ?_)
      refine (Antitone.measurable fun a b hab => ?_)
      exact measureReal_mono fun p (hp : b < _) => lt_of_le_of_lt hab hp
    · rw [Real.norm_eq_abs, abs_of_nonneg measureReal_nonneg]
      exact measureReal_le_one
  · refine (Integrable.congr (f := fun _ => (0 : ℝ)) (integrable_zero _ _ _) ?_)
    refine (ae_restrict_iff' measurableSet_Ici).2 (Filter.Eventually.of_forall fun s hs => ?_)
    have : {p : Fin D → ℝ | s < connProb D α t (torusDist p q)} = ∅ := by
      ext p
      simp only [mem_setOf_eq, mem_empty_iff_false, iff_false, not_lt]
      exact (connProb_mem α t _ ht (torusDist_nonneg p q)).2.trans hs
    show 0 = (unitCube D).real {p | s < connProb D α t (torusDist p q)}
    rw [this]; simp

/-- the expectation of the connection probability of the probabilistic rule -/
theorem conn_expect (hD : 1 ≤ D) {q : Fin D → ℝ} (hq : ∀ d, q d ∈ Ico (0 : ℝ) 1) {α t : ℝ} (hα : 0 < α) (hα1 : α ≠ 1) (ht : 0 < t) :
    ∫ p, connProb D α t (torusDist p q) ∂unitCube D = probAlpha α (2 ^ D * t) := by
  rw [conn_integral hD hq hα ht, tail_integral hα hα1 (by positivity)]

end Girgs.Scaling
