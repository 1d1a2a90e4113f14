import Verif.Props.SampleLawHyper
import Verif.Proofs.HypConn
import Mathlib.Analysis.SpecialFunctions.Integrals.Basic
import Mathlib.Analysis.Complex.ExponentialBounds
/-
Exponential moments of the radial distribution.
-/
namespace Girgs.HypDeg
open MeasureTheory Set Spec Props
open Real (exp cosh sinh)
open scoped ENNReal

/-- the distribution of the radii -/
noncomputable def radialLaw (α R : ℝ) : Measure ℝ := (uniformLaw (1 + 1 / 2 ^ 52) (cosh (α * R))).map (radiusVal α)

/-- an exponential moment as an integral over the radius -/
theorem moment_eq {α R c : ℝ} (hα : 0 < α) (hR : 0 < R) (hc : 1 < c) (hcR : c < cosh (α * R)) (g : ℝ → ℝ≥0∞) :
    ∫⁻ u in Ico c (cosh (α * R)), g (radiusVal α u) =
      ∫⁻ r in Ico (radiusVal α c) R, ENNReal.ofReal (α * sinh (α * r)) * g r := by
  have hr0 : 0 < radiusVal α c := by
    unfold radiusVal
    have := Real.arcosh_pos hc
    positivity
  have e0 : cosh (α * radiusVal α c) = c := by
    unfold radiusVal
    rw [mul_comm, mul_assoc, one_div_mul_cancel hα.ne', mul_one, Real.cosh_arcosh hc.le]
  have hmono : ∀ a b, 0 ≤ a → a < b → cosh (α * a) < cosh (α * b) := fun a b ha hab => by
    rw [Real.cosh_lt_cosh, abs_of_nonneg (by positivity), abs_of_nonneg (by have := ha.trans hab.le; positivity)]
    exact mul_lt_mul_of_pos_left hab hα
  have hset : (fun r => cosh (α * r)) '' Ico (radiusVal α c) R = Ico c (cosh (α * R)) := by
    ext u
    constructor
    · rintro ⟨r, hr, rfl⟩
      refine ⟨?_, hmono _ _ (hr0.le.trans hr.1) hr.2⟩
      rcases hr.1.eq_or_lt with h | h
      · rw [← h]; exact e0.ge
      · rw [← e0]; exact (hmono _ _ hr0.le h).le
    · intro hu
      have hu1 : 1 ≤ u := hc.le.trans hu.1
      have e : cosh (α * radiusVal α u) = u := by
        unfold radiusVal
        rw [mul_comm, mul_assoc, one_div_mul_cancel hα.ne', mul_one, Real.cosh_arcosh hu1]
      have hu0 : 0 ≤ radiusVal α u := by
        unfold radiusVal
        have := Real.arcosh_nonneg hu1
        positivity
      refine ⟨radiusVal α u, ⟨?_, ?_⟩, e⟩
      · by_contra h
        push Not at h
        have := hmono _ _ hu0 h
        rw [e, e0] at this
        linarith [hu.1]
      · by_contra h
        push Not at h
        rcases h.eq_or_lt with h | h
        · rw [← h] at e; linarith [hu.2]
        · have := hmono _ _ hR.le h
          rw [e] at this
          linarith [hu.2]
  have hd : ∀ r ∈ Ico (radiusVal α c) R, HasDerivWithinAt (fun r => cosh (α * r)) (α * sinh (α * r)) (Ico (radiusVal α c) R) r := by
    intro r _
    have := ((hasDerivAt_id r).const_mul α).cosh
    refine (this.congr_deriv ?_).hasDerivWithinAt
    simp only [id, mul_one]
    ring
  have hinj : InjOn (fun r => cosh (α * r)) (Ico (radiusVal α c) R) := by
    intro a ha b hb hab
    dsimp only at hab
    rcases lt_trichotomy a b with h | h | h
    · have := hmono _ _ (hr0.le.trans ha.1) h; linarith
    · exact h
    · have := hmono _ _ (hr0.le.trans hb.1) h; linarith
  have := lintegral_image_eq_lintegral_abs_deriv_mul measurableSet_Ico hd hinj fun u => g (radiusVal α u)
  rw [hset] at this
  rw [this]
  refine setLIntegral_congr_fun measurableSet_Ico fun r hr => ?_
  have hr1 : 0 ≤ r := hr0.le.trans hr.1
  have e1 : radiusVal α (cosh (α * r)) = r := by
    unfold radiusVal
    rw [Real.arcosh_cosh (by positivity)]
    field_simp
  have e2 : 0 ≤ α * sinh (α * r) := mul_nonneg hα.le (Real.sinh_nonneg_iff.2 (by positivity))
  simp only [e1, abs_of_nonneg e2]

theorem lintegral_exp {k a b : ℝ} (hk : k ≠ 0) (hab : a ≤ b) :
    ∫⁻ r in Ico a b, ENNReal.ofReal (exp (k * r)) = ENNReal.ofReal ((exp (k * b) - exp (k * a)) / k) := by
  have e : ∫ r in a..b, exp (k * r) = (exp (k * b) - exp (k * a)) / k := by
    rw [intervalIntegral.integral_comp_mul_left (fun x => exp x) hk, integral_exp, smul_eq_mul]
    field_simp
  rw [← e, intervalIntegral.integral_of_le hab, setLIntegral_congr Ico_ae_eq_Ioc,
    ofReal_integral_eq_lintegral_ofReal ?_ (Filter.Eventually.of_forall fun r => (Real.exp_pos _).le)]
  have : IntervalIntegrable (fun r => exp (k * r)) volume a b := (by fun_prop : Continuous fun r => exp (k * r)).intervalIntegrable _ _
  rwa [intervalIntegrable_iff_integrableOn_Ioc_of_le hab] at this

theorem moment_raw {α R β : ℝ} :
    ∫⁻ r, ENNReal.ofReal (exp (-β * r)) ∂radialLaw α R =
      (ENNReal.ofReal (cosh (α * R) - (1 + 1 / 2 ^ 52)))⁻¹ *
        ∫⁻ u in Ico (1 + 1 / 2 ^ 52) (cosh (α * R)), ENNReal.ofReal (exp (-β * radiusVal α u)) := by
  unfold radialLaw uniformLaw
  rw [lintegral_map (by fun_prop) (radiusVal_meas α), lintegral_smul_measure, smul_eq_mul]

section
variable {α R : ℝ}

theorem cosh_gap (hαR : 1 ≤ α * R) : (1 : ℝ) + 1 / 2 ^ 52 < cosh (α * R) := by
  have h1 : (1 : ℝ) + 1 / 2 ^ 52 < 1.4 := by norm_num
  have h2 : (1.4 : ℝ) ≤ cosh (α * R) := by
    have h3 : cosh 1 ≤ cosh (α * R) := by
      rw [Real.cosh_le_cosh, abs_of_pos one_pos, abs_of_pos (by linarith)]; exact hαR
    have h4 := Real.exp_one_gt_d9
    have h5 := Real.cosh_eq 1
    have h6 := Real.exp_pos (-1)
    have h7 : exp 1 * exp (-1) = 1 := by rw [← Real.exp_add]; norm_num
    have h8 := Real.exp_one_lt_d9
    nlinarith
  linarith

theorem norm_bounds (hαR : 1 ≤ α * R) :
    exp (α * R) * (1 - 2.1 * exp (-(α * R))) ≤ 2 * (cosh (α * R) - (1 + 1 / 2 ^ 52)) ∧ 2 * (cosh (α * R) - (1 + 1 / 2 ^ 52)) ≤ exp (α * R) ∧
      0 < 1 - 2.1 * exp (-(α * R)) := by
  have h1 := Real.cosh_eq (α * R)
  have h2 : exp (α * R) * exp (-(α * R)) = 1 := by rw [← Real.exp_add]; simp
  have h3 := Real.exp_pos (-(α * R))
  have h4 : exp (-(α * R)) ≤ 1 := Real.exp_le_one_iff.2 (by linarith)
  have hε : (1 : ℝ) / 2 ^ 52 ≤ 0.05 := by norm_num
  have hε0 : (0 : ℝ) < 1 / 2 ^ 52 := by norm_num
  have h5 : 2.7 < exp (α * R) := by
    have := Real.exp_one_gt_d9
    have := Real.exp_le_exp.2 hαR
    linarith
  generalize (1 : ℝ) / 2 ^ 52 = ε at hε hε0
  refine ⟨by nlinarith, by linarith, by nlinarith⟩

theorem moment_upper {β : ℝ} (hα : 0 < α) (hR : 0 < R) (hαR : 1 ≤ α * R) (hβ0 : 0 ≤ β) (hβ : β < α) :
    ∫⁻ r, ENNReal.ofReal (exp (-β * r)) ∂radialLaw α R ≤ ENNReal.ofReal (α / (α - β) * exp (-β * R) / (1 - 2.1 * exp (-(α * R)))) := by
  have hgap := cosh_gap hαR
  obtain ⟨b1, b2, b3⟩ := norm_bounds hαR
  set c : ℝ := 1 + 1 / 2 ^ 52 with hc
  have hc1 : 1 < c := by rw [hc]; norm_num
  rw [moment_raw, ← hc, moment_eq hα hR hc1 hgap fun r => ENNReal.ofReal (exp (-β * r))]
  have hr0 : 0 ≤ radiusVal α c := by
    unfold radiusVal
    have := Real.arcosh_pos hc1
    positivity
  have hle : ∫⁻ r in Ico (radiusVal α c) R, ENNReal.ofReal (α * sinh (α * r)) * ENNReal.ofReal (exp (-β * r)) ≤
      ENNReal.ofReal (α / 2 * (exp ((α - β) * R) / (α - β))) := by
    calc _ ≤ ∫⁻ r in Ico (radiusVal α c) R, ENNReal.ofReal (α / 2) * ENNReal.ofReal (exp ((α - β) * r)) := by
          refine setLIntegral_mono' measurableSet_Ico fun r hr => ?_
          have hs : 0 ≤ sinh (α * r) := Real.sinh_nonneg_iff.2 (mul_nonneg hα.le (hr0.trans hr.1))
          rw [← ENNReal.ofReal_mul (by positivity), ← ENNReal.ofReal_mul (by positivity)]
          refine ENNReal.ofReal_le_ofReal ?_
          have e1 : exp ((α - β) * r) = exp (α * r) * exp (-β * r) := by rw [← Real.exp_add]; congr 1; ring
          have e2 : sinh (α * r) ≤ exp (α * r) / 2 := by
            rw [Real.sinh_eq]; have := Real.exp_pos (-(α * r)); linarith
          rw [e1]
          have := Real.exp_pos (-β * r)
          calc α * sinh (α * r) * exp (-β * r) ≤ α * (exp (α * r) / 2) * exp (-β * r) := by gcongr
            _ = _ := by ring
      _ ≤ ∫⁻ r in Ico 0 R, ENNReal.ofReal (α / 2) * ENNReal.ofReal (exp ((α - β) * r)) :=
          lintegral_mono_set (Ico_subset_Ico_left hr0)
      _ = ENNReal.ofReal (α / 2) * ENNReal.ofReal ((exp ((α - β) * R) - exp ((α - β) * 0)) / (α - β)) := by
          rw [lintegral_const_mul' _ _ (by simp), lintegral_exp (by linarith) hR.le]
      _ ≤ _ := by
          rw [← ENNReal.ofReal_mul (by positivity)]
          refine ENNReal.ofReal_le_ofReal ?_
          have : 0 < α - β := by linarith
          gcongr
          have := Real.exp_pos ((α - β) * 0)
          linarith
  refine (mul_le_mul le_rfl hle bot_le bot_le).trans ?_
  have hC : 0 < cosh (α * R) - c := by linarith
  rw [← ENNReal.ofReal_inv_of_pos hC, ← ENNReal.ofReal_mul (by positivity)]
  refine ENNReal.ofReal_le_ofReal ?_
  have hαβ : 0 < α - β := by linarith
  have e1 : exp ((α - β) * R) = exp (α * R) * exp (-β * R) := by rw [← Real.exp_add]; congr 1; ring
  rw [e1]
  have hE := Real.exp_pos (α * R)
  have hF := Real.exp_pos (-β * R)
  have key : (cosh (α * R) - c)⁻¹ ≤ 2 / (exp (α * R) * (1 - 2.1 * exp (-(α * R)))) := by
    rw [inv_eq_one_div, div_le_div_iff₀ hC (by positivity)]
    linarith
  calc (cosh (α * R) - c)⁻¹ * (α / 2 * (exp (α * R) * exp (-β * R) / (α - β)))
      ≤ 2 / (exp (α * R) * (1 - 2.1 * exp (-(α * R)))) * (α / 2 * (exp (α * R) * exp (-β * R) / (α - β))) := by gcongr
    _ = _ := by
      generalize 1 - 2.1 * exp (-(α * R)) = q at b3
      field_simp

theorem start_small {α c : ℝ} (hα : 0 < α) (hc1 : 1 < c) (hc2 : c ≤ 1.001) : exp (α * radiusVal α c) ≤ 1.1 := by
  have e : α * radiusVal α c = Real.arcosh c := by
    unfold radiusVal
    field_simp
  rw [e, Real.exp_arcosh hc1.le]
  have : √(c ^ 2 - 1) ≤ 0.09 := by
    rw [Real.sqrt_le_left (by norm_num)]
    nlinarith
  linarith

theorem moment_lower {β : ℝ} (hα : 0 < α) (hR : 0 < R) (hαR : 1 ≤ α * R) (hβ0 : 0 ≤ β) (hβ : β < α) :
    ENNReal.ofReal (α / (α - β) * exp (-β * R) * (1 - 2.1 * exp (-((α - β) * R)))) ≤ ∫⁻ r, ENNReal.ofReal (exp (-β * r)) ∂radialLaw α R := by
  have hgap := cosh_gap hαR
  obtain ⟨b1, b2, b3⟩ := norm_bounds hαR
  set c : ℝ := 1 + 1 / 2 ^ 52 with hc
  have hc1 : 1 < c := by rw [hc]; norm_num
  have hc2 : c ≤ 1.001 := by rw [hc]; norm_num
  rw [moment_raw, ← hc, moment_eq hα hR hc1 hgap fun r => ENNReal.ofReal (exp (-β * r))]
  clear_value c
  have hst := start_small hα hc1 hc2
  have hr0 : 0 < radiusVal α c := by
    unfold radiusVal
    have := Real.arcosh_pos hc1
    positivity
  have hr1 : radiusVal α c ≤ R := by
    by_contra h
    push Not at h
    have e0 : cosh (α * radiusVal α c) = c := by
      unfold radiusVal
      rw [mul_comm, mul_assoc, one_div_mul_cancel hα.ne', mul_one, Real.cosh_arcosh hc1.le]
    have : cosh (α * R) < cosh (α * radiusVal α c) := by
      rw [Real.cosh_lt_cosh, abs_of_pos (by positivity), abs_of_pos (by positivity)]
      exact mul_lt_mul_of_pos_left h hα
    linarith
  have hαβ : 0 < α - β := by linarith
  set I := ∫⁻ r in Ico (radiusVal α c) R, ENNReal.ofReal (α * sinh (α * r)) * ENNReal.ofReal (exp (-β * r)) with hI
  have h1 : ENNReal.ofReal (α / 2 * ((exp ((α - β) * R) - 1.1) / (α - β))) ≤ I + ENNReal.ofReal (α / 2 * (1 / (α - β))) := by
    calc ENNReal.ofReal (α / 2 * ((exp ((α - β) * R) - 1.1) / (α - β)))
        ≤ ENNReal.ofReal (α / 2) * ENNReal.ofReal ((exp ((α - β) * R) - exp ((α - β) * radiusVal α c)) / (α - β)) := by
          rw [← ENNReal.ofReal_mul (by positivity)]
          refine ENNReal.ofReal_le_ofReal ?_
          gcongr
          refine le_trans (Real.exp_le_exp.2 ?_) hst
          gcongr
          linarith
      _ = ∫⁻ r in Ico (radiusVal α c) R, ENNReal.ofReal (α / 2) * ENNReal.ofReal (exp ((α - β) * r)) := by
          rw [lintegral_const_mul' _ _ (by simp), lintegral_exp hαβ.ne' hr1]
      _ ≤ ∫⁻ r in Ico (radiusVal α c) R, (ENNReal.ofReal (α * sinh (α * r)) * ENNReal.ofReal (exp (-β * r)) +
            ENNReal.ofReal (α / 2) * ENNReal.ofReal (exp (-(α + β) * r))) := by
          refine setLIntegral_mono' measurableSet_Ico fun r hr => ?_
          have hs : 0 ≤ sinh (α * r) := Real.sinh_nonneg_iff.2 (mul_nonneg hα.le (hr0.le.trans hr.1))
          rw [← ENNReal.ofReal_mul (by positivity), ← ENNReal.ofReal_mul (by positivity), ← ENNReal.ofReal_mul (by positivity),
            ← ENNReal.ofReal_add (by positivity) (by positivity)]
          refine ENNReal.ofReal_le_ofReal (le_of_eq ?_)
          have e1 : exp ((α - β) * r) = exp (α * r) * exp (-β * r) := by rw [← Real.exp_add]; congr 1; ring
          have e2 : exp (-(α + β) * r) = exp (-(α * r)) * exp (-β * r) := by rw [← Real.exp_add]; congr 1; ring
          rw [e1, e2, Real.sinh_eq]
          ring
      _ = I + ENNReal.ofReal (α / 2) * ENNReal.ofReal ((exp (-(α + β) * R) - exp (-(α + β) * radiusVal α c)) / (-(α + β))) := by
          rw [lintegral_add_right _ (by fun_prop), lintegral_const_mul' _ _ (by simp), lintegral_exp (by linarith) hr1]
      _ ≤ _ := by
          rw [← ENNReal.ofReal_mul (by positivity)]
          refine add_le_add le_rfl (ENNReal.ofReal_le_ofReal ?_)
          refine mul_le_mul_of_nonneg_left ?_ (by positivity)
          rw [div_neg, ← neg_div, neg_sub]
          have q1 : exp (-(α + β) * radiusVal α c) ≤ 1 := Real.exp_le_one_iff.2 (by nlinarith)
          have q2 := Real.exp_pos (-(α + β) * R)
          have q3 : 0 < α + β := by linarith
          calc (exp (-(α + β) * radiusVal α c) - exp (-(α + β) * R)) / (α + β) ≤ 1 / (α + β) := by gcongr; linarith
            _ ≤ 1 / (α - β) := by gcongr; linarith
  have h2 : ENNReal.ofReal (α / 2 * ((exp ((α - β) * R) - 2.1) / (α - β))) ≤ I := by
    have := tsub_le_iff_right.2 h1
    rw [← ENNReal.ofReal_sub _ (by positivity)] at this
    refine le_trans (ENNReal.ofReal_le_ofReal (le_of_eq ?_)) this
    field_simp
    ring
  have hC : 0 < cosh (α * R) - c := by linarith
  refine le_trans ?_ (mul_le_mul le_rfl h2 bot_le bot_le)
  rw [← ENNReal.ofReal_inv_of_pos hC, ← ENNReal.ofReal_mul (by positivity)]
  rcases le_or_gt (exp ((α - β) * R) - 2.1) 0 with hneg | hpos
  · rw [ENNReal.ofReal_of_nonpos]
    · exact bot_le
    · have e1 : 1 - 2.1 * exp (-((α - β) * R)) = (exp ((α - β) * R) - 2.1) * exp (-((α - β) * R)) := by
        have : exp ((α - β) * R) * exp (-((α - β) * R)) = 1 := by rw [← Real.exp_add]; simp
        linear_combination -this
      rw [e1]
      exact mul_nonpos_of_nonneg_of_nonpos (by positivity) (mul_nonpos_of_nonpos_of_nonneg hneg (Real.exp_pos _).le)
  · refine ENNReal.ofReal_le_ofReal ?_
    have hE := Real.exp_pos (α * R)
    have key : 2 / exp (α * R) ≤ (cosh (α * R) - c)⁻¹ := by
      rw [inv_eq_one_div, div_le_div_iff₀ hE hC]
      linarith
    calc α / (α - β) * exp (-β * R) * (1 - 2.1 * exp (-((α - β) * R)))
        = 2 / exp (α * R) * (α / 2 * ((exp ((α - β) * R) - 2.1) / (α - β))) := by
          have e1 : exp (-((α - β) * R)) = exp (β * R) / exp (α * R) := by rw [← Real.exp_sub]; congr 1; ring
          have e2 : exp ((α - β) * R) = exp (α * R) / exp (β * R) := by rw [← Real.exp_sub]; congr 1; ring
          have e3 : exp (-β * R) = 1 / exp (β * R) := by rw [neg_mul, Real.exp_neg, one_div]
          have hb := Real.exp_pos (β * R)
          rw [e1, e2, e3]
          field_simp
      _ ≤ _ := by gcongr

end
end Girgs.HypDeg
