import Verif.Proofs.HypAngleLaw
import Mathlib.Analysis.SpecialFunctions.ImproperIntegrals
import Mathlib.Probability.Distributions.Beta
/-
The connection function of hyperbolic random graphs in terms of `v = exp((d - R) / 2)`: `1 / (1 + v^(1/T))`, and `v < 1` for temperature 0.
-/
namespace Girgs.HypDeg
open MeasureTheory Set Real
open scoped ENNReal

/-- connection probability for `v = exp((d - R) / 2)` -/
noncomputable def conn (T v : ℝ) : ℝ := if T = 0 then (if v < 1 then 1 else 0) else 1 / (1 + v ^ (1 / T))

/-- the integral of `conn T` -/
noncomputable def connC (T : ℝ) : ℝ := if T = 0 then 1 else π * T / sin (π * T)

theorem conn_measurable (T : ℝ) : Measurable (conn T) := by
  unfold conn
  by_cases h : T = 0
  · simp only [h, if_true]
    exact Measurable.ite measurableSet_Iio measurable_const measurable_const
  · simp only [h, if_false]
    fun_prop

theorem conn_nonneg' {T v : ℝ} (hv : 0 ≤ v) : 0 ≤ conn T v := by
  unfold conn
  split_ifs
  · norm_num
  · norm_num
  · have := rpow_nonneg hv (1 / T); positivity

theorem conn_le_one {T v : ℝ} (hv : 0 ≤ v) : conn T v ≤ 1 := by
  unfold conn
  split_ifs
  · norm_num
  · norm_num
  · have := rpow_nonneg hv (1 / T)
    rw [div_le_one (by linarith)]; linarith

theorem conn_anti {T v w : ℝ} (hT : 0 ≤ T) (hv : 0 ≤ v) (h : v ≤ w) : conn T w ≤ conn T v := by
  unfold conn
  split_ifs with h0 h1 h2 h2
  · exact le_rfl
  · linarith
  · norm_num
  · exact le_rfl
  · have h3 := rpow_nonneg hv (1 / T)
    have h4 := rpow_le_rpow hv h (by positivity : 0 ≤ 1 / T)
    exact div_le_div_of_nonneg_left (by norm_num) (by linarith) (by linarith)

theorem conn_le_rpow {T γ v : ℝ} (hT : 0 ≤ T) (hγ : 0 ≤ γ) (hTγ : T * γ ≤ 1) (hv : 0 < v) : conn T v ≤ v ^ (-γ) := by
  rcases le_or_gt 1 v with h1 | h1
  · unfold conn
    split_ifs with h0 h2
    · linarith
    · exact rpow_nonneg hv.le _
    · have hT0 : 0 < T := lt_of_le_of_ne hT (Ne.symm h0)
      have h3 := rpow_pos_of_pos hv (1 / T)
      calc 1 / (1 + v ^ (1 / T)) ≤ 1 / v ^ (1 / T) := div_le_div_of_nonneg_left (by norm_num) h3 (by linarith)
        _ = v ^ (-(1 / T)) := by rw [rpow_neg hv.le, one_div]
        _ ≤ v ^ (-γ) := by
          refine rpow_le_rpow_of_exponent_le h1 (neg_le_neg ?_)
          rw [le_div_iff₀ hT0]; linarith
  · refine (conn_le_one hv.le).trans ?_
    rw [rpow_neg hv.le]
    exact (one_le_inv₀ (rpow_pos_of_pos hv γ)).2 (rpow_le_one hv.le h1.le hγ)

theorem sin_piT {T : ℝ} (h0 : 0 < T) (h1 : T < 1) : 0 < sin (π * T) :=
  sin_pos_of_pos_of_lt_pi (by positivity) (by nlinarith [pi_pos])

theorem one_le_connC {T : ℝ} (h0 : 0 ≤ T) (h1 : T < 1) : 1 ≤ connC T := by
  unfold connC
  split_ifs with h
  · exact le_rfl
  · have hT : 0 < T := lt_of_le_of_ne h0 (Ne.symm h)
    rw [le_div_iff₀ (sin_piT hT h1), one_mul]
    exact sin_le (by positivity)

theorem tail_le_connC {T : ℝ} (h0 : 0 < T) (h1 : T < 1) : T / (1 - T) ≤ connC T := by
  unfold connC
  rw [if_neg h0.ne', div_le_div_iff₀ (by linarith) (sin_piT h0 h1)]
  have : sin (π * T) ≤ π * (1 - T) := by
    rw [← sin_pi_sub, show π - π * T = π * (1 - T) by ring]
    exact sin_le (by have := pi_pos; nlinarith)
  nlinarith

theorem rpow_tail {a p : ℝ} (ha : 0 < a) (hp : p < -1) : ∫⁻ v in Ioi a, ENNReal.ofReal (v ^ p) = ENNReal.ofReal (-a ^ (p + 1) / (p + 1)) := by
  rw [← integral_Ioi_rpow_of_lt hp ha, ofReal_integral_eq_lintegral_ofReal (integrableOn_Ioi_rpow_of_lt hp ha)]
  exact (ae_restrict_iff' measurableSet_Ioi).2 (Filter.Eventually.of_forall fun v hv => rpow_nonneg (ha.trans hv).le _)

/-- the integral of the connection function -/
theorem conn_integral {T : ℝ} (h0 : 0 ≤ T) (h1 : T < 1) : ∫⁻ v in Ioi 0, ENNReal.ofReal (conn T v) = ENNReal.ofReal (connC T) := by
  by_cases hT : T = 0
  · subst hT
    unfold conn connC
    simp only [if_true]
    have : ∀ v : ℝ, ENNReal.ofReal (if v < 1 then 1 else 0) = (Iio (1 : ℝ)).indicator (fun _ => 1) v := by
      intro v
      by_cases h : v < 1 <;> simp [h]
    simp only [this]
    rw [lintegral_indicator measurableSet_Iio, Measure.restrict_restrict measurableSet_Iio, Iio_inter_Ioi]
    simp
  · have hT0 : 0 < T := lt_of_le_of_ne h0 (Ne.symm hT)
    have hf : ∀ x ∈ Ioo (0 : ℝ) 1, HasDerivWithinAt (fun x : ℝ => (x / (1 - x)) ^ T) (1 / (1 - x) ^ 2 * T * (x / (1 - x)) ^ (T - 1)) (Ioo 0 1) x := by
      intro x hx
      have hx1 : (0 : ℝ) < 1 - x := by linarith [hx.2]
      have e1 := (hasDerivAt_id x).div ((hasDerivAt_id x).const_sub 1) (by simpa using hx1.ne')
      have e2 : HasDerivAt (fun x : ℝ => x / (1 - x)) (1 / (1 - x) ^ 2) x := by
        refine e1.congr_deriv ?_
        simp
      exact (e2.rpow_const (Or.inl (div_pos hx.1 hx1).ne')).hasDerivWithinAt
    have hmono : ∀ a ∈ Ioo (0 : ℝ) 1, ∀ b ∈ Ioo (0 : ℝ) 1, (a / (1 - a)) ^ T = (b / (1 - b)) ^ T → a = b := by
      intro a ha b hb h
      have ha1 : (0 : ℝ) < 1 - a := by linarith [ha.2]
      have hb1 : (0 : ℝ) < 1 - b := by linarith [hb.2]
      have := (rpow_left_inj (div_pos ha.1 ha1).le (div_pos hb.1 hb1).le hT0.ne').1 h
      rw [div_eq_div_iff ha1.ne' hb1.ne'] at this
      nlinarith
    have himg := lintegral_image_eq_lintegral_abs_deriv_mul measurableSet_Ioo hf (fun a ha b hb h => hmono a ha b hb h) fun v => ENNReal.ofReal (conn T v)
    have hset : (fun x : ℝ => (x / (1 - x)) ^ T) '' Ioo 0 1 = Ioi 0 := by
      ext v
      constructor
      · rintro ⟨x, hx, rfl⟩
        exact rpow_pos_of_pos (div_pos hx.1 (by linarith [hx.2])) T
      · intro hv
        have hw : 0 < v ^ (1 / T) := rpow_pos_of_pos hv _
        refine ⟨v ^ (1 / T) / (1 + v ^ (1 / T)), ⟨by positivity, by rw [div_lt_one (by positivity)]; linarith⟩, ?_⟩
        dsimp only
        have : v ^ (1 / T) / (1 + v ^ (1 / T)) / (1 - v ^ (1 / T) / (1 + v ^ (1 / T))) = v ^ (1 / T) := by
          generalize v ^ (1 / T) = w at hw
          field_simp
          ring
        rw [this, ← rpow_mul (le_of_lt hv), one_div_mul_cancel hT0.ne', rpow_one]
    rw [hset] at himg
    rw [himg]
    have hB : ProbabilityTheory.beta T (1 - T) = π / sin (π * T) := by
      unfold ProbabilityTheory.beta
      rw [Real.Gamma_mul_Gamma_one_sub, add_sub_cancel, Real.Gamma_one, div_one]
    have hBp : 0 < ProbabilityTheory.beta T (1 - T) := ProbabilityTheory.beta_pos hT0 (by linarith)
    have hone := ProbabilityTheory.lintegral_betaPDF_eq_one hT0 (by linarith : 0 < 1 - T)
    rw [ProbabilityTheory.lintegral_betaPDF] at hone
    have hcongr : ∀ x ∈ Ioo (0 : ℝ) 1, ENNReal.ofReal |1 / (1 - x) ^ 2 * T * (x / (1 - x)) ^ (T - 1)| * ENNReal.ofReal (conn T ((x / (1 - x)) ^ T)) =
        ENNReal.ofReal (connC T) * ENNReal.ofReal (1 / ProbabilityTheory.beta T (1 - T) * x ^ (T - 1) * (1 - x) ^ (1 - T - 1)) := by
      intro x hx
      have hx1 : (0 : ℝ) < 1 - x := by linarith [hx.2]
      have hq := div_pos hx.1 hx1
      have hc0 := one_le_connC h0 h1
      rw [← ENNReal.ofReal_mul (abs_nonneg _), ← ENNReal.ofReal_mul (by linarith)]
      congr 1
      have hpos : 0 < 1 / (1 - x) ^ 2 * T * (x / (1 - x)) ^ (T - 1) := by have := rpow_pos_of_pos hq (T - 1); positivity
      rw [abs_of_pos hpos]
      unfold conn connC
      rw [if_neg hT, if_neg hT, ← rpow_mul hq.le, mul_one_div_cancel hT, rpow_one, hB]
      have e1 : 1 / (1 + x / (1 - x)) = 1 - x := by field_simp; ring
      rw [e1, div_rpow hx.1.le hx1.le, show (1 : ℝ) - T - 1 = -T by ring, rpow_sub_one hx1.ne', rpow_neg hx1.le]
      have hs := sin_piT hT0 h1
      have h2 := rpow_pos_of_pos hx1 T
      have := pi_pos
      generalize sin (π * T) = q at hs
      field_simp
    rw [setLIntegral_congr_fun measurableSet_Ioo hcongr, lintegral_const_mul' _ _ (by simp), hone, mul_one]

theorem conn_tail {T γ y : ℝ} (h0 : 0 ≤ T) (h1 : T < 1) (hγ : 1 ≤ γ) (hTγ : T * γ ≤ 1) (hy : 0 < y) :
    ∫⁻ v in Ici (1 / y), ENNReal.ofReal (conn T v) ≤ ENNReal.ofReal (connC T * y ^ (γ - 1)) := by
  have hc := one_le_connC h0 h1
  have hyi : 0 < 1 / y := by positivity
  rcases le_or_gt 1 y with hy1 | hy1
  · calc ∫⁻ v in Ici (1 / y), ENNReal.ofReal (conn T v) ≤ ∫⁻ v in Ioi 0, ENNReal.ofReal (conn T v) :=
          lintegral_mono_set fun v hv => lt_of_lt_of_le hyi hv
      _ = ENNReal.ofReal (connC T) := conn_integral h0 h1
      _ ≤ _ := ENNReal.ofReal_le_ofReal (le_mul_of_one_le_right (by linarith) (one_le_rpow hy1 (by linarith)))
  · by_cases hT : T = 0
    · subst hT
      have : ∀ v ∈ Ici (1 / y), ENNReal.ofReal (conn 0 v) = 0 := by
        intro v hv
        have h2 : 1 < 1 / y := by rw [lt_div_iff₀ hy]; linarith
        unfold conn
        rw [if_pos rfl, if_neg (by have := mem_Ici.1 hv; linarith)]
        simp
      rw [setLIntegral_congr_fun measurableSet_Ici this]
      simp
    · have hT0 : 0 < T := lt_of_le_of_ne h0 (Ne.symm hT)
      have hp : -(1 / T) < -1 := by
        rw [neg_lt_neg_iff, lt_div_iff₀ hT0]; linarith
      calc ∫⁻ v in Ici (1 / y), ENNReal.ofReal (conn T v) = ∫⁻ v in Ioi (1 / y), ENNReal.ofReal (conn T v) := setLIntegral_congr Ioi_ae_eq_Ici.symm
        _ ≤ ∫⁻ v in Ioi (1 / y), ENNReal.ofReal (v ^ (-(1 / T))) :=
            setLIntegral_mono' measurableSet_Ioi fun v hv =>
              ENNReal.ofReal_le_ofReal (conn_le_rpow h0 (by positivity) (by rw [mul_one_div_cancel hT]) (hyi.trans hv))
        _ = ENNReal.ofReal (T / (1 - T) * y ^ (1 / T - 1)) := by
            rw [rpow_tail hyi hp]
            congr 1
            rw [one_div y, inv_rpow hy.le, ← rpow_neg hy.le, show -(-(1 / T) + 1) = 1 / T - 1 by ring]
            have : 1 - T ≠ 0 := by linarith
            have : -(1 / T) + 1 ≠ 0 := by linarith
            generalize y ^ (1 / T - 1) = w
            have e : -(1 / T) + 1 = -((1 - T) / T) := by field_simp; ring
            rw [e]
            field_simp
        _ ≤ _ := by
            refine ENNReal.ofReal_le_ofReal (mul_le_mul (tail_le_connC hT0 h1) ?_ (rpow_nonneg hy.le _) (by linarith))
            refine rpow_le_rpow_of_exponent_ge hy hy1.le ?_
            have : γ ≤ 1 / T := by rw [le_div_iff₀ hT0]; linarith
            linarith

/-- small probabilities: `min(v^(-1/T), ε)` -/
theorem small_integral {T ε : ℝ} (h0 : 0 < T) (h1 : T < 1) (he : 0 < ε) :
    ∫⁻ v in Ioi 0, ENNReal.ofReal (min (v ^ (-(1 / T))) ε) ≤ ENNReal.ofReal (ε ^ (1 - T) / (1 - T)) := by
  set a : ℝ := ε ^ (-T) with ha
  have hap : 0 < a := rpow_pos_of_pos he _
  have hp : -(1 / T) < -1 := by
    rw [neg_lt_neg_iff, lt_div_iff₀ h0]; linarith
  calc ∫⁻ v in Ioi 0, ENNReal.ofReal (min (v ^ (-(1 / T))) ε)
      ≤ (∫⁻ v in Ioc 0 a, ENNReal.ofReal (min (v ^ (-(1 / T))) ε)) + ∫⁻ v in Ioi a, ENNReal.ofReal (min (v ^ (-(1 / T))) ε) := by
        rw [← Ioc_union_Ioi_eq_Ioi hap.le]
        exact lintegral_union_le _ _ _
    _ ≤ (∫⁻ _ in Ioc 0 a, ENNReal.ofReal ε) + ∫⁻ v in Ioi a, ENNReal.ofReal (v ^ (-(1 / T))) :=
        add_le_add (lintegral_mono fun v => ENNReal.ofReal_le_ofReal (min_le_right _ _)) (lintegral_mono fun v => ENNReal.ofReal_le_ofReal (min_le_left _ _))
    _ = ENNReal.ofReal (ε ^ (1 - T) / (1 - T)) := by
        rw [setLIntegral_const, Real.volume_Ioc, sub_zero, rpow_tail hap hp, ← ENNReal.ofReal_mul he.le]
        have e1 : ε * a = ε ^ (1 - T) := by
          rw [ha, sub_eq_add_neg, rpow_add he, rpow_one]
        have e2 : a ^ (-(1 / T) + 1) = ε ^ (1 - T) := by
          rw [ha, ← rpow_mul he.le]
          congr 1
          field_simp
          ring
        have hT1 : 0 < 1 - T := by linarith
        have e3 : -(1 / T) + 1 = -((1 - T) / T) := by field_simp; ring
        have hpos := rpow_pos_of_pos he (1 - T)
        rw [e1, e2, e3, ← ENNReal.ofReal_add hpos.le (by rw [neg_div_neg_eq]; positivity)]
        congr 1
        field_simp
        ring

end Girgs.HypDeg
