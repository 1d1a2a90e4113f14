import Verif.Proofs.HypRadial
import Verif.Proofs.HDecide
/-
The probability that two random points of the disk are connected.
-/
namespace Girgs.HypDeg
open MeasureTheory Set Spec Props
open Real (exp cosh sinh sin cos)
open scoped ENNReal

/-! ### geometry -/

theorem hypCosh_half (r φ s ψ : ℝ) :
    hypCosh r φ s ψ = (1 - sin ((φ - ψ) / 2) ^ 2) * cosh (r - s) + sin ((φ - ψ) / 2) ^ 2 * cosh (r + s) := by
  unfold hypCosh
  have h1 : cos (φ - ψ) = 1 - 2 * sin ((φ - ψ) / 2) ^ 2 := by
    have h2 := Real.sin_sq_eq_half_sub ((φ - ψ) / 2)
    rw [show 2 * ((φ - ψ) / 2) = φ - ψ by ring] at h2
    linarith
  rw [h1, Real.cosh_sub, Real.cosh_add]
  ring

theorem one_le_hypCosh (r φ s ψ : ℝ) : 1 ≤ hypCosh r φ s ψ := by
  rw [hypCosh_half]
  have h1 := Real.one_le_cosh (r - s)
  have h2 := Real.one_le_cosh (r + s)
  have h3 := sq_nonneg (sin ((φ - ψ) / 2))
  have h4 := Real.sin_sq_le_one ((φ - ψ) / 2)
  nlinarith

theorem cosh_hypDist (r φ s ψ : ℝ) : cosh (hypDist r φ s ψ) = hypCosh r φ s ψ := Real.cosh_arcosh (one_le_hypCosh r φ s ψ)

theorem hypDist_nonneg (r φ s ψ : ℝ) : 0 ≤ hypDist r φ s ψ := Real.arcosh_nonneg (one_le_hypCosh r φ s ψ)

theorem exp_dist_upper {r s : ℝ} (h : 0 ≤ r + s) (φ ψ : ℝ) :
    exp (hypDist r φ s ψ) ≤ sin ((φ - ψ) / 2) ^ 2 * exp (r + s) + 2 * cosh (r - s) := by
  have h1 := cosh_hypDist r φ s ψ
  rw [hypCosh_half, Real.cosh_eq (hypDist r φ s ψ), Real.cosh_eq (r + s)] at h1
  have h2 := Real.exp_pos (-hypDist r φ s ψ)
  have h3 := Real.one_le_cosh (r - s)
  have h4 : exp (-(r + s)) ≤ 1 := Real.exp_le_one_iff.2 (by linarith)
  have h5 := sq_nonneg (sin ((φ - ψ) / 2))
  nlinarith

theorem exp_dist_lower {r s : ℝ} (φ ψ : ℝ) :
    sin ((φ - ψ) / 2) ^ 2 * exp (r + s) ≤ exp (hypDist r φ s ψ) := by
  have h1 := cosh_hypDist r φ s ψ
  rw [hypCosh_half, Real.cosh_eq (hypDist r φ s ψ), Real.cosh_eq (r + s), Real.exp_neg, Real.exp_neg] at h1
  have h3 := Real.one_le_cosh (r - s)
  have h5 := sq_nonneg (sin ((φ - ψ) / 2))
  have h6 := Real.sin_sq_le_one ((φ - ψ) / 2)
  have h7 : 1 ≤ exp (hypDist r φ s ψ) := Real.one_le_exp (hypDist_nonneg _ _ _ _)
  have h8 := Real.exp_pos (r + s)
  generalize sin ((φ - ψ) / 2) ^ 2 = S at *
  generalize exp (r + s) = A at *
  generalize exp (hypDist r φ s ψ) = E at *
  generalize cosh (r - s) = C at *
  by_contra hlt
  push Not at hlt
  have hE : 0 < E := by linarith
  have hA : 0 < A := h8
  have hSpos : 0 < S := by
    rcases h5.eq_or_lt with h | h
    · rw [← h] at hlt; linarith
    · exact h
  -- `E + 1/E < w + 1/w` for `w = S A`
  have hw : E + E⁻¹ < S * A + (S * A)⁻¹ := by
    have hwp : 0 < S * A := by linarith
    rw [← sub_pos]
    have : S * A + (S * A)⁻¹ - (E + E⁻¹) = (S * A - E) * (S * A * E - 1) / (S * A * E) := by
      field_simp
      ring
    rw [this]
    have : 1 < S * A * E := by nlinarith
    exact div_pos (mul_pos (by linarith) (by linarith)) (by positivity)
  have hAi : A⁻¹ ≤ S := by
    rw [inv_le_iff_one_le_mul₀ hA]; linarith
  have hi : (S * A)⁻¹ = A⁻¹ / S := by rw [mul_inv]; field_simp
  have hAp : 0 < A⁻¹ := inv_pos.2 hA
  rw [hi] at hw
  generalize A⁻¹ = q at *
  have h9 : q / S ≤ S * q + 2 * (1 - S) := by
    rw [div_le_iff₀ hSpos]
    nlinarith [mul_nonneg (sub_nonneg.2 h6) (sub_nonneg.2 hAi), mul_nonneg (sub_nonneg.2 h6) h5]
  nlinarith

/-- `exp((d-R)/2)` from below -/
theorem exp_half_lower {r s R : ℝ} (φ ψ : ℝ) :
    |sin ((φ - ψ) / 2)| / exp ((R - r - s) / 2) ≤ exp ((hypDist r φ s ψ - R) / 2) := by
  refine (pow_le_pow_iff_left₀ (by positivity) (Real.exp_pos _).le (two_ne_zero)).1 ?_
  rw [div_pow, sq_abs, ← Real.exp_nat_mul, ← Real.exp_nat_mul, div_le_iff₀ (Real.exp_pos _), ← Real.exp_add]
  have := exp_dist_lower (r := r) (s := s) φ ψ
  have h1 := Real.exp_pos (r + s)
  rw [← le_div_iff₀ h1, ← Real.exp_sub] at this
  refine this.trans (le_of_eq ?_)
  congr 1
  push_cast
  ring

/-- `exp((d-R)/2)` from above -/
theorem exp_half_upper {r s R : ℝ} (h : 0 ≤ r + s) (φ ψ : ℝ) :
    exp ((hypDist r φ s ψ - R) / 2) ≤ √(|sin ((φ - ψ) / 2)| ^ 2 / exp ((R - r - s) / 2) ^ 2 + 2 * cosh (r - s) * exp (-R)) := by
  refine Real.le_sqrt_of_sq_le ?_
  rw [sq_abs, ← Real.exp_nat_mul, ← Real.exp_nat_mul]
  have h1 := exp_dist_upper h φ ψ
  have h2 := Real.exp_pos (-R)
  have e1 : exp ((2 : ℕ) * ((hypDist r φ s ψ - R) / 2)) = exp (hypDist r φ s ψ) * exp (-R) := by
    rw [← Real.exp_add]; congr 1; push_cast; ring
  have e2 : sin ((φ - ψ) / 2) ^ 2 / exp ((2 : ℕ) * ((R - r - s) / 2)) = sin ((φ - ψ) / 2) ^ 2 * exp (r + s) * exp (-R) := by
    rw [div_eq_mul_inv, ← Real.exp_neg, mul_assoc, ← Real.exp_add]
    congr 2
    push_cast
    ring
  rw [e1, e2]
  nlinarith

/-- the spread `z` of the second bound -/
theorem sqrt_spread {r s R : ℝ} (hr : r ≤ R) (hs : s ≤ R) : √(2 * cosh (r - s) * exp (-R)) ≤ exp (-(1 / 2) * r) + exp (-(1 / 2) * s) := by
  rw [Real.sqrt_le_left (by positivity)]
  have e : 2 * cosh (r - s) * exp (-R) = exp (r - s - R) + exp (s - r - R) := by
    rw [Real.cosh_eq, sub_eq_add_neg (r - s), sub_eq_add_neg (s - r), Real.exp_add, Real.exp_add, neg_sub]
    ring
  have h1 : exp (r - s - R) ≤ exp (-(1 / 2) * s) ^ 2 := by
    rw [← Real.exp_nat_mul]
    refine Real.exp_le_exp.2 ?_
    push_cast; linarith
  have h2 : exp (s - r - R) ≤ exp (-(1 / 2) * r) ^ 2 := by
    rw [← Real.exp_nat_mul]
    refine Real.exp_le_exp.2 ?_
    push_cast; linarith
  have h3 := Real.exp_pos (-(1 / 2) * r)
  have h4 := Real.exp_pos (-(1 / 2) * s)
  rw [e]
  nlinarith [mul_pos h3 h4]

/-! ### the average over one angle -/

noncomputable abbrev angleLaw : Measure ℝ := uniformLaw 0 (2 * Real.pi)

theorem angleLaw_lintegral (g : ℝ → ℝ≥0∞) : ∫⁻ φ, g φ ∂angleLaw = (ENNReal.ofReal (2 * Real.pi))⁻¹ * ∫⁻ φ in Ico 0 (2 * Real.pi), g φ := by
  unfold angleLaw uniformLaw
  rw [lintegral_smul_measure, smul_eq_mul, sub_zero]

theorem quarter (x : ℝ) : (ENNReal.ofReal (2 * Real.pi))⁻¹ * (4 * ENNReal.ofReal x) = ENNReal.ofReal (2 / Real.pi * x) := by
  have hp := Real.pi_pos
  rw [← ENNReal.ofReal_inv_of_pos (by positivity), ← mul_assoc, show (4 : ℝ≥0∞) = ENNReal.ofReal 4 by simp, ← ENNReal.ofReal_mul (by positivity),
    ← ENNReal.ofReal_mul (by positivity)]
  congr 2
  field_simp
  norm_num

theorem average_upper {h : ℝ → ℝ} (h0 : ∀ v, 0 < v → 0 ≤ h v) (hanti : ∀ v w, 0 ≤ v → v ≤ w → h w ≤ h v) {γ c : ℝ} (hγ0 : 0 ≤ γ) (hγ : γ ≤ 2)
    (hc0 : 0 ≤ c) (hle : ∀ v, 0 < v → h v ≤ v ^ (-γ)) (hc : ∫⁻ v in Ioi 0, ENNReal.ofReal (h v) ≤ ENNReal.ofReal c) (hm : Measurable h)
    (r s R a : ℝ) :
    ∫⁻ b, ENNReal.ofReal (h (exp ((hypDist r a s b - R) / 2))) ∂angleLaw ≤
      ENNReal.ofReal (2 / Real.pi * (c * exp ((R - r - s) / 2) + Real.pi / 2 * exp ((R - r - s) / 2) ^ γ)) := by
  rw [angleLaw_lintegral, ← quarter]
  refine mul_le_mul le_rfl ?_ bot_le bot_le
  have hy := Real.exp_pos ((R - r - s) / 2)
  calc ∫⁻ b in Ico 0 (2 * Real.pi), ENNReal.ofReal (h (exp ((hypDist r a s b - R) / 2)))
      ≤ ∫⁻ b in Ico 0 (2 * Real.pi), ENNReal.ofReal (h (|sin ((b - a) / 2)| / exp ((R - r - s) / 2))) := by
        refine lintegral_mono fun b => ENNReal.ofReal_le_ofReal (hanti _ _ (by positivity) ?_)
        have := exp_half_lower (r := r) (s := s) (R := R) a b
        rwa [show (a - b) / 2 = -((b - a) / 2) by ring, Real.sin_neg, abs_neg] at this
    _ = 4 * ∫⁻ x in Ioo 0 (Real.pi / 2), ENNReal.ofReal (h (sin x / exp ((R - r - s) / 2))) :=
        angle_average (fun v => ENNReal.ofReal (h (v / exp ((R - r - s) / 2)))) a
    _ ≤ _ := mul_le_mul le_rfl (angle_upper h0 hγ0 hγ hy hc0 hle hc hm) bot_le bot_le

theorem average_lower {T γ R r s : ℝ} (hT0 : 0 ≤ T) (hT1 : T < 1) (hγ : 1 ≤ γ) (hTγ : T * γ ≤ 1) (hr0 : 0 ≤ r) (hs0 : 0 ≤ s) (hr : r ≤ R) (hs : s ≤ R) (a : ℝ) :
    ENNReal.ofReal (2 / Real.pi * (connC T * exp ((R - r - s) / 2))) ≤
      (∫⁻ b, ENNReal.ofReal (conn T (exp ((hypDist r a s b - R) / 2))) ∂angleLaw) +
      ENNReal.ofReal (2 / Real.pi * (exp ((R - r - s) / 2) * (exp (-(1 / 2) * r) + exp (-(1 / 2) * s)) + connC T * exp ((R - r - s) / 2) ^ γ)) := by
  have hy := Real.exp_pos ((R - r - s) / 2)
  set y := exp ((R - r - s) / 2) with hyd
  set z := 2 * cosh (r - s) * exp (-R) with hz
  have hz0 : 0 < z := by
    have := Real.cosh_pos (r - s)
    positivity
  have hc := one_le_connC hT0 hT1
  have key := angle_lower (h := conn T) (fun v hv => conn_le_one hv.le) hy hz0 (by linarith) (conn_integral hT0 hT1).ge (conn_tail hT0 hT1 hγ hTγ hy)
  rw [angleLaw_lintegral, ← quarter, ← quarter, ← mul_add]
  refine mul_le_mul le_rfl ?_ bot_le bot_le
  refine (mul_le_mul le_rfl key bot_le bot_le).trans ?_
  rw [mul_add, ← angle_average (fun v => ENNReal.ofReal (conn T (√(v ^ 2 / y ^ 2 + z)))) a]
  refine add_le_add (lintegral_mono fun b => ENNReal.ofReal_le_ofReal (conn_anti hT0 (Real.exp_pos _).le ?_)) (mul_le_mul le_rfl (ENNReal.ofReal_le_ofReal ?_) bot_le bot_le)
  · have := exp_half_upper (r := r) (s := s) (R := R) (by linarith) a b
    rwa [show (a - b) / 2 = -((b - a) / 2) by ring, Real.sin_neg, abs_neg] at this
  · have := sqrt_spread hr hs
    gcongr

end Girgs.HypDeg
