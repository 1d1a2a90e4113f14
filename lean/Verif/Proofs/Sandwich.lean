import Verif.Proofs.Torus
import Verif.Proofs.HDecide
import Mathlib.Analysis.SpecialFunctions.Trigonometric.Bounds
/-
Comparing hyperbolic threshold graphs with one-dimensional threshold GIRGs: the inequalities behind the conversions of Hyperbolic.h.
-/
namespace Girgs
open Real Spec

theorem hypCosh_half (r s θ : ℝ) :
    cosh r * cosh s - sinh r * sinh s * cos θ = cosh (r - s) + (cosh (r + s) - cosh (r - s)) * sin (θ / 2) ^ 2 := by
  have h : cos θ = 1 - 2 * sin (θ / 2) ^ 2 := by
    have := cos_two_mul (θ / 2)
    rw [show 2 * (θ / 2) = θ by ring] at this
    rw [this]; have := sin_sq_add_cos_sq (θ / 2); linarith
  rw [h, cosh_sub, cosh_add]; ring

theorem exp_half_le_cosh (s : ℝ) : exp s / 2 ≤ cosh s := by
  rw [cosh_eq]; linarith [exp_pos (-s)]

theorem cosh_le_exp_of_nonneg {s : ℝ} (h : 0 ≤ s) : cosh s ≤ exp s := by
  rw [cosh_eq]; have := exp_le_exp.2 (show -s ≤ s by linarith); linarith

/-- points at distance less than `R` have an angle difference of at most `√2 π exp((R - r - s) / 2)` -/
theorem angle_lt_of_close {r s R θ : ℝ} (hR : 0 < R) (h0 : 0 ≤ θ) (hπ : θ ≤ π)
    (h : cosh r * cosh s - sinh r * sinh s * cos θ < cosh R) : θ / (2 * π) < exp ((R - (r + s)) / 2) / √2 := by
  have hpi := pi_pos
  have h2 : (0 : ℝ) < √2 := by positivity
  have hsq : √2 ^ 2 = 2 := sq_sqrt (by norm_num)
  rw [hypCosh_half] at h
  by_cases hs : r + s ≤ R
  · have h1 : 1 ≤ exp ((R - (r + s)) / 2) := one_le_exp (by linarith)
    have h3 : θ / (2 * π) ≤ 1 / 2 := by rw [div_le_iff₀ (by positivity)]; linarith
    have h4 : (1 : ℝ) / 2 < 1 / √2 := by
      apply one_div_lt_one_div_of_lt h2
      nlinarith
    calc θ / (2 * π) ≤ 1 / 2 := h3
      _ < 1 / √2 := h4
      _ ≤ _ := by gcongr
  · have hs : R < r + s := lt_of_not_ge hs
    have hC : cosh R ≤ cosh (r + s) := by
      rw [cosh_le_cosh, abs_of_pos hR, abs_of_pos (by linarith)]; exact hs.le
    have hB := cosh_pos (r - s)
    have hsin1 : sin (θ / 2) ^ 2 ≤ 1 := sin_sq_le_one _
    have h1 : sin (θ / 2) ^ 2 * cosh (r + s) < cosh R := by nlinarith
    have h3 : sin (θ / 2) ^ 2 * (exp (r + s) / 2) < exp R :=
      lt_of_le_of_lt (mul_le_mul_of_nonneg_left (exp_half_le_cosh _) (sq_nonneg _)) (h1.trans_le (cosh_le_exp_of_nonneg hR.le))
    have h4 : θ / π ≤ sin (θ / 2) := by
      have := mul_le_sin (x := θ / 2) (by linarith) (by linarith)
      calc θ / π = 2 / π * (θ / 2) := by ring
        _ ≤ _ := this
    have h5 : 0 ≤ θ / π := by positivity
    have h6 : (θ / π) ^ 2 ≤ sin (θ / 2) ^ 2 := pow_le_pow_left₀ h5 h4 2
    have hE : exp ((R - (r + s)) / 2) ^ 2 * exp (r + s) = exp R := by
      rw [sq, ← exp_add, ← exp_add]; ring_nf
    have h7 : (θ / (2 * π)) ^ 2 < (exp ((R - (r + s)) / 2) / √2) ^ 2 := by
      rw [div_pow _ √2, hsq]
      have h8 : (θ / (2 * π)) ^ 2 = (θ / π) ^ 2 / 4 := by ring
      rw [h8]
      have he := exp_pos (r + s)
      have : (θ / π) ^ 2 * exp (r + s) < 2 * (exp ((R - (r + s)) / 2) ^ 2 * exp (r + s)) := by
        rw [hE]
        nlinarith
      have := lt_of_mul_lt_mul_right (by linarith : (θ / π) ^ 2 * exp (r + s) < (2 * exp ((R - (r + s)) / 2) ^ 2) * exp (r + s)) he.le
      linarith
    exact lt_of_pow_lt_pow_left₀ 2 (by positivity) h7

theorem sinh_sub_ge {r x : ℝ} (hx : 0 ≤ x) (h : 2 * x ≤ r) : sinh r * exp (-x) / 2 ≤ sinh (r - x) := by
  have e1 : exp (r - x) = exp r * exp (-x) := by rw [← exp_add]; ring_nf
  have e2 : exp (-(r - x)) = exp (-r) * exp x := by rw [← exp_add]; ring_nf
  rw [sinh_eq, sinh_eq, e1, e2]
  have hy : exp (2 * x) ≤ exp r := exp_le_exp.2 h
  have e3 : exp (2 * x) = exp x ^ 2 := by rw [two_mul, exp_add]; ring
  have e4 : exp (-x) = (exp x)⁻¹ := exp_neg x
  have e5 : exp (-r) = (exp r)⁻¹ := exp_neg r
  rw [e4, e5]
  rw [e3] at hy
  have ha := exp_pos x
  have hb := exp_pos r
  generalize exp x = a at *
  generalize exp r = b at *
  have key : a ^ 2 * 2 ≤ b ^ 2 + 1 := by nlinarith [sq_nonneg (b - 1)]
  rw [← sub_nonneg]
  have : (b * a⁻¹ - b⁻¹ * a) / 2 - (b - b⁻¹) / 2 * a⁻¹ / 2 = (b ^ 2 + 1 - a ^ 2 * 2) / (4 * a * b) := by field_simp; ring
  rw [this]
  apply div_nonneg <;> nlinarith

/-- points with an angle difference less than `exp((R - r - s) / 2)` have distance less than `R` (larger radius first) -/
theorem close_of_angle_lt' {r s R θ : ℝ} (hr : 0 < r) (hs : 0 < s) (hrR : r ≤ R) (hsr : s ≤ r) (h0 : 0 ≤ θ)
    (h : θ < exp ((R - (r + s)) / 2)) : cosh r * cosh s - sinh r * sinh s * cos θ < cosh R := by
  rw [hypCosh_half]
  have hX : 0 < sinh r * sinh s := mul_pos (sinh_pos_iff.2 hr) (sinh_pos_iff.2 hs)
  have eX : cosh (r + s) - cosh (r - s) = 2 * (sinh r * sinh s) := by rw [cosh_add, cosh_sub]; ring
  rw [eX]
  -- sin² ≤ θ²/4
  have h1 : sin (θ / 2) ^ 2 ≤ (θ / 2) ^ 2 := by
    rw [sq_le_sq]; exact abs_sin_le_abs
  have h2 : (θ / 2) ^ 2 < exp (R - (r + s)) / 4 := by
    have : θ ^ 2 < exp ((R - (r + s)) / 2) ^ 2 := pow_lt_pow_left₀ h h0 (by norm_num)
    rw [show exp ((R - (r + s)) / 2) ^ 2 = exp (R - (r + s)) by rw [sq, ← exp_add]; ring_nf] at this
    linarith [show (θ / 2) ^ 2 = θ ^ 2 / 4 by ring]
  have h3 : 2 * (sinh r * sinh s) * sin (θ / 2) ^ 2 < sinh r * sinh s * exp (R - (r + s)) / 2 := by
    have := mul_lt_mul_of_pos_left (h1.trans_lt h2) hX
    linarith
  -- the main estimate
  have h4 : sinh r * sinh s * exp (R - (r + s)) / 2 ≤ exp (R - r) * (cosh r - cosh (r - s)) := by
    have e1 : cosh r - cosh (r - s) = 2 * sinh (r - s / 2) * sinh (s / 2) := by
      have a := cosh_add (r - s / 2) (s / 2)
      have b := cosh_sub (r - s / 2) (s / 2)
      rw [show r - s / 2 + s / 2 = r by ring] at a
      rw [show r - s / 2 - s / 2 = r - s by ring] at b
      rw [a, b]; ring
    have e2 : sinh s = 2 * sinh (s / 2) * cosh (s / 2) := by
      have := sinh_two_mul (s / 2)
      rwa [show 2 * (s / 2) = s by ring] at this
    have e3 : exp (R - (r + s)) = exp (R - r) * (exp (-(s / 2)) * exp (-(s / 2))) := by
      rw [← exp_add, ← exp_add]; ring_nf
    have h5 := sinh_sub_ge (r := r) (x := s / 2) (by linarith) (by linarith)
    have h6 : cosh (s / 2) * exp (-(s / 2)) ≤ 1 := by
      have := cosh_le_exp_of_nonneg (show 0 ≤ s / 2 by linarith)
      calc cosh (s / 2) * exp (-(s / 2)) ≤ exp (s / 2) * exp (-(s / 2)) := by gcongr
        _ = 1 := by rw [← exp_add]; simp
    have hsh : 0 < sinh (s / 2) := sinh_pos_iff.2 (by linarith)
    have hsr' : 0 < sinh r := sinh_pos_iff.2 hr
    have hE := exp_pos (R - r)
    have hE' := exp_pos (-(s / 2))
    rw [e1, e2, e3]
    have h7 : sinh r * exp (-(s / 2)) / 2 * (cosh (s / 2) * exp (-(s / 2))) ≤ sinh (r - s / 2) := by
      refine le_trans ?_ h5
      have : 0 ≤ sinh r * exp (-(s / 2)) / 2 := by positivity
      nlinarith
    have h8 := mul_le_mul_of_nonneg_left h7 (show 0 ≤ 2 * exp (R - r) * sinh (s / 2) by positivity)
    linarith
  have h9 : exp (R - r) * (cosh r - cosh (r - s)) ≤ cosh R - cosh (r - s) := by
    obtain ⟨δ, rfl⟩ : ∃ δ, R = r + δ := ⟨R - r, by ring⟩
    have hδ : 0 ≤ δ := by linarith
    rw [show r + δ - r = δ by ring]
    have hB := one_le_cosh (r - s)
    have e1 : 1 ≤ exp δ := one_le_exp hδ
    have er : exp (-r) ≤ 1 := by rw [exp_le_one_iff]; linarith
    have er0 := exp_pos (-r)
    have hsd : sinh δ ≤ exp δ - 1 := by
      rw [sinh_eq, exp_neg]
      have : 0 < exp δ := exp_pos δ
      have h1 : exp δ * (exp δ)⁻¹ = 1 := mul_inv_cancel₀ this.ne'
      generalize exp δ = a at *
      have hi : 2 - a ≤ a⁻¹ := by
        rw [← sub_nonneg]
        have : a⁻¹ - (2 - a) = (a - 1) ^ 2 * a⁻¹ := by field_simp; ring
        rw [this]; positivity
      linarith
    have hsd0 : 0 ≤ sinh δ := sinh_nonneg_iff.2 hδ
    have e2 : cosh (r + δ) - exp δ * cosh r = - (exp (-r) * sinh δ) := by
      rw [cosh_eq, cosh_eq, sinh_eq, show -(r + δ) = -r + -δ by ring, exp_add, exp_add]; ring
    nlinarith
  linarith

theorem close_of_angle_lt {r s R θ : ℝ} (hr : 0 < r) (hs : 0 < s) (hrR : r ≤ R) (hsR : s ≤ R) (h0 : 0 ≤ θ)
    (h : θ < exp ((R - (r + s)) / 2)) : cosh r * cosh s - sinh r * sinh s * cos θ < cosh R := by
  rcases le_total s r with hle | hle
  · exact close_of_angle_lt' hr hs hrR hle h0 h
  · have := close_of_angle_lt' hs hr hsR hle h0 (by rwa [add_comm s r])
    linarith [mul_comm (cosh r) (cosh s), mul_comm (sinh r) (sinh s)]

/-- the circle distance of two converted angles is the enclosed angle -/
theorem cos_circleDist {a b : ℝ} : cos (2 * π * circleDist (a / (2 * π)) (b / (2 * π))) = cos (a - b) := by
  have hpi := pi_pos
  have e : 2 * π * |a / (2 * π) - b / (2 * π)| = |a - b| := by
    rw [← sub_div, abs_div, abs_of_pos (by positivity : 0 < 2 * π)]; field_simp
  unfold circleDist
  rcases min_choice |a / (2 * π) - b / (2 * π)| (1 - |a / (2 * π) - b / (2 * π)|) with h | h <;> rw [h]
  · rw [e, cos_abs]
  · rw [mul_sub, mul_one, e, cos_two_pi_sub, cos_abs]

theorem torusDist_one (p q : Fin 1 → ℝ) (h : |p 0 - q 0| ≤ 1) : torusDist p q = circleDist (p 0) (q 0) := by
  unfold torusDist
  simp [List.finRange_succ]
  exact circleDist_nonneg h

end Girgs
