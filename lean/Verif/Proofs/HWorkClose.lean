import Verif.Proofs.HWorkLaw
import Verif.Proofs.HWorkLevels
import Mathlib.Analysis.SpecialFunctions.Trigonometric.Bounds
/-
How close two points are that a sampling call of the hyperbolic generator looks at.
-/
open Real
namespace Girgs
open Spec Angle

theorem cos_upper_quad {x : ℝ} (h : |x| ≤ π) : Real.cos x ≤ 1 - 2 / π ^ 2 * x ^ 2 := by
  have hpi := Real.pi_pos
  have h1 : 2 / π * (|x| / 2) ≤ Real.sin (|x| / 2) := Real.mul_le_sin (by positivity) (by linarith)
  have h2 : Real.cos |x| = 1 - 2 * Real.sin (|x| / 2) ^ 2 := by
    have := Real.cos_two_mul (|x| / 2)
    rw [mul_div_cancel₀ _ (by norm_num)] at this
    rw [this, Real.cos_sq']; ring
  rw [Real.cos_abs] at h2
  have h3 := pow_le_pow_left₀ (by positivity) h1 2
  have h4 : (2 / π * (|x| / 2)) ^ 2 = x ^ 2 / π ^ 2 := by rw [← sq_abs x]; field_simp
  rw [h4] at h3
  have h5 : 2 / π ^ 2 * x ^ 2 = 2 * (x ^ 2 / π ^ 2) := by ring
  rw [h2, h5]; linarith

/-- points of two cells are not further apart than the cells in between, and the two cells -/
theorem InArc.close {l A B : ℕ} (hA : OnLv l A) (hB : OnLv l B) {x y : ℝ} (hx : InArc l A (2 * π * x)) (hy : InArc l B (2 * π * y)) :
    circleDist x y < (betweenN l A B + 2) / 2 ^ l := by
  have hN : (0 : ℝ) < 2 ^ l := by positivity
  have hpi := Real.pi_pos
  have e : ∀ z k : ℝ, k * (2 * π / 2 ^ l) ≤ 2 * π * z ↔ k ≤ z * 2 ^ l := by
    intro z k
    rw [show k * (2 * π / 2 ^ l) = (2 * π) * (k / 2 ^ l) by ring, mul_le_mul_iff_right₀ (by positivity), div_le_iff₀ hN]
  have e' : ∀ z k : ℝ, 2 * π * z < k * (2 * π / 2 ^ l) ↔ z * 2 ^ l < k := by
    intro z k
    rw [show k * (2 * π / 2 ^ l) = (2 * π) * (k / 2 ^ l) by ring, mul_lt_mul_iff_right₀ (by positivity), lt_div_iff₀ hN]
  obtain ⟨hx1, hx2⟩ := hx
  obtain ⟨hy1, hy2⟩ := hy
  rw [e] at hx1 hy1
  rw [e'] at hx2 hy2
  have h3 := onLv_diff hA hB
  rw [lt_div_iff₀ hN]
  unfold circleDist
  have ea : |x - y| * 2 ^ l = |x * 2 ^ l - y * 2 ^ l| := by rw [← sub_mul, abs_mul, abs_of_pos hN]
  set d := max A B - min A B with hd
  have hcast : ((d : ℕ) : ℝ) = |(A : ℝ) - B| := by
    rw [hd, Nat.cast_sub (by omega)]
    push_cast
    rw [max_sub_min_eq_abs']
  have hb : (betweenN l A B : ℕ) = min d (2 ^ l - d) - 1 := rfl
  rcases le_total d (2 ^ l - d) with h | h
  · have hb1 : d ≤ betweenN l A B + 1 := by rw [hb, min_eq_left h]; omega
    have hb2 : (d : ℝ) ≤ betweenN l A B + 1 := by exact_mod_cast hb1
    refine lt_of_le_of_lt (mul_le_mul_of_nonneg_right (min_le_left _ _) hN.le) ?_
    rw [ea]
    have : |x * 2 ^ l - y * 2 ^ l| < |(A : ℝ) - B| + 1 := by
      rw [abs_lt]
      constructor
      · have := neg_abs_le ((A : ℝ) - B); linarith
      · have := le_abs_self ((A : ℝ) - B); linarith
    linarith
  · have hb1 : 2 ^ l ≤ betweenN l A B + 1 + d := by rw [hb, min_eq_right h]; omega
    have hb2 : (2 : ℝ) ^ l ≤ betweenN l A B + 1 + d := by exact_mod_cast hb1
    refine lt_of_le_of_lt (mul_le_mul_of_nonneg_right (min_le_right _ _) hN.le) ?_
    rw [sub_mul, one_mul, ea]
    have : |(A : ℝ) - B| - 1 < |x * 2 ^ l - y * 2 ^ l| := by
      rcases abs_cases ((A : ℝ) - B) with h1 | h1
      · have := le_abs_self (x * 2 ^ l - y * 2 ^ l); linarith
      · have := neg_abs_le (x * 2 ^ l - y * 2 ^ l); linarith
    linarith

theorem betweenN_touch {l A B : ℕ} (hA : OnLv l A) (hB : OnLv l B) (h : touchN l A B = true) : betweenN l A B = 0 := by
  have h3 := onLv_diff hA hB
  unfold touchN at h
  rw [decide_eq_true_eq] at h
  unfold betweenN
  generalize 2 ^ l = N at *
  omega

theorem betweenN_half {l A B : ℕ} : 2 * betweenN l A B ≤ 2 ^ l := by
  unfold betweenN
  generalize 2 ^ l = N
  omega

theorem sinh_lower {r : ℝ} (h : 1 ≤ r) : 0.43 * Real.exp r ≤ Real.sinh r := by
  have hE1 := Real.exp_one_gt_d9
  rw [Real.sinh_eq]
  have h1 : Real.exp (-r) * Real.exp 1 ^ 2 ≤ Real.exp r := by
    rw [← Real.exp_nat_mul, ← Real.exp_add]; exact Real.exp_le_exp.2 (by push_cast; linarith)
  have hEE : (7.38 : ℝ) ≤ Real.exp 1 ^ 2 := by
    refine le_trans (by norm_num) (pow_le_pow_left₀ (by norm_num) hE1.le 2)
  have h2 := mul_le_mul_of_nonneg_left hEE (Real.exp_pos (-r)).le
  have := Real.exp_pos r
  linarith

theorem sinh_pair {r s p q : ℝ} (hr : 1 ≤ r) (hs : 1 ≤ s) (hp : p ≤ r + 1) (hq : q ≤ s + 1) :
    0.025 * Real.exp (p + q) ≤ Real.sinh r * Real.sinh s := by
  have hE2 := Real.exp_one_lt_d9
  have h1 := mul_le_mul (sinh_lower hr) (sinh_lower hs) (by positivity) (le_trans (by positivity) (sinh_lower hr))
  have h2 : Real.exp (p + q) ≤ Real.exp r * Real.exp s * Real.exp 1 ^ 2 := by
    rw [← Real.exp_nat_mul, ← Real.exp_add, ← Real.exp_add]; exact Real.exp_le_exp.2 (by push_cast; linarith)
  have hEE : Real.exp 1 ^ 2 ≤ (7.3891 : ℝ) := by
    refine le_trans (pow_le_pow_left₀ (Real.exp_pos 1).le hE2.le 2) (by norm_num)
  have h3 : Real.exp r * Real.exp s * Real.exp 1 ^ 2 ≤ Real.exp r * Real.exp s * 7.3891 := mul_le_mul_of_nonneg_left hEE (by positivity)
  have h4 : 0 < Real.exp r * Real.exp s := by positivity
  nlinarith

theorem cosh_le_exp_half {R : ℝ} (hR : 0 ≤ R) : Real.cosh R - 1 ≤ Real.exp R / 2 := by
  rw [Real.cosh_eq]
  have : Real.exp (-R) ≤ 1 := Real.exp_le_one_iff.2 (by linarith)
  linarith

theorem exp_center {R p q : ℝ} (hp : p ≤ 2) (hq : q ≤ R) : 1 / 2 < 9 * Real.exp ((R - p - q) / 2) := by
  have h1 : Real.exp (-1) ≤ Real.exp ((R - p - q) / 2) := Real.exp_le_exp.2 (by linarith)
  have hE2 := Real.exp_one_lt_d9
  have h2 : (0.36 : ℝ) ≤ Real.exp (-1) := by
    rw [Real.exp_neg, le_inv_comm₀ (by norm_num) (Real.exp_pos 1)]
    refine hE2.le.trans (by norm_num)
  linarith

/-- two layers and their comparison level -/
theorem pair_close {R : ℝ} (hR : 0 ≤ R) {i j : ℕ} (hi : i < ⌈R⌉.toNat) (hj : j < ⌈R⌉.toNat) {p q : ℝ} (hp : p ≤ R - i) (hq : q ≤ R - j) (hpR : p ≤ R)
    (hqR : q ≤ R) {θ : ℝ} (h0 : θ ≤ 1 / 2) (hθ : θ < 2 / 2 ^ hpair R i j) : θ < 9 * Real.exp ((R - p - q) / 2) := by
  rcases lt_or_ge (R - i - 1) 1 with h1 | h1
  · exact h0.trans_lt (exp_center (by linarith) hqR)
  rcases lt_or_ge (R - j - 1) 1 with h2 | h2
  · rw [sub_right_comm]
    exact h0.trans_lt (exp_center (by linarith) hpR)
  have hsp := (hpbl_spec (hc_exists (layers_sub hi hj))).1
  unfold hpair at hθ
  set l := hpbl (R - i - 1) (R - j - 1) R with hl
  unfold hc at hsp
  have hss := sinh_pair h1 h2 (p := p) (q := q) (by linarith) (by linarith)
  have hcos := cos_upper_quad (x := π / 2 ^ l) (by
    rw [abs_of_nonneg (by positivity)]
    exact div_le_self Real.pi_pos.le (one_le_pow₀ (by norm_num)))
  have e1 : 2 / π ^ 2 * (π / 2 ^ l) ^ 2 = 2 * (1 / 2 ^ l) ^ 2 := by
    have := Real.pi_pos.ne'
    field_simp
  rw [e1] at hcos
  set y := 1 / (2 : ℝ) ^ l with hy
  have hy0 : 0 < y := by positivity
  have h3 : 2 * y ^ 2 * (0.025 * Real.exp (p + q)) ≤ (1 - Real.cos (π / 2 ^ l)) * (Real.sinh (R - i - 1) * Real.sinh (R - j - 1)) :=
    mul_le_mul (by linarith) hss (by positivity) (by linarith [Real.cos_le_one (π / 2 ^ l)])
  have h4 := cosh_le_exp_half hR
  have h5 := Real.one_le_cosh (R - i - 1 - (R - j - 1))
  rw [mul_assoc] at hsp
  have h6 : 2 * y ^ 2 * (0.025 * Real.exp (p + q)) ≤ Real.exp R / 2 := by linarith
  have e2 : Real.exp R = Real.exp ((R - p - q) / 2) ^ 2 * Real.exp (p + q) := by
    rw [← Real.exp_nat_mul, ← Real.exp_add]; congr 1; push_cast; ring
  rw [e2] at h6
  set E := Real.exp ((R - p - q) / 2) with hE
  have hE0 : 0 < E := Real.exp_pos _
  have hP : 0 < Real.exp (p + q) := Real.exp_pos _
  have h7 : y ^ 2 * 0.05 ≤ E ^ 2 / 2 := by
    have : y ^ 2 * 0.05 * Real.exp (p + q) ≤ E ^ 2 / 2 * Real.exp (p + q) := by
      refine le_trans (le_of_eq ?_) (h6.trans (le_of_eq ?_))
      · ring
      · ring
    exact le_of_mul_le_mul_right this hP
  have h8 : (2 * y) ^ 2 ≤ (9 * E) ^ 2 := by
    rw [mul_pow, mul_pow]
    have : (0 : ℝ) ≤ E ^ 2 := by positivity
    norm_num
    linarith
  have h9 := le_of_sq_le_sq h8 (by positivity)
  have : 2 / (2 : ℝ) ^ l = 2 * y := by rw [hy]; ring
  linarith

/-- the bound of a type II call in terms of radii and angles of one of its pairs -/
theorem class_close {R T : ℝ} (hT : 0 < T) {i j l b : ℕ} {p q : ℝ} (hp : p ≤ R - i) (hq : q ≤ R - j) (hpR : p ≤ R)
    (hqR : q ≤ R) {θ : ℝ} (h0 : 0 ≤ θ) (h05 : θ ≤ 1 / 2) (hb1 : 1 ≤ b) (hbh : 2 * b ≤ 2 ^ l) (hθ : θ < (b + 2) / 2 ^ l) :
    hypProb (arcosh (max 1 (hc (R - i - 1) (R - j - 1) (b * (2 * π / 2 ^ l))))) R T ≤
      Scaling.connProb 1 (1 / T) (9 * Real.exp ((R - p - q) / 2)) θ := by
  set d := arcosh (max 1 (hc (R - i - 1) (R - j - 1) (b * (2 * π / 2 ^ l)))) with hd
  have hle1 : hypProb d R T ≤ 1 := (hProb_lt_one _ _ _).le
  have hE0 : 0 < Real.exp ((R - p - q) / 2) := Real.exp_pos _
  unfold Scaling.connProb
  split
  · exact hle1
  rename_i hne
  have hθ0 : 0 < θ := lt_of_le_of_ne h0 (Ne.symm hne)
  rw [pow_one]
  refine le_min hle1 ?_
  rcases le_or_gt θ (9 * Real.exp ((R - p - q) / 2)) with hcase | hcase
  · refine hle1.trans (Real.one_le_rpow ?_ (by positivity))
    rw [le_div_iff₀ hθ0]; linarith
  have h1 : 1 ≤ R - i - 1 := by
    by_contra hn
    have := exp_center (show p ≤ 2 by linarith) hqR
    linarith
  have h2 : 1 ≤ R - j - 1 := by
    by_contra hn
    have := exp_center (show q ≤ 2 by linarith) hpR
    rw [sub_right_comm] at this
    linarith
  have hss := sinh_pair h1 h2 (p := p) (q := q) (by linarith) (by linarith)
  have hN : (0 : ℝ) < 2 ^ l := by positivity
  have hbh' : 2 * (b : ℝ) ≤ 2 ^ l := by exact_mod_cast hbh
  have hb1' : (1 : ℝ) ≤ b := by exact_mod_cast hb1
  have hpi := Real.pi_pos
  have hx : |(b : ℝ) * (2 * π / 2 ^ l)| ≤ π := by
    rw [abs_of_nonneg (by positivity), mul_div_assoc', div_le_iff₀ hN]
    nlinarith
  have hcos := cos_upper_quad hx
  have e1 : 2 / π ^ 2 * ((b : ℝ) * (2 * π / 2 ^ l)) ^ 2 = 8 * (b / 2 ^ l) ^ 2 := by
    have := hpi.ne'
    field_simp
    ring
  rw [e1] at hcos
  have hy : θ / 3 ≤ b / 2 ^ l := by
    rw [div_le_iff₀ (by norm_num), div_mul_eq_mul_div]
    refine hθ.le.trans ?_
    rw [div_le_div_iff_of_pos_right hN]; linarith
  have hy2 : (θ / 3) ^ 2 ≤ (b / 2 ^ l) ^ 2 := pow_le_pow_left₀ (by positivity) hy 2
  have h3 : 8 * (θ / 3) ^ 2 * (0.025 * Real.exp (p + q)) ≤
      (1 - Real.cos (b * (2 * π / 2 ^ l))) * (Real.sinh (R - i - 1) * Real.sinh (R - j - 1)) :=
    mul_le_mul (by linarith) hss (by positivity) (by linarith [Real.cos_le_one (b * (2 * π / 2 ^ l))])
  have hcd : 8 * (θ / 3) ^ 2 * (0.025 * Real.exp (p + q)) ≤ Real.exp d := by
    have h4 : hc (R - i - 1) (R - j - 1) (b * (2 * π / 2 ^ l)) ≤ Real.cosh d := by
      rw [hd, Real.cosh_arcosh (le_max_left _ _)]; exact le_max_right _ _
    have hd0 : 0 ≤ d := Real.arcosh_nonneg (le_max_left _ _)
    have h5 : Real.cosh d ≤ Real.exp d := by
      rw [Real.cosh_eq]
      have : Real.exp (-d) ≤ Real.exp d := Real.exp_le_exp.2 (by linarith)
      linarith
    unfold hc at h4
    rw [mul_assoc] at h4
    have := Real.cosh_pos (R - i - 1 - (R - j - 1))
    linarith
  have e2 : Real.exp R = Real.exp ((R - p - q) / 2) ^ 2 * Real.exp (p + q) := by
    rw [← Real.exp_nat_mul, ← Real.exp_add]; congr 1; push_cast; ring
  set E := Real.exp ((R - p - q) / 2) with hE
  have hP : 0 < Real.exp (p + q) := Real.exp_pos _
  have h6 : (θ / (9 * E)) ^ 2 ≤ Real.exp (d - R) := by
    rw [Real.exp_sub, le_div_iff₀ (Real.exp_pos R), e2]
    refine le_trans ?_ hcd
    rw [div_pow, mul_pow]
    have : θ ^ 2 / (9 ^ 2 * E ^ 2) * (E ^ 2 * Real.exp (p + q)) = θ ^ 2 / 81 * Real.exp (p + q) := by
      field_simp; norm_num
    rw [this]
    have h7 : 0 ≤ θ ^ 2 * Real.exp (p + q) := by positivity
    nlinarith
  have hq0 : 0 < θ / (9 * E) := by positivity
  have h7 : hypProb d R T ≤ Real.exp (-((d - R) / (2 * T))) := by
    unfold hypProb
    rw [Real.exp_neg, ← one_div]
    exact one_div_le_one_div_of_le (Real.exp_pos _) (by linarith)
  refine h7.trans ?_
  have h8 : 9 * E / θ = (θ / (9 * E))⁻¹ := by rw [inv_div]
  rw [h8, Real.inv_rpow hq0.le, Real.exp_neg]
  refine inv_anti₀ (Real.rpow_pos_of_pos hq0 _) ?_
  have h9 : (θ / (9 * E)) ^ (1 / T) = ((θ / (9 * E)) ^ 2) ^ (1 / (2 * T)) := by
    rw [← Real.rpow_natCast, ← Real.rpow_mul hq0.le]; congr 1; push_cast; field_simp
  rw [h9]
  have h10 : Real.exp ((d - R) / (2 * T)) = Real.exp (d - R) ^ (1 / (2 * T)) := by
    rw [← Real.exp_mul]; congr 1; ring
  rw [h10]
  exact Real.rpow_le_rpow (by positivity) h6 (by positivity)

end Girgs
