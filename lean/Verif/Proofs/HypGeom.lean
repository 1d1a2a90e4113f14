import Verif.Spec.Hyperbolic
import Mathlib.Analysis.SpecialFunctions.Trigonometric.Bounds
import Mathlib.Analysis.SpecialFunctions.Trigonometric.Deriv
import Mathlib.Analysis.Complex.ExponentialBounds
import Mathlib.Analysis.Real.Pi.Bounds
import Mathlib.Tactic.Linarith
/-!
Hyperbolic geometry (real analysis): monotonicity of the distance condition in radii and angle.
-/
namespace Girgs
open Real Spec

/-- cosh of the distance as the code computes it (Point.h:22) -/
noncomputable def hc (r s φ : ℝ) : ℝ := cosh (r - s) + (1 - cos φ) * sinh r * sinh s

theorem hc_eq (r φ s ψ : ℝ) : hc r s (φ - ψ) = hypCosh r φ s ψ := by
  unfold hc hypCosh; rw [cosh_sub]; ring

theorem hc_eq' (r s φ : ℝ) : hc r s φ = cosh r * cosh s - sinh r * sinh s * cos φ := by
  unfold hc; rw [cosh_sub]; ring

theorem hc_symm (r s φ : ℝ) : hc r s φ = hc s r φ := by rw [hc_eq', hc_eq']; ring

theorem hc_neg (r s φ : ℝ) : hc r s (-φ) = hc r s φ := by unfold hc; rw [cos_neg]

/-- the distance condition is monotone in the radius -/
theorem hc_mono_left {a a' b φ R : ℝ} (ha : 0 < a) (h : a ≤ a') (hb : 0 ≤ b) (hR : b ≤ R) (hc0 : cosh R < hc a b φ) :
    cosh R < hc a' b φ := by
  rw [hc_eq'] at hc0 ⊢
  have hs : 0 < sinh a := sinh_pos_iff.2 ha
  have hs' : 0 < sinh a' := sinh_pos_iff.2 (by linarith)
  have hd : 0 ≤ sinh (a' - a) := sinh_nonneg_iff.2 (by linarith)
  have hcR : cosh b ≤ cosh R := cosh_le_cosh.2 (by rw [abs_of_nonneg hb, abs_of_nonneg (by linarith)]; exact hR)
  have e1 : sinh (a' - a) = sinh a' * cosh a - cosh a' * sinh a := sinh_sub _ _
  have e2 : sinh a' = sinh (a' - a) * cosh a + cosh (a' - a) * sinh a := by rw [← sinh_add]; ring_nf
  have h1 : sinh (a' - a) ≤ sinh a' - sinh a := by
    have := one_le_cosh a
    have := one_le_cosh (a' - a)
    nlinarith [mul_nonneg hd (sub_nonneg.2 (one_le_cosh a)), mul_nonneg hs.le (sub_nonneg.2 (one_le_cosh (a' - a)))]
  have h2 : cosh b * sinh (a' - a) ≤ cosh R * (sinh a' - sinh a) :=
    mul_le_mul hcR h1 hd (by linarith [one_le_cosh R])
  have key : 0 < sinh a * (cosh a' * cosh b - sinh a' * sinh b * cos φ - cosh R) := by
    have h3 : 0 < sinh a' * (cosh a * cosh b - sinh a * sinh b * cos φ - cosh R) := mul_pos hs' (by linarith)
    have e3 : sinh a * (cosh a' * cosh b - sinh a' * sinh b * cos φ - cosh R) =
      sinh a' * (cosh a * cosh b - sinh a * sinh b * cos φ - cosh R) + (cosh R * (sinh a' - sinh a) - cosh b * sinh (a' - a)) := by
      rw [e1]; ring
    rw [e3]; linarith
  have := (pos_iff_pos_of_mul_pos key).1 hs
  linarith

theorem hc_mono {a a' b b' φ R : ℝ} (ha : 0 < a) (h : a ≤ a') (haR : a' ≤ R) (hb : 0 < b) (h' : b ≤ b') (hbR : b' ≤ R)
    (hc0 : cosh R < hc a b φ) : cosh R < hc a' b' φ := by
  have h1 := hc_mono_left ha h hb.le (by linarith) hc0
  rw [hc_symm] at h1
  rw [hc_symm]
  exact hc_mono_left hb h' (by linarith) haR h1

/-- the distance grows with the angle -/
theorem hc_angle {a b φ ψ : ℝ} (hab : 0 ≤ sinh a * sinh b) (h : cos ψ ≤ cos φ) : hc a b φ ≤ hc a b ψ := by
  rw [hc_eq', hc_eq']
  have := mul_le_mul_of_nonneg_left h hab
  linarith

theorem cos_le_cos_arc {φ d : ℝ} (h0 : 0 ≤ φ) (h1 : φ ≤ d) (h2 : d ≤ 2 * π - φ) : cos d ≤ cos φ := by
  rcases le_total d π with hd | hd
  · exact cos_le_cos_of_nonneg_of_le_pi h0 hd h1
  · rw [← cos_two_pi_sub d]
    exact cos_le_cos_of_nonneg_of_le_pi h0 (by linarith) (by linarith)

theorem hc_tendsto (a b : ℝ) : Filter.Tendsto (fun L : ℕ => hc a b (π / 2 ^ L)) Filter.atTop (nhds (cosh (a - b))) := by
  have h1 : Filter.Tendsto (fun L : ℕ => π / 2 ^ L) Filter.atTop (nhds 0) := by
    have := (tendsto_pow_atTop_nhds_zero_of_lt_one (r := (1 / 2 : ℝ)) (by norm_num) (by norm_num)).const_mul π
    rw [mul_zero] at this
    refine this.congr fun L => ?_
    rw [one_div, inv_pow]; rfl
  have hcont : Continuous fun φ => hc a b φ := by unfold hc; fun_prop
  have h2 := (hcont.tendsto 0).comp h1
  have e : hc a b 0 = cosh (a - b) := by unfold hc; simp
  rw [e] at h2
  exact h2

theorem hc_exists {a b R : ℝ} (h : |a - b| < R) : ∃ L : ℕ, hc a b (π / 2 ^ L) ≤ cosh R := by
  have hlt : cosh (a - b) < cosh R := cosh_lt_cosh.2 (by rw [abs_of_nonneg (a := R) (by linarith [abs_nonneg (a - b)])]; exact h)
  obtain ⟨L, hL⟩ := ((hc_tendsto a b).eventually (gt_mem_nhds hlt)).exists
  exact ⟨L, hL.le⟩

/-- with positive radii at least `R` apart no angle helps -/
theorem hc_never {a b R : ℝ} (hR : 0 ≤ R) (h : R ≤ |a - b|) (hab : 0 < sinh a * sinh b) (L : ℕ) : cosh R < hc a b (π / 2 ^ L) := by
  have h1 : cosh R ≤ cosh (a - b) := cosh_le_cosh.2 (by rw [abs_of_nonneg hR]; exact h)
  have hp : 0 < π / 2 ^ L := by positivity
  have hl : π / 2 ^ L ≤ π := div_le_self pi_pos.le (one_le_pow₀ (by norm_num))
  have hcos : cos (π / 2 ^ L) < 1 := by
    rw [← cos_zero]
    exact cos_lt_cos_of_nonneg_of_le_pi le_rfl hl hp
  unfold hc
  have : 0 < (1 - cos (π / 2 ^ L)) * (sinh a * sinh b) := mul_pos (by linarith) hab
  rw [mul_assoc]; linarith

/-- a positive answer means both radii have the same sign -/
theorem sinh_mul_pos_of_hc {a b R φ : ℝ} (h : |a - b| ≤ R) (hlt : cosh R < hc a b φ) : 0 < sinh a * sinh b := by
  have h1 : cosh (a - b) ≤ cosh R := cosh_le_cosh.2 (by rw [abs_of_nonneg (a := R) (by linarith [abs_nonneg (a - b)])]; exact h)
  unfold hc at hlt
  by_contra hn
  have h2 : 0 ≤ 1 - cos φ := by linarith [cos_le_one φ]
  have := mul_nonneg h2 (neg_nonneg.2 (not_lt.1 hn))
  rw [mul_assoc] at hlt
  linarith

theorem hc_self_le {a φ : ℝ} : hc a a φ ≤ cosh (2 * a) := by
  unfold hc
  rw [sub_self, cosh_zero, cosh_two_mul, cosh_sq]
  have h1 : -1 ≤ cos φ := neg_one_le_cos φ
  nlinarith [mul_self_nonneg (sinh a)]

end Girgs
