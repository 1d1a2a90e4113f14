import Mathlib.MeasureTheory.Function.JacobianOneDim
import Mathlib.MeasureTheory.Integral.IntervalIntegral.Periodic
import Mathlib.MeasureTheory.Integral.Lebesgue.Basic
import Mathlib.Analysis.SpecialFunctions.Trigonometric.Bounds
import Mathlib.Analysis.SpecialFunctions.Trigonometric.Deriv
import Mathlib.Analysis.SpecialFunctions.Sqrt
import Mathlib.Analysis.SpecialFunctions.Pow.Real
import Mathlib.Tactic.FieldSimp
/-
Averages of functions of `|sin(φ/2)|` for a uniformly distributed angle `φ`.
-/
namespace Girgs.HypDeg
open MeasureTheory Set Real
open scoped ENNReal

/-- the average over the angle does not depend on the other angle, and is an integral over a quarter of the circle -/
theorem angle_average (G : ℝ → ℝ≥0∞) (ψ : ℝ) :
    ∫⁻ φ in Ico 0 (2 * π), G |sin ((φ - ψ) / 2)| = 4 * ∫⁻ x in Ioo 0 (π / 2), G (sin x) := by
  set g : ℝ → ℝ≥0∞ := fun φ => G |sin (φ / 2)| with hg
  have hp : Function.Periodic g (2 * π) := by
    intro φ
    simp only [hg]
    rw [show (φ + 2 * π) / 2 = φ / 2 + π by ring, sin_add_pi, abs_neg]
  have h1 : ∫⁻ φ in Ico 0 (2 * π), g (φ - ψ) = ∫⁻ φ in Ico (-ψ) (-ψ + 2 * π), g φ := by
    have := lintegral_image_eq_lintegral_abs_deriv_mul (s := Ico 0 (2 * π)) (f := fun φ => φ - ψ) (f' := fun _ => 1) measurableSet_Ico
      (fun x _ => ((hasDerivAt_id x).sub_const ψ).hasDerivWithinAt) (fun a _ b _ h => by simpa using h) g
    rw [image_sub_const_Ico, zero_sub] at this
    rw [show -ψ + 2 * π = 2 * π - ψ by ring, this]
    simp
  have h2 : ∫⁻ φ in Ico (-ψ) (-ψ + 2 * π), g φ = ∫⁻ φ in Ioc 0 (0 + 2 * π), g φ := by
    rw [setLIntegral_congr Ico_ae_eq_Ioc]
    haveI : VAddInvariantMeasure (AddSubgroup.zmultiples (2 * π)) ℝ volume := ⟨fun c s _ => measure_preimage_add _ _ _⟩
    exact (isAddFundamentalDomain_Ioc two_pi_pos (-ψ)).setLIntegral_eq (isAddFundamentalDomain_Ioc two_pi_pos 0) g hp.map_vadd_zmultiples
  have h3 : ∫⁻ φ in Ioc 0 (0 + 2 * π), g φ = (∫⁻ φ in Ioo 0 π, g φ) + ∫⁻ φ in Ioo π (2 * π), g φ := by
    rw [zero_add, ← Ioc_union_Ioc_eq_Ioc pi_pos.le (by linarith [pi_pos] : π ≤ 2 * π), lintegral_union measurableSet_Ioc (Ioc_disjoint_Ioc_of_le le_rfl),
      setLIntegral_congr Ioo_ae_eq_Ioc.symm, setLIntegral_congr Ioo_ae_eq_Ioc.symm]
  have hs : ∀ x ∈ Ioo 0 (π / 2), |sin x| = sin x := fun x hx => abs_of_pos (sin_pos_of_pos_of_lt_pi hx.1 (by linarith [hx.2, pi_pos]))
  have h4 : ∫⁻ φ in Ioo 0 π, g φ = 2 * ∫⁻ x in Ioo 0 (π / 2), G (sin x) := by
    have := lintegral_image_eq_lintegral_abs_deriv_mul (s := Ioo 0 (π / 2)) (f := fun x => 2 * x) (f' := fun _ => 2) measurableSet_Ioo
      (fun x _ => by simpa using ((hasDerivAt_id x).const_mul 2).hasDerivWithinAt) (fun a _ b _ h => by simpa using h) g
    rw [image_mul_left_Ioo (by norm_num : (0 : ℝ) < 2)] at this
    rw [show Ioo 0 π = Ioo (2 * 0) (2 * (π / 2)) by rw [mul_zero]; congr 1; ring, this, ← lintegral_const_mul' _ _ (by simp)]
    refine setLIntegral_congr_fun measurableSet_Ioo fun x hx => ?_
    simp only [hg]
    rw [abs_of_pos (by norm_num : (0 : ℝ) < 2), ENNReal.ofReal_ofNat, mul_div_cancel_left₀ _ (by norm_num : (2 : ℝ) ≠ 0), hs x hx]
  have h5 : ∫⁻ φ in Ioo π (2 * π), g φ = 2 * ∫⁻ x in Ioo 0 (π / 2), G (sin x) := by
    have := lintegral_image_eq_lintegral_abs_deriv_mul (s := Ioo 0 π) (f := fun x => 2 * π - x) (f' := fun _ => -1) measurableSet_Ioo
      (fun x _ => ((hasDerivAt_id x).const_sub (2 * π)).hasDerivWithinAt) (fun a _ b _ h => by simpa using h) g
    rw [image_const_sub_Ioo] at this
    rw [show Ioo π (2 * π) = Ioo (2 * π - π) (2 * π - 0) by congr 1 <;> ring, this, ← h4]
    refine setLIntegral_congr_fun measurableSet_Ioo fun x hx => ?_
    simp only [hg]
    rw [show (2 * π - x) / 2 = π - x / 2 by ring, sin_pi_sub]
    simp
  rw [h1, h2, h3, h4, h5, ← add_mul]
  norm_num

/-- upper bound for a connection function `h` of `|sin(φ/2)| / y` -/
theorem angle_upper {h : ℝ → ℝ} (h0 : ∀ v, 0 < v → 0 ≤ h v) {γ c y : ℝ} (hγ0 : 0 ≤ γ) (hγ : γ ≤ 2) (hy : 0 < y) (hc0 : 0 ≤ c)
    (hle : ∀ v, 0 < v → h v ≤ v ^ (-γ)) (hc : ∫⁻ v in Ioi 0, ENNReal.ofReal (h v) ≤ ENNReal.ofReal c) (hm : Measurable h) :
    ∫⁻ x in Ioo 0 (π / 2), ENNReal.ofReal (h (sin x / y)) ≤ ENNReal.ofReal (c * y + π / 2 * y ^ γ) := by
  have hsin : ∀ x ∈ Ioo 0 (π / 2), 0 < sin x := fun x hx => sin_pos_of_pos_of_lt_pi hx.1 (by linarith [hx.2, pi_pos])
  have hcos : ∀ x ∈ Ioo 0 (π / 2), 0 < cos x := fun x hx => cos_pos_of_mem_Ioo ⟨by linarith [hx.1, pi_pos], hx.2⟩
  have key : ∀ x ∈ Ioo 0 (π / 2), ENNReal.ofReal (h (sin x / y)) ≤
      ENNReal.ofReal y * (ENNReal.ofReal |cos x / y| * ENNReal.ofReal (h (sin x / y))) + ENNReal.ofReal (y ^ γ) := by
    intro x hx
    have hs := hsin x hx
    have hcs := hcos x hx
    have hq := sin_sq_add_cos_sq x
    have hyg : 0 < y ^ γ := rpow_pos_of_pos hy γ
    rw [abs_of_pos (div_pos hcs hy), ← ENNReal.ofReal_mul (div_pos hcs hy).le, ← ENNReal.ofReal_mul hy.le,
      ← ENNReal.ofReal_add (by have := h0 (sin x / y) (div_pos hs hy); positivity) hyg.le]
    refine ENNReal.ofReal_le_ofReal ?_
    have e : y * (cos x / y * h (sin x / y)) = cos x * h (sin x / y) := by field_simp
    rw [e]
    have h1 : h (sin x / y) ≤ y ^ γ / sin x ^ 2 := by
      refine (hle _ (div_pos hs hy)).trans ?_
      rw [rpow_neg (div_pos hs hy).le, div_rpow hs.le hy.le, inv_div]
      refine div_le_div_of_nonneg_left hyg.le (by positivity) ?_
      rw [← rpow_natCast]
      exact rpow_le_rpow_of_exponent_ge hs (sin_le_one x) (by exact_mod_cast hγ)
    have h2 : (1 - cos x) * h (sin x / y) ≤ y ^ γ := by
      have hc1 := cos_le_one x
      refine (mul_le_mul_of_nonneg_left h1 (by linarith)).trans ?_
      rw [mul_div_assoc', div_le_iff₀ (by positivity)]
      have : 1 - cos x ≤ sin x ^ 2 := by nlinarith
      nlinarith
    linarith
  have hsub : (fun x => sin x / y) '' Ioo 0 (π / 2) ⊆ Ioi 0 := by
    rintro _ ⟨x, hx, rfl⟩
    exact div_pos (hsin x hx) hy
  have himg := lintegral_image_eq_lintegral_abs_deriv_mul (s := Ioo 0 (π / 2)) (f := fun x => sin x / y) (f' := fun x => cos x / y) measurableSet_Ioo
      (fun x _ => ((hasDerivAt_sin x).div_const y).hasDerivWithinAt) (fun a ha b hb hab => by
        have : sin a = sin b := by
          have := congrArg (· * y) hab
          simpa [hy.ne'] using this
        exact injOn_sin ⟨by linarith [ha.1, pi_pos], ha.2.le⟩ ⟨by linarith [hb.1, pi_pos], hb.2.le⟩ this) fun v => ENNReal.ofReal (h v)
  calc ∫⁻ x in Ioo 0 (π / 2), ENNReal.ofReal (h (sin x / y))
      ≤ ∫⁻ x in Ioo 0 (π / 2), (ENNReal.ofReal y * (ENNReal.ofReal |cos x / y| * ENNReal.ofReal (h (sin x / y))) + ENNReal.ofReal (y ^ γ)) :=
        setLIntegral_mono' measurableSet_Ioo key
    _ = ENNReal.ofReal y * (∫⁻ v in (fun x => sin x / y) '' Ioo 0 (π / 2), ENNReal.ofReal (h v)) + ENNReal.ofReal (π / 2 * y ^ γ) := by
        rw [lintegral_add_right _ measurable_const, lintegral_const_mul' _ _ (by simp), himg, setLIntegral_const, Real.volume_Ioo, sub_zero,
          mul_comm (ENNReal.ofReal (y ^ γ)), ← ENNReal.ofReal_mul (by positivity)]
    _ ≤ ENNReal.ofReal y * ENNReal.ofReal c + ENNReal.ofReal (π / 2 * y ^ γ) := by
        gcongr
        exact (lintegral_mono_set hsub).trans hc
    _ = ENNReal.ofReal (c * y + π / 2 * y ^ γ) := by
        rw [← ENNReal.ofReal_mul hy.le, ← ENNReal.ofReal_add (by positivity) (by positivity), mul_comm y c]

/-- lower bound for a connection function `h` of `sqrt(sin²(φ/2) / y² + z)` -/
theorem angle_lower {h : ℝ → ℝ} (h1 : ∀ v, 0 < v → h v ≤ 1) {γ c y z : ℝ} (hy : 0 < y) (hz : 0 < z) (hc0 : 0 ≤ c)
    (hc : ENNReal.ofReal c ≤ ∫⁻ v in Ioi 0, ENNReal.ofReal (h v))
    (htail : ∫⁻ v in Ici (1 / y), ENNReal.ofReal (h v) ≤ ENNReal.ofReal (c * y ^ (γ - 1))) :
    ENNReal.ofReal (c * y) ≤ (∫⁻ x in Ioo 0 (π / 2), ENNReal.ofReal (h (√(sin x ^ 2 / y ^ 2 + z)))) + ENNReal.ofReal (y * √z + c * y ^ γ) := by
  set f : ℝ → ℝ := fun x => √(sin x ^ 2 / y ^ 2 + z) with hf
  set f' : ℝ → ℝ := fun x => (sin x * cos x / y ^ 2) / f x with hf'
  have hsin : ∀ x ∈ Ioo 0 (π / 2), 0 < sin x := fun x hx => sin_pos_of_pos_of_lt_pi hx.1 (by linarith [hx.2, pi_pos])
  have hcos : ∀ x ∈ Ioo 0 (π / 2), 0 < cos x := fun x hx => cos_pos_of_mem_Ioo ⟨by linarith [hx.1, pi_pos], hx.2⟩
  have hfp : ∀ x, 0 < f x := fun x => by simp only [hf]; positivity
  have hd : ∀ x ∈ Ioo 0 (π / 2), HasDerivWithinAt f (f' x) (Ioo 0 (π / 2)) x := by
    intro x _
    have e := (((hasDerivAt_sin x).pow 2).div_const (y ^ 2)).add_const z
    have hne : sin x ^ 2 / y ^ 2 + z ≠ 0 := by positivity
    have := (e.sqrt hne).hasDerivWithinAt (s := Ioo 0 (π / 2))
    have hs0 : √(sin x ^ 2 / y ^ 2 + z) ≠ 0 := (hfp x).ne'
    refine this.congr_deriv ?_
    simp only [hf', hf, Pi.pow_apply]
    norm_num
    field_simp
  have hinj : InjOn f (Ioo 0 (π / 2)) := by
    intro a ha b hb hab
    have e : sin a ^ 2 / y ^ 2 + z = sin b ^ 2 / y ^ 2 + z := by
      have := congrArg (· ^ 2) hab
      simp only [hf] at this
      rwa [sq_sqrt (by positivity), sq_sqrt (by positivity)] at this
    have e2 : sin a ^ 2 = sin b ^ 2 := by
      have := add_right_cancel e
      rwa [div_left_inj' (by positivity)] at this
    have e3 : sin a = sin b := (pow_left_inj₀ (hsin a ha).le (hsin b hb).le (by norm_num)).1 e2
    exact injOn_sin ⟨by linarith [ha.1, pi_pos], ha.2.le⟩ ⟨by linarith [hb.1, pi_pos], hb.2.le⟩ e3
  have himg := lintegral_image_eq_lintegral_abs_deriv_mul measurableSet_Ioo hd hinj fun v => ENNReal.ofReal (h v)
  have hle : ∀ x ∈ Ioo 0 (π / 2), |f' x| ≤ 1 / y := by
    intro x hx
    have hs := hsin x hx
    have hcs := hcos x hx
    have : 0 ≤ f' x := div_nonneg (by positivity) (hfp x).le
    rw [abs_of_nonneg this]
    simp only [hf']
    rw [div_le_iff₀ (hfp x)]
    have : sin x / y ≤ f x := by
      simp only [hf]
      refine le_sqrt_of_sq_le ?_
      rw [div_pow]; linarith
    calc sin x * cos x / y ^ 2 ≤ sin x / y ^ 2 := by
          gcongr
          exact mul_le_of_le_one_right hs.le (cos_le_one x)
      _ = 1 / y * (sin x / y) := by field_simp
      _ ≤ 1 / y * f x := by gcongr
  have hsub : Ioo (√z) (1 / y) ⊆ f '' Ioo 0 (π / 2) := by
    have hcont : ContinuousOn f (Icc 0 (π / 2)) := by
      simp only [hf]; fun_prop
    have := intermediate_value_Ioo (by positivity : (0 : ℝ) ≤ π / 2) hcont
    refine (Ioo_subset_Ioo ?_ ?_).trans this
    · simp [hf]
    · simp only [hf, sin_pi_div_two]
      refine le_sqrt_of_sq_le ?_
      rw [div_pow]; linarith
  have h2 : ENNReal.ofReal c ≤ ENNReal.ofReal (√z) + (∫⁻ v in Ioo (√z) (1 / y), ENNReal.ofReal (h v)) + ENNReal.ofReal (c * y ^ (γ - 1)) := by
    refine hc.trans ?_
    have hcover : Ioi (0 : ℝ) ⊆ (Ioc 0 (√z) ∪ Ioo (√z) (1 / y)) ∪ Ici (1 / y) := by
      intro v hv
      rcases le_or_gt v (√z) with h | h
      · exact Or.inl (Or.inl ⟨hv, h⟩)
      · rcases lt_or_ge v (1 / y) with h' | h'
        · exact Or.inl (Or.inr ⟨h, h'⟩)
        · exact Or.inr h'
    refine (lintegral_mono_set hcover).trans ((lintegral_union_le _ _ _).trans ?_)
    refine add_le_add ((lintegral_union_le _ _ _).trans (add_le_add ?_ le_rfl)) htail
    calc ∫⁻ v in Ioc 0 (√z), ENNReal.ofReal (h v) ≤ ∫⁻ _ in Ioc 0 (√z), 1 := by
          refine setLIntegral_mono' measurableSet_Ioc fun v hv => ?_
          rw [← ENNReal.ofReal_one]; exact ENNReal.ofReal_le_ofReal (h1 v hv.1)
      _ = ENNReal.ofReal (√z) := by simp
  have h3 : ENNReal.ofReal y * ∫⁻ v in Ioo (√z) (1 / y), ENNReal.ofReal (h v) ≤ ∫⁻ x in Ioo 0 (π / 2), ENNReal.ofReal (h (f x)) := by
    refine (mul_le_mul le_rfl (lintegral_mono_set hsub) bot_le bot_le).trans ?_
    rw [himg, ← lintegral_const_mul' _ _ (by simp)]
    refine setLIntegral_mono' measurableSet_Ioo fun x hx => ?_
    rw [← mul_assoc, ← ENNReal.ofReal_mul hy.le]
    refine (mul_le_mul (ENNReal.ofReal_le_ofReal (mul_le_mul_of_nonneg_left (hle x hx) hy.le)) le_rfl bot_le bot_le).trans ?_
    rw [mul_one_div_cancel hy.ne']
    simp
  calc ENNReal.ofReal (c * y) = ENNReal.ofReal y * ENNReal.ofReal c := by rw [mul_comm c y, ENNReal.ofReal_mul hy.le]
    _ ≤ ENNReal.ofReal y * (ENNReal.ofReal (√z) + (∫⁻ v in Ioo (√z) (1 / y), ENNReal.ofReal (h v)) + ENNReal.ofReal (c * y ^ (γ - 1))) :=
        mul_le_mul le_rfl h2 bot_le bot_le
    _ = ENNReal.ofReal y * (∫⁻ v in Ioo (√z) (1 / y), ENNReal.ofReal (h v)) + ENNReal.ofReal (y * √z + c * y ^ γ) := by
        have e : c * y ^ γ = y * (c * y ^ (γ - 1)) := by
          rw [rpow_sub_one hy.ne']; field_simp
        rw [mul_add, mul_add, e, ENNReal.ofReal_add (by positivity) (by positivity), ENNReal.ofReal_mul hy.le, ENNReal.ofReal_mul hy.le]
        ring
    _ ≤ _ := add_le_add h3 le_rfl

end Girgs.HypDeg
