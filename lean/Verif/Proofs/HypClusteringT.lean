import Verif.Proofs.HypClustering
/-
Connection probabilities of random points of the hyperbolic disk, compared with the mass of the close points.
-/
namespace Girgs.HypDeg
open MeasureTheory Spec Set Real
open scoped ENNReal

/-- points at a small angle are close, even if the inner one is near the centre -/
theorem close_of_sin {r s R a b : ℝ} (hR : 2 / 3 ≤ R) (hs : 0 < s) (hsr : s ≤ r) (hr : r ≤ R) (ht : |sin ((b - a) / 2)| < 2 / 5 * exp ((R - r - s) / 2)) :
    hypCosh r a s b < cosh R := by
  set t := |sin ((b - a) / 2)| with htd
  obtain ⟨p, hp⟩ : ∃ p, p = s / 2 := ⟨_, rfl⟩
  obtain ⟨m, hm⟩ : ∃ m, m = R - p := ⟨_, rfl⟩
  have hp0 : 0 < p := by rw [hp]; positivity
  have e1 : hypCosh r a s b = cosh (r - s) + 2 * (sinh r * sinh s) * t ^ 2 := by
    unfold hypCosh
    rw [cosh_sub, htd, sq_abs, show a - b = -(2 * ((b - a) / 2)) by ring, cos_neg, cos_two_mul]
    have := sin_sq_add_cos_sq ((b - a) / 2)
    rw [show cos ((b - a) / 2) ^ 2 = 1 - sin ((b - a) / 2) ^ 2 by linarith]
    ring
  have e2 : cosh (r - s) ≤ cosh (m - p) := by
    rw [cosh_le_cosh, abs_of_nonneg (by linarith), abs_of_nonneg (by linarith)]; linarith
  have e3 : cosh R = cosh (m - p) + 2 * (sinh m * sinh p) := by
    rw [show R = m + p by linarith, cosh_add, cosh_sub]; ring
  have e4 : sinh s = 2 * (sinh p * cosh p) := by
    rw [show s = 2 * p by linarith, sinh_two_mul]; ring
  have hsp : 0 < sinh p := sinh_pos_iff.2 hp0
  have t0 : 0 ≤ t := abs_nonneg _
  have h1 : sinh r ≤ exp r / 2 := by
    rw [sinh_eq]; have := exp_pos (-r); linarith
  have h2 : cosh p ≤ exp p := by
    rw [cosh_eq]; have : exp (-p) ≤ exp p := exp_le_exp.2 (by linarith)
    linarith
  have h3 : t ^ 2 < 4 / 25 * exp (R - r - s) := by
    have := pow_lt_pow_left₀ ht t0 (two_ne_zero)
    refine this.trans_le (le_of_eq ?_)
    rw [mul_pow, ← exp_nat_mul]
    congr 1
    · norm_num
    · congr 1; push_cast; ring
  have h4 : 4 / 25 * exp m ≤ sinh m := by
    have h5 : exp m = exp (2 * m) * exp (-m) := by rw [← exp_add]; congr 1; ring
    have h6 : 5 / 3 ≤ exp (2 * m) := by have := add_one_le_exp (2 * m); linarith
    have h7 := exp_pos (-m)
    rw [sinh_eq]
    nlinarith [mul_le_mul_of_nonneg_right h6 h7.le]
  have h5 : 2 * (sinh r * cosh p) * t ^ 2 < sinh m := by
    have a1 : 2 * (sinh r * cosh p) ≤ exp r * exp p := by
      have := mul_le_mul h1 h2 (cosh_pos p).le (by positivity)
      linarith
    have a2 : 2 * (sinh r * cosh p) * t ^ 2 ≤ exp r * exp p * t ^ 2 := mul_le_mul_of_nonneg_right a1 (by positivity)
    have a3 : exp r * exp p * t ^ 2 < exp r * exp p * (4 / 25 * exp (R - r - s)) := mul_lt_mul_of_pos_left h3 (by positivity)
    have a4 : exp r * exp p * (4 / 25 * exp (R - r - s)) = 4 / 25 * exp m := by
      rw [← exp_add, mul_left_comm, ← exp_add]
      congr 2
      rw [hm, hp]; ring
    linarith
  rw [e1, e3, e4]
  nlinarith [mul_lt_mul_of_pos_right h5 hsp]

open Classical in
theorem close_mass {r s R : ℝ} (hR : 2 / 3 ≤ R) (hs : 0 < s) (hsr : s ≤ r) (hr : r ≤ R) (a : ℝ) :
    ENNReal.ofReal (2 / π * min (π / 2) (2 / 5 * exp ((R - r - s) / 2))) ≤ ∫⁻ b, (if hypCosh r a s b < cosh R then 1 else 0) ∂angleLaw := by
  have hy := exp_pos ((R - r - s) / 2)
  have hpi := pi_pos
  rw [angleLaw_lintegral, ← quarter]
  refine mul_le_mul le_rfl ?_ bot_le bot_le
  set y := 2 / 5 * exp ((R - r - s) / 2) with hyd
  have e := angle_average (fun t => if t < y then 1 else 0) a
  refine le_trans ?_ (le_trans e.ge (lintegral_mono fun b => ?_))
  · refine mul_le_mul le_rfl ?_ bot_le bot_le
    have h1 : ∫⁻ x in Ioo 0 (min (π / 2) y), (1 : ℝ≥0∞) = ENNReal.ofReal (min (π / 2) y) := by
      rw [setLIntegral_one, Real.volume_Ioo, sub_zero]
    rw [← h1]
    refine le_trans (le_of_eq ?_) (lintegral_mono_set (Ioo_subset_Ioo_right (min_le_left (π / 2) y)))
    refine setLIntegral_congr_fun measurableSet_Ioo fun x hx => ?_
    rw [if_pos]
    exact (sin_le hx.1.le).trans_lt (hx.2.trans_le (min_le_right _ _))
  · split_ifs with h1 h2
    · exact le_rfl
    · exact absurd (close_of_sin hR hs hsr hr h1) h2
    · exact bot_le
    · exact le_rfl

open Classical in
theorem conn_mass {T r s R : ℝ} (hT0 : 0 ≤ T) (hT1 : T < 1) (hR : 2 / 3 ≤ R) (hs : 0 < s) (hsr : s ≤ r) (hr : r ≤ R) (a : ℝ) :
    ∫⁻ b, ENNReal.ofReal (conn T (exp ((hypDist r a s b - R) / 2))) ∂angleLaw ≤
      ENNReal.ofReal (7 * connC T) * ∫⁻ b, (if hypCosh r a s b < cosh R then 1 else 0) ∂angleLaw := by
  have hc := one_le_connC hT0 hT1
  have hpi := pi_pos
  have hpi3 := pi_gt_three
  have hpi4 := pi_lt_d2
  have hy := exp_pos ((R - r - s) / 2)
  refine le_trans ?_ (mul_le_mul le_rfl (close_mass hR hs hsr hr a) bot_le bot_le)
  rw [← ENNReal.ofReal_mul (by linarith)]
  set y := exp ((R - r - s) / 2) with hyd
  rcases le_total (π / 2) (2 / 5 * y) with h | h
  · rw [min_eq_left h, show 7 * connC T * (2 / π * (π / 2)) = 7 * connC T by field_simp]
    refine le_trans (lintegral_mono (g := fun _ => 1) fun b => ?_) ?_
    · rw [ENNReal.ofReal_le_one]; exact conn_le_one (exp_pos _).le
    · rw [lintegral_one, measure_univ]
      exact ENNReal.one_le_ofReal.2 (by linarith)
  · rw [min_eq_right h]
    have := average_upper (h := conn T) (γ := 1) (c := connC T) (fun v hv => conn_nonneg' hv.le) (fun v w hv hvw => conn_anti hT0 hv hvw) (by norm_num) (by norm_num)
      (by linarith) (fun v hv => conn_le_rpow hT0 (by norm_num) (by linarith) hv) (conn_integral hT0 hT1).le (conn_measurable T) r s R a
    refine this.trans (ENNReal.ofReal_le_ofReal ?_)
    rw [rpow_one, ← hyd]
    have e1 : 2 / π * (connC T * y + π / 2 * y) = 1 / π * y * (2 * connC T + π) := by field_simp
    have e2 : 7 * connC T * (2 / π * (2 / 5 * y)) = 1 / π * y * (28 / 5 * connC T) := by ring
    rw [e1, e2]
    refine mul_le_mul_of_nonneg_left ?_ (by positivity)
    linarith

/-- the connection probability to a point closer to the centre -/
noncomputable def innerConn (T R : ℝ) (q p : ℝ × ℝ) : ℝ≥0∞ := open Classical in
  if 0 < p.1 ∧ p.1 ≤ q.1 ∧ q.1 ≤ R then ENNReal.ofReal (conn T (exp ((hypDist q.1 q.2 p.1 p.2 - R) / 2))) else 0

theorem innerConn_measurable (T R : ℝ) : Measurable fun z : (ℝ × ℝ) × (ℝ × ℝ) => innerConn T R z.1 z.2 := by
  classical
  have h1 : MeasurableSet {z : (ℝ × ℝ) × (ℝ × ℝ) | 0 < z.2.1} := measurableSet_lt measurable_const measurable_snd.fst
  have h2 : MeasurableSet {z : (ℝ × ℝ) × (ℝ × ℝ) | z.2.1 ≤ z.1.1} := measurableSet_le measurable_snd.fst measurable_fst.fst
  have h3 : MeasurableSet {z : (ℝ × ℝ) × (ℝ × ℝ) | z.1.1 ≤ R} := measurableSet_le measurable_fst.fst measurable_const
  have h4 := ((conn_measurable T).comp (((measurable_hypDist.sub_const R).div_const 2).exp)).ennreal_ofReal
  exact Measurable.ite (h1.inter (h2.inter h3)) h4 measurable_const

variable {α R T : ℝ}

open Classical in
theorem inner_mass (hαR : 1 ≤ α * R) (hT0 : 0 ≤ T) (hT1 : T < 1) (hR : 2 / 3 ≤ R) (q : ℝ × ℝ) :
    ∫⁻ p, innerConn T R q p ∂pointLaw α R ≤ ENNReal.ofReal (7 * connC T) * ∫⁻ p, (if Close R q p then 1 else 0) ∂pointLaw α R := by
  haveI := radialLaw_prob hαR
  have h : Measurable fun p : ℝ × ℝ => (q, p) := by fun_prop
  have m1 : Measurable fun p : ℝ × ℝ => if Close R q p then (1 : ℝ≥0∞) else 0 :=
    Measurable.ite (h measurableSet_close) measurable_const measurable_const
  have m2 : Measurable fun p : ℝ × ℝ => innerConn T R q p := (innerConn_measurable T R).comp h
  unfold pointLaw
  rw [lintegral_prod _ m1.aemeasurable, lintegral_prod _ m2.aemeasurable, ← lintegral_const_mul' _ _ ENNReal.ofReal_ne_top]
  refine lintegral_mono fun s => ?_
  unfold innerConn Close
  simp only
  by_cases hs : 0 < s ∧ s ≤ q.1 ∧ q.1 ≤ R
  · simp only [hs.1, hs.2.1, hs.2.2, and_self, true_and, if_true]
    exact conn_mass hT0 hT1 hR hs.1 hs.2.1 hs.2.2 q.2
  · simp only [hs, if_false, lintegral_zero]
    exact bot_le

variable {Ω : Type} [MeasurableSpace Ω] {P : Measure Ω} {n : ℕ} {ρ φ : Fin n → Ω → ℝ}

open Classical in
/-- two neighbours closer to the centre, compared with two half close points -/
theorem inner_pair_mass (hp : RandomPoints P n α R ρ φ) (hαR : 1 ≤ α * R) (hT0 : 0 ≤ T) (hT1 : T < 1) (hR : 2 / 3 ≤ R) {u v z : Fin n}
    (huv : u ≠ v) (huz : u ≠ z) (hvz : v ≠ z) :
    ∫⁻ ω, innerConn T R (ρ u ω, φ u ω) (ρ v ω, φ v ω) * innerConn T R (ρ u ω, φ u ω) (ρ z ω, φ z ω) ∂P ≤
      ENNReal.ofReal (196 * connC T ^ 2) *
        ∫⁻ ω, (if HalfClose R (ρ u ω, φ u ω) (ρ v ω, φ v ω) ∧ HalfClose R (ρ u ω, φ u ω) (ρ z ω, φ z ω) then 1 else 0) ∂P := by
  have hc := one_le_connC hT0 hT1
  have hk : Measurable fun z : (ℝ × ℝ) × (ℝ × ℝ) => if HalfClose R z.1 z.2 then (1 : ℝ≥0∞) else 0 :=
    Measurable.ite measurableSet_halfClose measurable_const measurable_const
  have e : ∀ ω, (if HalfClose R (ρ u ω, φ u ω) (ρ v ω, φ v ω) ∧ HalfClose R (ρ u ω, φ u ω) (ρ z ω, φ z ω) then (1 : ℝ≥0∞) else 0) =
      (if HalfClose R (ρ u ω, φ u ω) (ρ v ω, φ v ω) then 1 else 0) * (if HalfClose R (ρ u ω, φ u ω) (ρ z ω, φ z ω) then 1 else 0) := by
    intro ω
    by_cases h1 : HalfClose R (ρ u ω, φ u ω) (ρ v ω, φ v ω) <;> simp [h1]
  simp only [e]
  rw [two_points hp hαR huv huz hvz (innerConn_measurable T R), two_points hp hαR huv huz hvz (k := fun q p => if HalfClose R q p then 1 else 0) hk, ← lintegral_const_mul' _ _ ENNReal.ofReal_ne_top]
  refine lintegral_mono fun q => ?_
  refine (pow_le_pow_left' ((inner_mass hαR hT0 hT1 hR q).trans (mul_le_mul le_rfl (half_mass hαR q) bot_le bot_le)) 2).trans (le_of_eq ?_)
  rw [← mul_assoc, mul_pow]
  congr 1
  rw [show (2 : ℝ≥0∞) = ENNReal.ofReal 2 by simp, ← ENNReal.ofReal_mul (by linarith), ← ENNReal.ofReal_pow (by linarith)]
  congr 1
  ring

end Girgs.HypDeg
