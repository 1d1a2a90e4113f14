import Verif.Proofs.HypTail
/-
Triangles of random points of the hyperbolic disk.
-/
namespace Girgs.HypDeg
open MeasureTheory Spec Set Real
open scoped ENNReal

/-- the point `p` is closer to the centre than `q` and within distance `R` of it -/
def Close (R : ℝ) (q p : ℝ × ℝ) : Prop := p.1 ≤ q.1 ∧ hypCosh q.1 q.2 p.1 p.2 < cosh R

/-- the same with twice the angle -/
def HalfClose (R : ℝ) (q p : ℝ × ℝ) : Prop :=
  p.1 ≤ q.1 ∧ 0 ≤ cos (q.2 - p.2) ∧ cosh q.1 * cosh p.1 - sinh q.1 * sinh p.1 * cos (2 * (q.2 - p.2)) < cosh R

theorem sinh_nonneg' {r : ℝ} (h : 0 ≤ r) : 0 ≤ sinh r := sinh_nonneg_iff.2 h

/-- moving a point towards the centre -/
theorem closer {r r' s R C : ℝ} (h0 : 0 < r') (h1 : r' ≤ r) (hs0 : 0 ≤ s) (hs : s ≤ R) (h : cosh r * cosh s - sinh r * sinh s * C < cosh R) :
    cosh r' * cosh s - sinh r' * sinh s * C < cosh R := by
  have hr : 0 < sinh r := sinh_pos_iff.2 (by linarith)
  have hr' : 0 < sinh r' := sinh_pos_iff.2 h0
  have hd : 0 ≤ sinh (r - r') := sinh_nonneg' (by linarith)
  have e : sinh r * (cosh r' * cosh s - sinh r' * sinh s * C) = sinh (r - r') * cosh s + sinh r' * (cosh r * cosh s - sinh r * sinh s * C) := by
    rw [sinh_sub]; ring
  have hsum : sinh (r - r') + sinh r' ≤ sinh r := by
    have : sinh r = sinh (r - r') * cosh r' + cosh (r - r') * sinh r' := by rw [← sinh_add]; congr 1; ring
    rw [this]
    nlinarith [one_le_cosh r', one_le_cosh (r - r')]
  have hc : cosh s ≤ cosh R := by
    rw [cosh_le_cosh, abs_of_nonneg hs0, abs_of_nonneg (hs0.trans hs)]; exact hs
  have hR := one_le_cosh R
  have h2 : sinh r * (cosh r' * cosh s - sinh r' * sinh s * C) < sinh r * cosh R := by
    rw [e]
    have a1 : sinh (r - r') * cosh s ≤ sinh (r - r') * cosh R := mul_le_mul_of_nonneg_left hc hd
    have a2 : sinh r' * (cosh r * cosh s - sinh r * sinh s * C) < sinh r' * cosh R := mul_lt_mul_of_pos_left h hr'
    nlinarith
  exact lt_of_mul_lt_mul_left h2 hr.le

/-- the larger one of two angles of at most `π/2`, doubled, is more than their difference -/
theorem cos_sub_ge {a b : ℝ} (ha : 0 ≤ cos a) (hb : 0 ≤ cos b) : min (cos (2 * a)) (cos (2 * b)) ≤ cos (a - b) := by
  have pa := sin_sq_add_cos_sq a
  have pb := sin_sq_add_cos_sq b
  have hss : -(|sin a| * |sin b|) ≤ sin a * sin b := by rw [← abs_mul]; exact neg_abs_le _
  have qa := sq_abs (sin a)
  have qb := sq_abs (sin b)
  have na := abs_nonneg (sin a)
  have nb := abs_nonneg (sin b)
  rw [cos_sub]
  rcases le_total (|sin a|) (|sin b|) with h | h
  · refine (min_le_right _ _).trans ?_
    have hcc : cos b ≤ cos a := by
      refine (sq_le_sq₀ hb ha).1 ?_
      nlinarith
    rw [cos_two_mul]
    nlinarith
  · refine (min_le_left _ _).trans ?_
    have hcc : cos a ≤ cos b := by
      refine (sq_le_sq₀ ha hb).1 ?_
      nlinarith
    rw [cos_two_mul]
    nlinarith

theorem HalfClose.close {R : ℝ} {q p : ℝ × ℝ} (h : HalfClose R q p) (hp : 0 ≤ p.1) : Close R q p := by
  obtain ⟨h1, h2, h3⟩ := h
  refine ⟨h1, lt_of_le_of_lt ?_ h3⟩
  unfold hypCosh
  have : cos (2 * (q.2 - p.2)) ≤ cos (q.2 - p.2) := by
    rw [cos_two_mul]
    nlinarith [cos_le_one (q.2 - p.2)]
  have hs : 0 ≤ sinh q.1 * sinh p.1 := mul_nonneg (sinh_nonneg' (by linarith)) (sinh_nonneg' hp)
  nlinarith [mul_le_mul_of_nonneg_left this hs]

theorem hypCosh_comm' (r φ s ψ : ℝ) : hypCosh r φ s ψ = hypCosh s ψ r φ := by
  unfold hypCosh
  rw [show φ - ψ = -(ψ - φ) by ring, cos_neg]
  ring

/-- two points half close to a third one are close to each other -/
theorem HalfClose.triangle {R : ℝ} {q p p' : ℝ × ℝ} (h : HalfClose R q p) (h' : HalfClose R q p') (hp : 0 < p.1) (hp' : 0 < p'.1) (hq : q.1 ≤ R) :
    hypCosh p.1 p.2 p'.1 p'.2 < cosh R := by
  obtain ⟨h1, h2, h3⟩ := h
  obtain ⟨k1, k2, k3⟩ := h'
  have hm := cos_sub_ge k2 h2
  rw [show q.2 - p'.2 - (q.2 - p.2) = p.2 - p'.2 by ring] at hm
  have sq : 0 ≤ sinh q.1 := sinh_nonneg' (by linarith)
  rcases min_choice (cos (2 * (q.2 - p'.2))) (cos (2 * (q.2 - p.2))) with e | e
  · rw [e] at hm
    have hs : 0 ≤ sinh q.1 * sinh p'.1 := mul_nonneg sq (sinh_nonneg' hp'.le)
    have := closer (C := cos (p.2 - p'.2)) hp h1 hp'.le (k1.trans hq) (lt_of_le_of_lt (by nlinarith [mul_le_mul_of_nonneg_left hm hs]) k3)
    exact this
  · rw [e] at hm
    have hs : 0 ≤ sinh q.1 * sinh p.1 := mul_nonneg sq (sinh_nonneg' hp.le)
    have := closer (C := cos (p.2 - p'.2)) hp' k1 hp.le (h1.trans hq) (lt_of_le_of_lt (by nlinarith [mul_le_mul_of_nonneg_left hm hs]) h3)
    refine lt_of_eq_of_lt ?_ this
    unfold hypCosh
    ring

/-- half of the angles -/
theorem half_angle (G : ℝ → ℝ≥0∞) (ψ : ℝ) :
    ∫⁻ φ in Ico 0 (2 * π), G |sin ((φ - ψ) / 2)| ≤ 2 * ∫⁻ φ in Ico 0 (2 * π), if 0 ≤ cos (ψ - φ) then G |sin (φ - ψ)| else 0 := by
  classical
  have e1 := angle_average G ψ
  have e2 := angle_average (fun t => if 0 ≤ 1 - 2 * t ^ 2 then G (2 * t * √(1 - t ^ 2)) else 0) ψ
  have e3 : ∀ φ : ℝ, (if 0 ≤ cos (ψ - φ) then G |sin (φ - ψ)| else 0) =
      (fun t => if 0 ≤ 1 - 2 * t ^ 2 then G (2 * t * √(1 - t ^ 2)) else 0) |sin ((φ - ψ) / 2)| := by
    intro φ
    have h1 : cos (ψ - φ) = 1 - 2 * |sin ((φ - ψ) / 2)| ^ 2 := by
      rw [sq_abs, show ψ - φ = -(2 * ((φ - ψ) / 2)) by ring, cos_neg, cos_two_mul]
      have := sin_sq_add_cos_sq ((φ - ψ) / 2)
      linarith
    have h2 : |sin (φ - ψ)| = 2 * |sin ((φ - ψ) / 2)| * √(1 - |sin ((φ - ψ) / 2)| ^ 2) := by
      rw [sq_abs, show 1 - sin ((φ - ψ) / 2) ^ 2 = cos ((φ - ψ) / 2) ^ 2 by have := sin_sq_add_cos_sq ((φ - ψ) / 2); linarith, sqrt_sq_eq_abs,
        show sin (φ - ψ) = 2 * sin ((φ - ψ) / 2) * cos ((φ - ψ) / 2) by rw [← sin_two_mul]; congr 1; ring, abs_mul, abs_mul]
      norm_num
    simp only [h1, h2]
  simp only [e3]
  rw [e1, e2]
  have h4 : ∫⁻ x in Ioo 0 (π / 2), G (sin x) = 2 * ∫⁻ x in Ioo 0 (π / 4), G (sin (2 * x)) := by
    have := lintegral_image_eq_lintegral_abs_deriv_mul (s := Ioo 0 (π / 4)) (f := fun x => 2 * x) (f' := fun _ => 2) measurableSet_Ioo
      (fun x _ => by simpa using ((hasDerivAt_id x).const_mul 2).hasDerivWithinAt) (fun a _ b _ h => by simpa using h) (fun x => G (sin x))
    rw [image_mul_left_Ioo (by norm_num : (0 : ℝ) < 2)] at this
    rw [show Ioo 0 (π / 2) = Ioo (2 * 0) (2 * (π / 4)) by rw [mul_zero]; congr 1; ring, this, ← lintegral_const_mul' _ _ (by simp)]
    refine setLIntegral_congr_fun measurableSet_Ioo fun x hx => ?_
    rw [abs_of_pos (by norm_num : (0 : ℝ) < 2), ENNReal.ofReal_ofNat]
  rw [h4, ← mul_assoc, ← mul_assoc, mul_comm 2 4]
  refine mul_le_mul le_rfl ?_ bot_le bot_le
  have hpi := pi_pos
  refine le_trans (le_of_eq ?_) (lintegral_mono_set (Ioo_subset_Ioo_right (by linarith : π / 4 ≤ π / 2)))
  refine setLIntegral_congr_fun measurableSet_Ioo fun x hx => ?_
  have hc : 0 < cos x := cos_pos_of_mem_Ioo ⟨by linarith [hx.1], by linarith [hx.2]⟩
  have h5 : 1 - 2 * sin x ^ 2 = cos (2 * x) := by
    rw [cos_two_mul]; have := sin_sq_add_cos_sq x; linarith
  have h6 : 0 ≤ cos (2 * x) := cos_nonneg_of_mem_Icc ⟨by linarith [hx.1], by linarith [hx.2]⟩
  rw [if_pos (by rw [h5]; exact h6), show 1 - sin x ^ 2 = cos x ^ 2 by have := sin_sq_add_cos_sq x; linarith, sqrt_sq hc.le, sin_two_mul]

variable {α R : ℝ}

theorem measurableSet_close : MeasurableSet {z : (ℝ × ℝ) × (ℝ × ℝ) | Close R z.1 z.2} := by
  have h1 : MeasurableSet {z : (ℝ × ℝ) × (ℝ × ℝ) | z.2.1 ≤ z.1.1} := measurableSet_le measurable_snd.fst measurable_fst.fst
  have m : Measurable fun z : (ℝ × ℝ) × (ℝ × ℝ) => hypCosh z.1.1 z.1.2 z.2.1 z.2.2 := by unfold hypCosh; fun_prop
  exact h1.inter (measurableSet_lt m measurable_const)

theorem measurableSet_halfClose : MeasurableSet {z : (ℝ × ℝ) × (ℝ × ℝ) | HalfClose R z.1 z.2} := by
  have h1 : MeasurableSet {z : (ℝ × ℝ) × (ℝ × ℝ) | z.2.1 ≤ z.1.1} := measurableSet_le measurable_snd.fst measurable_fst.fst
  have m : Measurable fun z : (ℝ × ℝ) × (ℝ × ℝ) => cosh z.1.1 * cosh z.2.1 - sinh z.1.1 * sinh z.2.1 * cos (2 * (z.1.2 - z.2.2)) := by fun_prop
  have m' : Measurable fun z : (ℝ × ℝ) × (ℝ × ℝ) => cos (z.1.2 - z.2.2) := by fun_prop
  exact h1.inter ((measurableSet_le measurable_const m').inter (measurableSet_lt m measurable_const))

open Classical in
/-- half of the close points are half close -/
theorem half_mass (hαR : 1 ≤ α * R) (q : ℝ × ℝ) :
    ∫⁻ p, (if Close R q p then 1 else 0) ∂pointLaw α R ≤ 2 * ∫⁻ p, (if HalfClose R q p then 1 else 0) ∂pointLaw α R := by
  haveI := radialLaw_prob hαR
  have m1 : Measurable fun p : ℝ × ℝ => if Close R q p then (1 : ℝ≥0∞) else 0 := by
    have h : Measurable fun p : ℝ × ℝ => (q, p) := by fun_prop
    exact Measurable.ite (h measurableSet_close) measurable_const measurable_const
  have m2 : Measurable fun p : ℝ × ℝ => if HalfClose R q p then (1 : ℝ≥0∞) else 0 := by
    have h : Measurable fun p : ℝ × ℝ => (q, p) := by fun_prop
    exact Measurable.ite (h measurableSet_halfClose) measurable_const measurable_const
  unfold pointLaw
  rw [lintegral_prod _ m1.aemeasurable, lintegral_prod _ m2.aemeasurable, ← lintegral_const_mul' _ _ (by simp)]
  refine lintegral_mono fun s => ?_
  rw [angleLaw_lintegral, angleLaw_lintegral, mul_left_comm 2]
  refine mul_le_mul le_rfl ?_ bot_le bot_le
  have key := half_angle (fun t => if s ≤ q.1 ∧ cosh q.1 * cosh s - sinh q.1 * sinh s * (1 - 2 * t ^ 2) < cosh R then 1 else 0) q.2
  have hcos : ∀ x : ℝ, 1 - 2 * |sin x| ^ 2 = cos (2 * x) := fun x => by
    rw [sq_abs, cos_two_mul]; have := sin_sq_add_cos_sq x; linarith
  refine le_trans (le_of_eq ?_) (key.trans (le_of_eq ?_))
  · refine lintegral_congr fun φ => ?_
    simp only [hcos]
    unfold Close hypCosh
    rw [show 2 * ((φ - q.2) / 2) = -(q.2 - φ) by ring, cos_neg]
    congr
  · congr 1
    refine lintegral_congr fun φ => ?_
    simp only [hcos]
    unfold HalfClose
    rw [show 2 * (φ - q.2) = -(2 * (q.2 - φ)) by ring, cos_neg]
    by_cases h1 : 0 ≤ cos (q.2 - φ)
    · simp [h1]
    · simp [h1]

variable {Ω : Type} [MeasurableSpace Ω] {P : Measure Ω} {n : ℕ} {ρ φ : Fin n → Ω → ℝ}

/-- a product for two points, given a third one -/
theorem two_points (hp : RandomPoints P n α R ρ φ) (hαR : 1 ≤ α * R) {u v z : Fin n} (huv : u ≠ v) (huz : u ≠ z) (hvz : v ≠ z) {k : (ℝ × ℝ) → (ℝ × ℝ) → ℝ≥0∞}
    (hk : Measurable fun z : (ℝ × ℝ) × (ℝ × ℝ) => k z.1 z.2) :
    ∫⁻ ω, k (ρ u ω, φ u ω) (ρ v ω, φ v ω) * k (ρ u ω, φ u ω) (ρ z ω, φ z ω) ∂P = ∫⁻ q, (∫⁻ p, k q p ∂pointLaw α R) ^ 2 ∂pointLaw α R := by
  haveI := radialLaw_prob hαR
  haveI : IsProbabilityMeasure (pointLaw α R) := by unfold pointLaw; infer_instance
  have hX : Measurable fun ω (i : Fin n) => (ρ i ω, φ i ω) := measurable_pi_lambda _ fun i => (hp.measR i).prodMk (hp.measA i)
  have hprod : ∀ A B : ℝ≥0∞, ∏ b, (if u = b then 1 else if b = v then A else if b = z then B else 1) = A * B := by
    intro A B
    have h1 : ∀ b, (if u = b then 1 else if b = v then A else if b = z then B else 1) = (if b = v then A else 1) * (if b = z then B else 1) := by
      intro b
      split_ifs with h1 h2 h3 h4 h5 <;> simp_all
    rw [Finset.prod_congr rfl fun b _ => h1 b, Finset.prod_mul_distrib, Finset.prod_ite_eq' Finset.univ v, Finset.prod_ite_eq' Finset.univ z]
    simp
  have h := row_prod_set (pointLaw α R) u (g := fun b q p => if b = v then k q p else if b = z then k q p else 1)
    (by
      intro b
      split_ifs
      · exact hk
      · exact hk
      · exact measurable_const) MeasurableSet.univ
  simp only [Set.mem_univ, Set.setOf_true, Measure.restrict_univ] at h
  have e1 : ∀ q, ∏ b, (if u = b then 1 else ∫⁻ p, (if b = v then k q p else if b = z then k q p else 1) ∂pointLaw α R) = (∫⁻ p, k q p ∂pointLaw α R) ^ 2 := by
    intro q
    rw [sq, ← hprod]
    refine Finset.prod_congr rfl fun b _ => ?_
    split_ifs <;> simp
  simp only [e1] at h
  rw [← h, ← hp.joint, lintegral_map ?_ hX]
  · refine lintegral_congr fun ω => ?_
    rw [← hprod]
    refine Finset.prod_congr rfl fun b _ => ?_
    split_ifs with h1 h2 h3
    · rfl
    · rw [h2]
    · rw [h3]
    · rfl
  · refine Finset.measurable_prod _ fun b _ => ?_
    have h : Measurable fun x : Fin n → ℝ × ℝ => (x u, x b) := by fun_prop
    split_ifs
    · exact measurable_const
    · exact hk.comp h
    · exact hk.comp h
    · exact measurable_const

open Classical in
/-- close to the first point, half close to the first point -/
theorem triangle_mass (hp : RandomPoints P n α R ρ φ) (hαR : 1 ≤ α * R) {u v z : Fin n} (huv : u ≠ v) (huz : u ≠ z) (hvz : v ≠ z) :
    P {ω | Close R (ρ u ω, φ u ω) (ρ v ω, φ v ω) ∧ Close R (ρ u ω, φ u ω) (ρ z ω, φ z ω)} ≤
      4 * P {ω | HalfClose R (ρ u ω, φ u ω) (ρ v ω, φ v ω) ∧ HalfClose R (ρ u ω, φ u ω) (ρ z ω, φ z ω)} := by
  have hm : ∀ b, Measurable fun ω => ((ρ u ω, φ u ω), (ρ b ω, φ b ω)) := fun b =>
    ((hp.measR u).prodMk (hp.measA u)).prodMk ((hp.measR b).prodMk (hp.measA b))
  have e : ∀ {C : (ℝ × ℝ) → (ℝ × ℝ) → Prop}, MeasurableSet {z : (ℝ × ℝ) × (ℝ × ℝ) | C z.1 z.2} →
      P {ω | C (ρ u ω, φ u ω) (ρ v ω, φ v ω) ∧ C (ρ u ω, φ u ω) (ρ z ω, φ z ω)} =
      ∫⁻ q, (∫⁻ p, (if C q p then 1 else 0) ∂pointLaw α R) ^ 2 ∂pointLaw α R := by
    intro C hC
    have hk : Measurable fun z : (ℝ × ℝ) × (ℝ × ℝ) => if C z.1 z.2 then (1 : ℝ≥0∞) else 0 := Measurable.ite hC measurable_const measurable_const
    rw [← two_points hp hαR huv huz hvz hk]
    have hS : MeasurableSet {ω | C (ρ u ω, φ u ω) (ρ v ω, φ v ω) ∧ C (ρ u ω, φ u ω) (ρ z ω, φ z ω)} := (hm v hC).inter (hm z hC)
    rw [← lintegral_indicator_one hS]
    refine lintegral_congr fun ω => ?_
    by_cases h1 : C (ρ u ω, φ u ω) (ρ v ω, φ v ω)
    · by_cases h2 : C (ρ u ω, φ u ω) (ρ z ω, φ z ω)
      · rw [Set.indicator_of_mem (by exact ⟨h1, h2⟩), if_pos h1, if_pos h2]; simp
      · rw [Set.indicator_of_notMem (by exact fun h => h2 h.2), if_neg h2]; simp
    · rw [Set.indicator_of_notMem (by exact fun h => h1 h.1), if_neg h1]; simp
  rw [e measurableSet_close, e measurableSet_halfClose, ← lintegral_const_mul' _ _ (by simp)]
  refine lintegral_mono fun q => ?_
  refine (pow_le_pow_left' (half_mass hαR q) 2).trans (le_of_eq ?_)
  rw [mul_pow]; norm_num

end Girgs.HypDeg
