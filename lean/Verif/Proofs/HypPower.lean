import Verif.Proofs.HypTail
/-
The distribution of the radius of a sampled point: exponential bounds.
-/
namespace Girgs.HypDeg
open MeasureTheory Spec Props Set
open Real (exp)
open scoped ENNReal

variable {Ω : Type} [MeasurableSpace Ω] {P : Measure Ω} {n : ℕ} {α R T : ℝ} {ρ φ : Fin n → Ω → ℝ}

/-- the distribution of one radius -/
theorem radius_map (hp : RandomPoints P n α R ρ φ) (hαR : 1 ≤ α * R) (u : Fin n) : P.map (ρ u) = radialLaw α R := by
  haveI := radialLaw_prob hαR
  haveI : IsProbabilityMeasure (pointLaw α R) := by unfold pointLaw; infer_instance
  have hm : Measurable fun ω i => (ρ i ω, φ i ω) := measurable_pi_lambda _ fun i => (hp.measR i).prodMk (hp.measA i)
  have h1 : (P.map fun ω i => (ρ i ω, φ i ω)).map (fun x : Fin n → ℝ × ℝ => x u) = pointLaw α R := by
    rw [hp.joint]
    exact (measurePreserving_eval (fun _ : Fin n => pointLaw α R) u).map_eq
  have h2 : (pointLaw α R).map Prod.fst = radialLaw α R := by
    unfold pointLaw
    rw [Measure.map_fst_prod, measure_univ, one_smul]
  rw [← h2, ← h1, Measure.map_map measurable_fst (measurable_pi_apply u), Measure.map_map (measurable_fst.comp (measurable_pi_apply u)) hm]
  rfl

/-- the distribution function of a radius -/
theorem radius_cdf (hp : RandomPoints P n α R ρ φ) (hα : 0 < α) (hαR : 1 ≤ α * R) (u : Fin n) {r : ℝ} (h0 : 0 ≤ r) (h1 : r ≤ R) :
    P {ω | ρ u ω ≤ r} = ENNReal.ofReal ((Real.cosh (α * r) - (1 + 1 / 2 ^ 52)) / (Real.cosh (α * R) - (1 + 1 / 2 ^ 52))) := by
  have h : P.map (ρ u) (Iic r) = P {ω | ρ u ω ≤ r} := Measure.map_apply (hp.measR u) measurableSet_Iic
  rw [← h, radius_map hp hαR u]
  unfold radialLaw
  rw [Measure.map_apply (radiusVal_meas α) measurableSet_Iic, radiusVal_law hα (cosh_gap hαR) h0 h1]

theorem one_le_slack (hαR : 1 ≤ α * R) : 1 ≤ slack α R := by
  have h := (norm_bounds hαR).2.2
  have := Real.exp_pos (-(α * R))
  unfold slack
  rw [le_div_iff₀ h]
  linarith

/-- small radii are exponentially rare -/
theorem radius_le (hp : RandomPoints P n α R ρ φ) (hα : 0 < α) (hαR : 1 ≤ α * R) (u : Fin n) (x : ℝ) :
    P {ω | ρ u ω ≤ x} ≤ ENNReal.ofReal (slack α R * exp (-(α * (R - x)))) := by
  haveI := hp.prob
  have hs := one_le_slack hαR
  rcases lt_or_ge x 0 with h0 | h0
  · have e : {ω | ρ u ω ≤ x} = ∅ := by
      ext ω
      simp only [mem_setOf_eq, mem_empty_iff_false, iff_false, not_le]
      linarith [(hp.rangeR u ω).1]
    rw [e, measure_empty]; exact bot_le
  rcases le_or_gt x R with h1 | h1
  · rw [radius_cdf hp hα hαR u h0 h1]
    refine ENNReal.ofReal_le_ofReal ?_
    obtain ⟨n1, n2, n3⟩ := norm_bounds hαR
    have hc := cosh_gap hαR
    have h2 : 2 * (Real.cosh (α * x) - (1 + 1 / 2 ^ 52)) ≤ exp (α * x) := by
      have h3 := Real.cosh_eq (α * x)
      have h4 : exp (-(α * x)) ≤ 1 := Real.exp_le_one_iff.2 (by nlinarith)
      have h5 : (0 : ℝ) ≤ 1 / 2 ^ 52 := by positivity
      linarith
    have e : slack α R * exp (-(α * (R - x))) = exp (α * x) / (exp (α * R) * (1 - 2.1 * exp (-(α * R)))) := by
      unfold slack
      rw [show -(α * (R - x)) = α * x - α * R by ring, Real.exp_sub]
      have := (Real.exp_pos (α * R)).ne'
      field_simp
    rw [e, div_le_div_iff₀ (by linarith) (mul_pos (Real.exp_pos _) n3)]
    have h6 := Real.exp_pos (α * x)
    have h7 : (Real.cosh (α * x) - (1 + 1 / 2 ^ 52)) * (exp (α * R) * (1 - 2.1 * exp (-(α * R)))) ≤
        exp (α * x) / 2 * (exp (α * R) * (1 - 2.1 * exp (-(α * R)))) :=
      mul_le_mul_of_nonneg_right (by linarith) (mul_pos (Real.exp_pos _) n3).le
    have h8 := mul_le_mul_of_nonneg_left n1 h6.le
    linarith
  · refine prob_le_one.trans ?_
    rw [ENNReal.one_le_ofReal]
    have : 1 ≤ exp (-(α * (R - x))) := Real.one_le_exp (by nlinarith)
    nlinarith

/-- and not rarer than that -/
theorem radius_ge (hp : RandomPoints P n α R ρ φ) (hα : 0 < α) (hαR : 1 ≤ α * R) (u : Fin n) {a x : ℝ} (h0 : 0 ≤ a) (h1 : x ≤ R) :
    ENNReal.ofReal (exp (-(α * (R - x))) - 3 * exp (-(α * (R - a)))) ≤ P {ω | ρ u ω ∈ Ioc a x} := by
  rcases le_or_gt (exp (-(α * (R - x))) - 3 * exp (-(α * (R - a)))) 0 with hn | hn
  · rw [ENNReal.ofReal_of_nonpos hn]; exact bot_le
  have hxa : a ≤ x := by
    by_contra hxa
    push Not at hxa
    have h2 : exp (-(α * (R - x))) ≤ exp (-(α * (R - a))) := Real.exp_le_exp.2 (by nlinarith)
    have := Real.exp_pos (-(α * (R - a)))
    linarith
  haveI := hp.prob
  have e : {ω | ρ u ω ∈ Ioc a x} = {ω | ρ u ω ≤ x} \ {ω | ρ u ω ≤ a} := by
    ext ω; simp [and_comm]
  have hsub : {ω | ρ u ω ≤ a} ⊆ {ω | ρ u ω ≤ x} := fun ω hω => le_trans hω hxa
  have hmeas : MeasurableSet {ω | ρ u ω ≤ a} := measurableSet_le (hp.measR u) measurable_const
  have hc := cosh_gap hαR
  obtain ⟨n1, n2, n3⟩ := norm_bounds hαR
  rw [e, measure_diff hsub hmeas.nullMeasurableSet (measure_ne_top _ _), radius_cdf hp hα hαR u (h0.trans hxa) h1, radius_cdf hp hα hαR u h0 (hxa.trans h1)]
  generalize hC : Real.cosh (α * R) - (1 + 1 / 2 ^ 52) = C at *
  have hC0 : 0 < C := by linarith
  obtain ⟨c, hcd⟩ : ∃ c : ℝ, c = 1 + 1 / 2 ^ 52 := ⟨_, rfl⟩
  rw [← hcd]
  have hc1 : 1 ≤ c := by rw [hcd]; norm_num
  have hc2 : c ≤ 3 / 2 := by rw [hcd]; norm_num
  set M : ℝ := max 0 (Real.cosh (α * a) - c) with hM
  have hM0 : 0 ≤ M := le_max_left _ _
  have e0 : ENNReal.ofReal ((Real.cosh (α * a) - c) / C) = ENNReal.ofReal (M / C) := by
    rcases le_total 0 (Real.cosh (α * a) - c) with h | h
    · rw [hM, max_eq_right h]
    · rw [hM, max_eq_left h, zero_div, ENNReal.ofReal_zero, ENNReal.ofReal_of_nonpos (div_nonpos_of_nonpos_of_nonneg h hC0.le)]
  rw [e0, ← ENNReal.ofReal_sub _ (div_nonneg hM0 hC0.le)]
  refine ENNReal.ofReal_le_ofReal ?_
  rw [← sub_div, le_div_iff₀ hC0]
  have e1 : exp (-(α * (R - x))) * exp (α * R) = exp (α * x) := by rw [← Real.exp_add]; congr 1; ring
  have e2 : exp (-(α * (R - a))) * exp (α * R) = exp (α * a) := by rw [← Real.exp_add]; congr 1; ring
  have h3 := Real.cosh_eq (α * x)
  have h4 := Real.cosh_eq (α * a)
  have h5 : exp (-(α * a)) ≤ 1 := Real.exp_le_one_iff.2 (by nlinarith)
  have h6 : 1 ≤ exp (α * a) := Real.one_le_exp (by positivity)
  have h7 := Real.exp_pos (-(α * x))
  have hcM : c + M ≤ 3 / 2 * exp (α * a) := by
    rcases le_total 0 (Real.cosh (α * a) - c) with h | h
    · rw [hM, max_eq_right h]; linarith
    · rw [hM, max_eq_left h]; linarith
  have h8 : (exp (-(α * (R - x))) - 3 * exp (-(α * (R - a)))) * (2 * C) ≤ (exp (-(α * (R - x))) - 3 * exp (-(α * (R - a)))) * exp (α * R) :=
    mul_le_mul_of_nonneg_left n2 hn.le
  have h9 : (exp (-(α * (R - x))) - 3 * exp (-(α * (R - a)))) * exp (α * R) = exp (α * x) - 3 * exp (α * a) := by
    rw [sub_mul, mul_assoc, e1, e2]
  linarith

end Girgs.HypDeg
