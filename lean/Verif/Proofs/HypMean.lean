import Verif.Proofs.HypPair
import Verif.Spec.HypDegree
import Mathlib.MeasureTheory.Integral.Prod
/-
The connection probability of two random points of the disk, averaged over angles and radii.
-/
namespace Girgs.HypDeg
open MeasureTheory Set Spec Props
open Real (exp cosh sinh sin cos)
open scoped ENNReal

variable {α R : ℝ}

/-- the distribution of the points (radius, angle) -/
noncomputable def pointLaw (α R : ℝ) : Measure (ℝ × ℝ) := (radialLaw α R).prod angleLaw

instance angleLaw_prob : IsProbabilityMeasure angleLaw := uniformLaw_prob Real.two_pi_pos

theorem radialLaw_prob (hαR : 1 ≤ α * R) : IsProbabilityMeasure (radialLaw α R) := by
  haveI := uniformLaw_prob (cosh_gap hαR)
  exact Measure.isProbabilityMeasure_map (radiusVal_meas α).aemeasurable

theorem radialLaw_range (hα : 0 < α) (hR : 0 < R) (hαR : 1 ≤ α * R) : ∀ᵐ r ∂radialLaw α R, 0 ≤ r ∧ r ≤ R := by
  unfold radialLaw
  rw [ae_map_iff (radiusVal_meas α).aemeasurable (show MeasurableSet {r : ℝ | 0 ≤ r ∧ r ≤ R} from measurableSet_Icc)]
  unfold uniformLaw
  refine Measure.ae_smul_measure ?_ _
  refine (ae_restrict_iff' measurableSet_Ico).2 (Filter.Eventually.of_forall fun u hu => ?_)
  have h1 : (1 : ℝ) ≤ u := le_trans (by norm_num) hu.1
  have h2 : u ≤ cosh (α * R) := hu.2.le
  constructor
  · unfold radiusVal
    have := Real.arcosh_nonneg h1
    positivity
  · unfold radiusVal
    rw [mul_one_div, div_le_iff₀ hα, mul_comm R α, ← Real.arcosh_cosh (by positivity : 0 ≤ α * R)]
    exact (Real.arcosh_le_arcosh (by linarith) (by linarith [Real.one_le_cosh (α * R)])).2 h2

theorem measurable_hypDist : Measurable fun x : (ℝ × ℝ) × (ℝ × ℝ) => hypDist x.1.1 x.1.2 x.2.1 x.2.2 := by
  unfold hypDist hypCosh
  exact arcosh_meas.comp (by fun_prop)

/-- the mean over two independent points, in the order radius, radius, angle, angle -/
theorem mean_le (hαR : 1 ≤ α * R) (hα : 0 < α) (hR : 0 < R) {F : (ℝ × ℝ) × (ℝ × ℝ) → ℝ≥0∞} (hF : Measurable F) {U : ℝ → ℝ → ℝ≥0∞}
    (h : ∀ r s a, 0 ≤ r → r ≤ R → 0 ≤ s → s ≤ R → ∫⁻ b, F ((r, a), (s, b)) ∂angleLaw ≤ U r s) :
    ∫⁻ p, ∫⁻ q, F (p, q) ∂pointLaw α R ∂pointLaw α R ≤ ∫⁻ r, ∫⁻ s, U r s ∂radialLaw α R ∂radialLaw α R := by
  haveI := radialLaw_prob hαR
  haveI : SFinite (pointLaw α R) := by unfold pointLaw; infer_instance
  have hr := radialLaw_range hα hR hαR
  have hG : Measurable fun p => ∫⁻ q, F (p, q) ∂pointLaw α R := hF.lintegral_prod_right'
  have e : pointLaw α R = (radialLaw α R).prod angleLaw := rfl
  conv_lhs => rw [e]
  rw [lintegral_prod _ (by rw [← e]; exact hG.aemeasurable)]
  refine lintegral_mono_ae (hr.mono fun r h1 => ?_)
  calc ∫⁻ a, ∫⁻ q, F ((r, a), q) ∂(radialLaw α R).prod angleLaw ∂angleLaw ≤ ∫⁻ _, ∫⁻ s, U r s ∂radialLaw α R ∂angleLaw := by
        refine lintegral_mono fun a => ?_
        have hFm : Measurable fun q => F ((r, a), q) := hF.comp (measurable_const.prodMk measurable_id)
        rw [lintegral_prod _ hFm.aemeasurable]
        exact lintegral_mono_ae (hr.mono fun s h2 => h r s a h1.1 h1.2 h2.1 h2.2)
    _ = _ := by rw [lintegral_const, measure_univ, mul_one]

theorem le_mean (hαR : 1 ≤ α * R) (hα : 0 < α) (hR : 0 < R) {F : (ℝ × ℝ) × (ℝ × ℝ) → ℝ≥0∞} (hF : Measurable F) {L U : ℝ → ℝ → ℝ≥0∞}
    (hU : Measurable (Function.uncurry U))
    (h : ∀ r s a, 0 ≤ r → r ≤ R → 0 ≤ s → s ≤ R → L r s ≤ (∫⁻ b, F ((r, a), (s, b)) ∂angleLaw) + U r s) :
    ∫⁻ r, ∫⁻ s, L r s ∂radialLaw α R ∂radialLaw α R ≤
      (∫⁻ p, ∫⁻ q, F (p, q) ∂pointLaw α R ∂pointLaw α R) + ∫⁻ r, ∫⁻ s, U r s ∂radialLaw α R ∂radialLaw α R := by
  haveI := radialLaw_prob hαR
  haveI : SFinite (pointLaw α R) := by unfold pointLaw; infer_instance
  have hr := radialLaw_range hα hR hαR
  have hG : Measurable fun p => ∫⁻ q, F (p, q) ∂pointLaw α R := hF.lintegral_prod_right'
  have e : pointLaw α R = (radialLaw α R).prod angleLaw := rfl
  have e2 : ∫⁻ p, ∫⁻ q, F (p, q) ∂pointLaw α R ∂pointLaw α R = ∫⁻ r, ∫⁻ a, ∫⁻ q, F ((r, a), q) ∂pointLaw α R ∂angleLaw ∂radialLaw α R := by
    conv_lhs => rw [e]
    rw [lintegral_prod _ (by rw [← e]; exact hG.aemeasurable)]
    rfl
  have hU1 : Measurable fun r => ∫⁻ s, U r s ∂radialLaw α R := hU.lintegral_prod_right'
  rw [e2, ← lintegral_add_right _ hU1]
  refine lintegral_mono_ae (hr.mono fun r h1 => ?_)
  calc ∫⁻ s, L r s ∂radialLaw α R = ∫⁻ _, ∫⁻ s, L r s ∂radialLaw α R ∂angleLaw := by rw [lintegral_const, measure_univ, mul_one]
    _ ≤ ∫⁻ a, ((∫⁻ q, F ((r, a), q) ∂pointLaw α R) + ∫⁻ s, U r s ∂radialLaw α R) ∂angleLaw := by
        refine lintegral_mono fun a => ?_
        have hFm : Measurable fun q => F ((r, a), q) := hF.comp (measurable_const.prodMk measurable_id)
        have hUm : Measurable fun s => U r s := hU.comp (measurable_const.prodMk measurable_id)
        rw [e, lintegral_prod _ hFm.aemeasurable, ← lintegral_add_right _ hUm]
        exact lintegral_mono_ae (hr.mono fun s h2 => h r s a h1.1 h1.2 h2.1 h2.2)
    _ = _ := by rw [lintegral_add_right _ measurable_const, lintegral_const, measure_univ, mul_one]

theorem mean_exp {k : ℝ} (hk : 0 ≤ k) (β β' : ℝ) :
    ∫⁻ r, ∫⁻ s, ENNReal.ofReal (k * (exp (-β * r) * exp (-β' * s))) ∂radialLaw α R ∂radialLaw α R =
      ENNReal.ofReal k * ((∫⁻ r, ENNReal.ofReal (exp (-β * r)) ∂radialLaw α R) * ∫⁻ s, ENNReal.ofReal (exp (-β' * s)) ∂radialLaw α R) := by
  have : ∀ r s : ℝ, ENNReal.ofReal (k * (exp (-β * r) * exp (-β' * s))) = ENNReal.ofReal k * (ENNReal.ofReal (exp (-β * r)) * ENNReal.ofReal (exp (-β' * s))) := by
    intro r s
    rw [ENNReal.ofReal_mul hk, ENNReal.ofReal_mul (Real.exp_pos _).le]
  simp only [this]
  rw [← lintegral_mul_const _ (by fun_prop), ← lintegral_const_mul' _ _ (by simp)]
  refine lintegral_congr fun r => ?_
  rw [lintegral_const_mul' _ _ (by simp), lintegral_const_mul' _ _ (by simp)]

theorem mean_exp_le {k : ℝ} (hk : 0 ≤ k) {β β' : ℝ} (hα : 0 < α) (hR : 0 < R) (hαR : 1 ≤ α * R) (h0 : 0 ≤ β) (h1 : β < α) (h0' : 0 ≤ β') (h1' : β' < α) :
    ∫⁻ r, ∫⁻ s, ENNReal.ofReal (k * (exp (-β * r) * exp (-β' * s))) ∂radialLaw α R ∂radialLaw α R ≤
      ENNReal.ofReal (k * (α / (α - β) * exp (-β * R) * (α / (α - β') * exp (-β' * R)) * slack α R ^ 2)) := by
  rw [mean_exp hk, ENNReal.ofReal_mul hk]
  refine mul_le_mul le_rfl ((mul_le_mul (moment_upper hα hR hαR h0 h1) (moment_upper hα hR hαR h0' h1') bot_le bot_le).trans ?_) bot_le bot_le
  have hq := (norm_bounds hαR).2.2
  have q1 : 0 < α - β := by linarith
  have q2 : 0 < α - β' := by linarith
  rw [← ENNReal.ofReal_mul (by positivity)]
  refine ENNReal.ofReal_le_ofReal (le_of_eq ?_)
  unfold slack
  ring

/-- the mean connection probability from above -/
theorem mean_upper {h : ℝ → ℝ} (h0 : ∀ v, 0 < v → 0 ≤ h v) (hanti : ∀ v w, 0 ≤ v → v ≤ w → h w ≤ h v) {γ c : ℝ} (hγ0 : 1 ≤ γ) (hγ : γ ≤ 2)
    (hc0 : 0 ≤ c) (hle : ∀ v, 0 < v → h v ≤ v ^ (-γ)) (hc : ∫⁻ v in Ioi 0, ENNReal.ofReal (h v) ≤ ENNReal.ofReal c) (hm : Measurable h)
    (hγα : γ < 2 * α) (hR : 0 < R) (hαR : 1 ≤ α * R) :
    ∫⁻ p, ∫⁻ q, ENNReal.ofReal (h (exp ((hypDist p.1 p.2 q.1 q.2 - R) / 2))) ∂pointLaw α R ∂pointLaw α R ≤
      ENNReal.ofReal (2 / Real.pi * xi α ^ 2 * exp (-R / 2) * ((c + 2 * kappa α γ ^ 2 * exp (-((γ - 1) * R / 2))) * slack α R ^ 2)) := by
  have hα : 0 < α := by linarith
  have hpi := Real.pi_pos
  refine (mean_le hαR hα hR (F := fun x => ENNReal.ofReal (h (exp ((hypDist x.1.1 x.1.2 x.2.1 x.2.2 - R) / 2))))
    (hm.comp (((measurable_hypDist.sub_const R).div_const 2).exp)).ennreal_ofReal
    (fun r s a _ _ _ _ => average_upper h0 hanti (by linarith) hγ hc0 hle hc hm r s R a)).trans ?_
  have e : ∀ r s : ℝ, ENNReal.ofReal (2 / Real.pi * (c * exp ((R - r - s) / 2) + Real.pi / 2 * exp ((R - r - s) / 2) ^ γ)) =
      ENNReal.ofReal (2 / Real.pi * (c * exp (R / 2)) * (exp (-(1 / 2) * r) * exp (-(1 / 2) * s))) +
      ENNReal.ofReal (exp (γ * R / 2) * (exp (-(γ / 2) * r) * exp (-(γ / 2) * s))) := by
    intro r s
    rw [← ENNReal.ofReal_add (by positivity) (by positivity)]
    congr 1
    have e1 : exp ((R - r - s) / 2) = exp (R / 2) * (exp (-(1 / 2) * r) * exp (-(1 / 2) * s)) := by
      rw [← Real.exp_add, ← Real.exp_add]; congr 1; ring
    have e2 : exp ((R - r - s) / 2) ^ γ = exp (γ * R / 2) * (exp (-(γ / 2) * r) * exp (-(γ / 2) * s)) := by
      rw [← Real.exp_mul, ← Real.exp_add, ← Real.exp_add]; congr 1; ring
    rw [e2, e1]
    field_simp
  simp only [e]
  have hm1 : ∀ k β β' : ℝ, Measurable (Function.uncurry fun r s : ℝ => ENNReal.ofReal (k * (exp (-β * r) * exp (-β' * s)))) := by
    intro k β β'
    unfold Function.uncurry
    fun_prop
  have hs : ∀ r, ∫⁻ s, (ENNReal.ofReal (2 / Real.pi * (c * exp (R / 2)) * (exp (-(1 / 2) * r) * exp (-(1 / 2) * s))) +
      ENNReal.ofReal (exp (γ * R / 2) * (exp (-(γ / 2) * r) * exp (-(γ / 2) * s)))) ∂radialLaw α R = _ := fun r =>
    lintegral_add_left (by fun_prop) _
  haveI := radialLaw_prob hαR
  have hm2 : ∀ k β β' : ℝ, Measurable fun r : ℝ => ∫⁻ s, ENNReal.ofReal (k * (exp (-β * r) * exp (-β' * s))) ∂radialLaw α R :=
    fun k β β' => (hm1 k β β').lintegral_prod_right'
  rw [lintegral_congr hs, lintegral_add_left (hm2 _ _ _)]
  refine (add_le_add (mean_exp_le (by positivity) hα hR hαR (by norm_num) (by linarith) (by norm_num) (by linarith))
    (mean_exp_le (by positivity) hα hR hαR (by linarith) (by linarith) (by linarith) (by linarith))).trans ?_
  have hq : 0 < slack α R := by
    have := (norm_bounds hαR).2.2
    unfold slack; positivity
  have a1 : 0 < α - 1 / 2 := by linarith
  have a2 : 0 < α - γ / 2 := by linarith
  rw [← ENNReal.ofReal_add (by positivity) (by positivity)]
  refine ENNReal.ofReal_le_ofReal ?_
  have e3 : exp (R / 2) * (exp (-(1 / 2) * R) * exp (-(1 / 2) * R)) = exp (-R / 2) := by
    rw [← Real.exp_add, ← Real.exp_add]; congr 1; ring
  have e4 : exp (γ * R / 2) * (exp (-(γ / 2) * R) * exp (-(γ / 2) * R)) = exp (-R / 2) * exp (-((γ - 1) * R / 2)) := by
    rw [← Real.exp_add, ← Real.exp_add, ← Real.exp_add]; congr 1; ring
  have e5 : α / (α - γ / 2) = xi α * kappa α γ := by
    unfold xi kappa
    rw [div_mul_div_cancel₀ a1.ne']
  have e6 : α / (α - 1 / 2) = xi α := rfl
  rw [e5, e6]
  set X := xi α
  set K := kappa α γ
  set S := slack α R
  set δ := exp (-((γ - 1) * R / 2)) with hδ
  have hδ0 : 0 < δ := Real.exp_pos _
  have hE := Real.exp_pos (-R / 2)
  calc 2 / Real.pi * (c * exp (R / 2)) * (X * exp (-(1 / 2) * R) * (X * exp (-(1 / 2) * R)) * S ^ 2) +
        exp (γ * R / 2) * (X * K * exp (-(γ / 2) * R) * (X * K * exp (-(γ / 2) * R)) * S ^ 2)
      = 2 / Real.pi * c * X ^ 2 * S ^ 2 * (exp (R / 2) * (exp (-(1 / 2) * R) * exp (-(1 / 2) * R))) +
        X ^ 2 * K ^ 2 * S ^ 2 * (exp (γ * R / 2) * (exp (-(γ / 2) * R) * exp (-(γ / 2) * R))) := by ring
    _ = 2 / Real.pi * c * X ^ 2 * S ^ 2 * exp (-R / 2) + 1 * (X ^ 2 * K ^ 2 * S ^ 2 * (exp (-R / 2) * δ)) := by rw [e3, e4]; ring
    _ ≤ 2 / Real.pi * c * X ^ 2 * S ^ 2 * exp (-R / 2) + (2 / Real.pi * 2) * (X ^ 2 * K ^ 2 * S ^ 2 * (exp (-R / 2) * δ)) := by
        have : 1 ≤ 2 / Real.pi * 2 := by
          rw [div_mul_eq_mul_div, le_div_iff₀ hpi]; linarith [Real.pi_le_four]
        have h5 : 0 ≤ X ^ 2 * K ^ 2 * S ^ 2 * (exp (-R / 2) * δ) := by positivity
        have := mul_le_mul_of_nonneg_right this h5
        linarith
    _ = _ := by ring

/-- the mean connection probability from below -/
theorem mean_lower {T γ : ℝ} (hT0 : 0 ≤ T) (hT1 : T < 1) (hγ0 : 1 ≤ γ) (hγ : γ ≤ 2) (hTγ : T * γ ≤ 1)
    (hγα : γ < 2 * α) (hR : 0 < R) (hαR : 1 ≤ (α - 1 / 2) * R) :
    ENNReal.ofReal (2 / Real.pi * xi α ^ 2 * exp (-R / 2) * (connC T * (1 - 2.1 * exp (-((α - 1 / 2) * R))) ^ 2)) ≤
      (∫⁻ p, ∫⁻ q, ENNReal.ofReal (conn T (exp ((hypDist p.1 p.2 q.1 q.2 - R) / 2))) ∂pointLaw α R ∂pointLaw α R) +
      ENNReal.ofReal (2 / Real.pi * xi α ^ 2 * exp (-R / 2) *
        (connC T * ((2 * kappa α γ + kappa α γ ^ 2) * exp (-((γ - 1) * R / 2)) * slack α R ^ 2))) := by
  have hα : 0 < α := by linarith
  have hαR' : 1 ≤ α * R := by nlinarith
  have hpi := Real.pi_pos
  have hc := one_le_connC hT0 hT1
  haveI := radialLaw_prob hαR'
  have hm1 : ∀ k β β' : ℝ, Measurable (Function.uncurry fun r s : ℝ => ENNReal.ofReal (k * (exp (-β * r) * exp (-β' * s)))) := by
    intro k β β'
    unfold Function.uncurry
    fun_prop
  have key := le_mean hαR' hα hR (F := fun x => ENNReal.ofReal (conn T (exp ((hypDist x.1.1 x.1.2 x.2.1 x.2.2 - R) / 2))))
    (L := fun r s => ENNReal.ofReal (2 / Real.pi * (connC T * exp (R / 2)) * (exp (-(1 / 2) * r) * exp (-(1 / 2) * s))))
    (U := fun r s => ENNReal.ofReal (2 / Real.pi * exp (R / 2) * (exp (-(γ / 2) * r) * exp (-(1 / 2) * s))) +
      ENNReal.ofReal (2 / Real.pi * exp (R / 2) * (exp (-(1 / 2) * r) * exp (-(γ / 2) * s))) +
      ENNReal.ofReal (2 / Real.pi * (connC T * exp (γ * R / 2)) * (exp (-(γ / 2) * r) * exp (-(γ / 2) * s))))
    ((conn_measurable T).comp (((measurable_hypDist.sub_const R).div_const 2).exp)).ennreal_ofReal
    (((hm1 _ _ _).add (hm1 _ _ _)).add (hm1 _ _ _)) ?_
  · rw [mean_exp (by positivity)] at key
    have hs : ∀ r, ∫⁻ s, (ENNReal.ofReal (2 / Real.pi * exp (R / 2) * (exp (-(γ / 2) * r) * exp (-(1 / 2) * s))) +
      ENNReal.ofReal (2 / Real.pi * exp (R / 2) * (exp (-(1 / 2) * r) * exp (-(γ / 2) * s))) +
      ENNReal.ofReal (2 / Real.pi * (connC T * exp (γ * R / 2)) * (exp (-(γ / 2) * r) * exp (-(γ / 2) * s)))) ∂radialLaw α R = _ := fun r => by
        rw [lintegral_add_right _ (by fun_prop), lintegral_add_right _ (by fun_prop)]
    have hm2 : ∀ k β β' : ℝ, Measurable fun r : ℝ => ∫⁻ s, ENNReal.ofReal (k * (exp (-β * r) * exp (-β' * s))) ∂radialLaw α R :=
      fun k β β' => (hm1 k β β').lintegral_prod_right'
    rw [lintegral_congr hs, lintegral_add_right _ (hm2 _ _ _), lintegral_add_right _ (hm2 _ _ _)] at key
    have hl := moment_lower (β := 1 / 2) hα hR hαR' (by norm_num) (by linarith)
    have a1 : 0 < α - 1 / 2 := by linarith
    have a2 : 0 < α - γ / 2 := by linarith
    have hq : 0 < slack α R := by
      have := (norm_bounds hαR').2.2
      unfold slack; positivity
    have hlow : 0 < 1 - 2.1 * exp (-((α - 1 / 2) * R)) := by
      have h1 : exp (-((α - 1 / 2) * R)) ≤ exp (-1) := Real.exp_le_exp.2 (by linarith)
      have h2 := Real.exp_one_gt_d9
      have h3 : exp 1 * exp (-1) = 1 := by rw [← Real.exp_add]; norm_num
      have h4 := Real.exp_pos (-1)
      nlinarith
    have e3 : exp (R / 2) * (exp (-(1 / 2) * R) * exp (-(1 / 2) * R)) = exp (-R / 2) := by
      rw [← Real.exp_add, ← Real.exp_add]; congr 1; ring
    have e4 : exp (γ * R / 2) * (exp (-(γ / 2) * R) * exp (-(γ / 2) * R)) = exp (-R / 2) * exp (-((γ - 1) * R / 2)) := by
      rw [← Real.exp_add, ← Real.exp_add, ← Real.exp_add]; congr 1; ring
    have e7 : exp (R / 2) * (exp (-(γ / 2) * R) * exp (-(1 / 2) * R)) = exp (-R / 2) * exp (-((γ - 1) * R / 2)) := by
      rw [← Real.exp_add, ← Real.exp_add, ← Real.exp_add]; congr 1; ring
    have e5 : α / (α - γ / 2) = xi α * kappa α γ := by
      unfold xi kappa
      rw [div_mul_div_cancel₀ a1.ne']
    have e6 : α / (α - 1 / 2) = xi α := rfl
    have hX : 0 < xi α := by unfold xi; positivity
    have hK : 0 < kappa α γ := by unfold kappa; positivity
    refine le_trans ?_ (key.trans (add_le_add le_rfl ?_))
    · refine le_trans ?_ (mul_le_mul le_rfl (mul_le_mul hl hl bot_le bot_le) bot_le bot_le)
      rw [e6, ← ENNReal.ofReal_mul (by positivity), ← ENNReal.ofReal_mul (by positivity)]
      refine ENNReal.ofReal_le_ofReal (le_of_eq ?_)
      rw [← e3]
      ring
    · refine (add_le_add (add_le_add (mean_exp_le (by positivity) hα hR hαR' (by linarith) (by linarith) (by norm_num) (by linarith))
        (mean_exp_le (by positivity) hα hR hαR' (by norm_num) (by linarith) (by linarith) (by linarith)))
        (mean_exp_le (by positivity) hα hR hαR' (by linarith) (by linarith) (by linarith) (by linarith))).trans ?_
      rw [← ENNReal.ofReal_add (by positivity) (by positivity), ← ENNReal.ofReal_add (by positivity) (by positivity)]
      refine ENNReal.ofReal_le_ofReal ?_
      rw [e5, e6]
      set X := xi α
      set K := kappa α γ
      set S := slack α R
      set δ := exp (-((γ - 1) * R / 2)) with hδ
      set C := connC T
      have hδ0 : 0 < δ := Real.exp_pos _
      have hE := Real.exp_pos (-R / 2)
      calc _ = 2 / Real.pi * X ^ 2 * K * S ^ 2 * (2 * (exp (R / 2) * (exp (-(γ / 2) * R) * exp (-(1 / 2) * R)))) +
            2 / Real.pi * C * X ^ 2 * K ^ 2 * S ^ 2 * (exp (γ * R / 2) * (exp (-(γ / 2) * R) * exp (-(γ / 2) * R))) := by ring
        _ = 2 / Real.pi * X ^ 2 * exp (-R / 2) * ((1 * (2 * K) + C * K ^ 2) * δ * S ^ 2) := by rw [e7, e4]; ring
        _ ≤ 2 / Real.pi * X ^ 2 * exp (-R / 2) * ((C * (2 * K) + C * K ^ 2) * δ * S ^ 2) := by gcongr
        _ = _ := by ring
  · intro r s a hr0 hr1 hs0 hs1
    have := average_lower hT0 hT1 hγ0 hTγ hr0 hs0 hr1 hs1 a
    have e1 : exp ((R - r - s) / 2) = exp (R / 2) * (exp (-(1 / 2) * r) * exp (-(1 / 2) * s)) := by
      rw [← Real.exp_add, ← Real.exp_add]; congr 1; ring
    have e2 : exp ((R - r - s) / 2) ^ γ = exp (γ * R / 2) * (exp (-(γ / 2) * r) * exp (-(γ / 2) * s)) := by
      rw [← Real.exp_mul, ← Real.exp_add, ← Real.exp_add]; congr 1; ring
    dsimp only
    rw [← ENNReal.ofReal_add (by positivity) (by positivity), ← ENNReal.ofReal_add (by positivity) (by positivity)]
    refine le_trans (le_of_eq ?_) (this.trans (add_le_add le_rfl (ENNReal.ofReal_le_ofReal ?_)))
    · rw [e1]; congr 1; ring
    · rw [e2, e1]
      have p1 : exp (-(1 / 2) * r) * exp (-(1 / 2) * r) ≤ exp (-(γ / 2) * r) := by
        rw [← Real.exp_add]; exact Real.exp_le_exp.2 (by nlinarith)
      have p2 : exp (-(1 / 2) * s) * exp (-(1 / 2) * s) ≤ exp (-(γ / 2) * s) := by
        rw [← Real.exp_add]; exact Real.exp_le_exp.2 (by nlinarith)
      have p3 := Real.exp_pos (-(1 / 2) * r)
      have p4 := Real.exp_pos (-(1 / 2) * s)
      calc _ = 2 / Real.pi * exp (R / 2) * (exp (-(1 / 2) * r) * exp (-(1 / 2) * r) * exp (-(1 / 2) * s)) +
            2 / Real.pi * exp (R / 2) * (exp (-(1 / 2) * r) * (exp (-(1 / 2) * s) * exp (-(1 / 2) * s))) +
            2 / Real.pi * (connC T * exp (γ * R / 2)) * (exp (-(γ / 2) * r) * exp (-(γ / 2) * s)) := by ring
        _ ≤ _ := by gcongr

end Girgs.HypDeg
