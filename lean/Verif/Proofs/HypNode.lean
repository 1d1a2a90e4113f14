import Verif.Proofs.HypPairs
import Verif.Spec.NodeDegree
/-
The mean connection probability of a point with a given radius.
-/
namespace Girgs.HypDeg
open MeasureTheory Spec Props Set
open Real (exp)
open scoped ENNReal

variable {α R T γ : ℝ}

theorem slack_pos (hαR : 1 ≤ α * R) : 0 < slack α R := by
  have := (norm_bounds hαR).2.2
  unfold slack; positivity

theorem node_moment {β : ℝ} (hα : 0 < α) (hR : 0 < R) (hαR : 1 ≤ α * R) (h0 : 0 ≤ β) (h1 : β < α) {k : ℝ} (hk : 0 ≤ k) :
    ∫⁻ s, ENNReal.ofReal (k * exp (-β * s)) ∂radialLaw α R ≤ ENNReal.ofReal (k * (α / (α - β) * exp (-β * R) * slack α R)) := by
  simp only [ENNReal.ofReal_mul hk]
  rw [lintegral_const_mul _ (by fun_prop)]
  refine mul_le_mul le_rfl ((moment_upper hα hR hαR h0 h1).trans (ENNReal.ofReal_le_ofReal (le_of_eq ?_))) bot_le bot_le
  unfold slack
  ring

/-- from above -/
theorem node_upper {h : ℝ → ℝ} (h0 : ∀ v, 0 < v → 0 ≤ h v) (hanti : ∀ v w, 0 ≤ v → v ≤ w → h w ≤ h v) {c : ℝ} (hγ0 : 1 ≤ γ) (hγ : γ ≤ 2)
    (hc0 : 0 ≤ c) (hle : ∀ v, 0 < v → h v ≤ v ^ (-γ)) (hc : ∫⁻ v in Ioi 0, ENNReal.ofReal (h v) ≤ ENNReal.ofReal c) (hm : Measurable h)
    (hγα : γ < 2 * α) (hR : 0 < R) (hαR : 1 ≤ α * R) (p : ℝ × ℝ) :
    ∫⁻ q, ENNReal.ofReal (h (exp ((hypDist p.1 p.2 q.1 q.2 - R) / 2))) ∂pointLaw α R ≤
      ENNReal.ofReal (2 / Real.pi * xi α * exp (-p.1 / 2) * ((c + 2 * nodeError α γ p.1) * slack α R)) := by
  obtain ⟨r, a⟩ := p
  have hα : 0 < α := by linarith
  have hpi := Real.pi_pos
  haveI := radialLaw_prob hαR
  have hFm : Measurable fun q : ℝ × ℝ => ENNReal.ofReal (h (exp ((hypDist r a q.1 q.2 - R) / 2))) := by
    have h1 : Measurable fun q : ℝ × ℝ => ((r, a), q) := measurable_const.prodMk measurable_id
    exact (hm.comp ((((measurable_hypDist.comp h1).sub_const R).div_const 2).exp)).ennreal_ofReal
  unfold pointLaw
  rw [lintegral_prod _ hFm.aemeasurable]
  refine (lintegral_mono fun s => average_upper h0 hanti (by linarith) hγ hc0 hle hc hm r s R a).trans ?_
  have e : ∀ s : ℝ, ENNReal.ofReal (2 / Real.pi * (c * exp ((R - r - s) / 2) + Real.pi / 2 * exp ((R - r - s) / 2) ^ γ)) =
      ENNReal.ofReal (2 / Real.pi * (c * exp (R / 2)) * exp (-(1 / 2) * r) * exp (-(1 / 2) * s)) +
      ENNReal.ofReal (exp (γ * R / 2) * exp (-(γ / 2) * r) * exp (-(γ / 2) * s)) := by
    intro s
    rw [← ENNReal.ofReal_add (by positivity) (by positivity)]
    congr 1
    have e1 : exp ((R - r - s) / 2) = exp (R / 2) * (exp (-(1 / 2) * r) * exp (-(1 / 2) * s)) := by
      rw [← Real.exp_add, ← Real.exp_add]; congr 1; ring
    have e2 : exp ((R - r - s) / 2) ^ γ = exp (γ * R / 2) * (exp (-(γ / 2) * r) * exp (-(γ / 2) * s)) := by
      rw [← Real.exp_mul, ← Real.exp_add, ← Real.exp_add]; congr 1; ring
    rw [e2, e1]
    field_simp
  simp only [e]
  rw [lintegral_add_left (by fun_prop)]
  have a1 : 0 < α - 1 / 2 := by linarith
  have a2 : 0 < α - γ / 2 := by linarith
  have hq := slack_pos hαR
  refine (add_le_add (node_moment (β := 1 / 2) hα hR hαR (by norm_num) (by linarith) (by positivity))
    (node_moment (β := γ / 2) hα hR hαR (by linarith) (by linarith) (by positivity))).trans ?_
  rw [← ENNReal.ofReal_add (by positivity) (by positivity)]
  refine ENNReal.ofReal_le_ofReal ?_
  have e3 : exp (R / 2) * exp (-(1 / 2) * R) = 1 := by
    rw [← Real.exp_add, Real.exp_eq_one_iff]; ring
  have e4 : exp (γ * R / 2) * exp (-(γ / 2) * R) = 1 := by
    rw [← Real.exp_add, Real.exp_eq_one_iff]; ring
  have e5 : α / (α - γ / 2) = xi α * kappa α γ := by
    unfold xi kappa
    rw [div_mul_div_cancel₀ a1.ne']
  have e6 : α / (α - 1 / 2) = xi α := rfl
  have e7 : exp (-(γ / 2) * r) = exp (-r / 2) * exp (-((γ - 1) * r / 2)) := by
    rw [← Real.exp_add]; congr 1; ring
  have e8 : exp (-(1 / 2) * r) = exp (-r / 2) := by congr 1; ring
  rw [e5, e6, e7, e8]
  unfold nodeError
  have hX : 0 < xi α := by unfold xi; positivity
  have hK : 0 < kappa α γ := by unfold kappa; positivity
  set X := xi α
  set K := kappa α γ
  set S := slack α R
  set δ := exp (-((γ - 1) * r / 2)) with hδ
  have hδ0 : 0 < δ := Real.exp_pos _
  have hE := Real.exp_pos (-r / 2)
  calc _ = 2 / Real.pi * c * X * S * exp (-r / 2) * (exp (R / 2) * exp (-(1 / 2) * R)) +
        X * K * S * (exp (-r / 2) * δ) * (exp (γ * R / 2) * exp (-(γ / 2) * R)) := by ring
    _ = 2 / Real.pi * c * X * S * exp (-r / 2) + 1 * (X * K * S * (exp (-r / 2) * δ)) := by rw [e3, e4]; ring
    _ ≤ 2 / Real.pi * c * X * S * exp (-r / 2) + (2 / Real.pi * 2) * (X * K * S * (exp (-r / 2) * δ)) := by
        have : 1 ≤ 2 / Real.pi * 2 := by
          rw [div_mul_eq_mul_div, le_div_iff₀ hpi]; linarith [Real.pi_le_four]
        have h5 : 0 ≤ X * K * S * (exp (-r / 2) * δ) := by positivity
        have := mul_le_mul_of_nonneg_right this h5
        linarith
    _ = _ := by ring

/-- from below -/
theorem node_lower (hT0 : 0 ≤ T) (hT1 : T < 1) (hγ0 : 1 ≤ γ) (hγ : γ ≤ 2) (hTγ : T * γ ≤ 1)
    (hγα : γ < 2 * α) (hR : 0 < R) (hαR : 1 ≤ (α - 1 / 2) * R) (p : ℝ × ℝ) (hp0 : 0 ≤ p.1) (hp1 : p.1 ≤ R) :
    ENNReal.ofReal (2 / Real.pi * xi α * exp (-p.1 / 2) * (connC T * (1 - 2.1 * exp (-((α - 1 / 2) * R))))) ≤
      (∫⁻ q, ENNReal.ofReal (conn T (exp ((hypDist p.1 p.2 q.1 q.2 - R) / 2))) ∂pointLaw α R) +
      ENNReal.ofReal (2 / Real.pi * xi α * exp (-p.1 / 2) * (connC T * (3 * nodeError α γ p.1 * slack α R))) := by
  obtain ⟨r, a⟩ := p
  dsimp only at hp0 hp1
  have hα : 0 < α := by linarith
  have hαR' : 1 ≤ α * R := by nlinarith
  have hpi := Real.pi_pos
  have hc := one_le_connC hT0 hT1
  haveI := radialLaw_prob hαR'
  have hFm : Measurable fun q : ℝ × ℝ => ENNReal.ofReal (conn T (exp ((hypDist r a q.1 q.2 - R) / 2))) := by
    have h1 : Measurable fun q : ℝ × ℝ => ((r, a), q) := measurable_const.prodMk measurable_id
    exact ((conn_measurable T).comp ((((measurable_hypDist.comp h1).sub_const R).div_const 2).exp)).ennreal_ofReal
  have a1 : 0 < α - 1 / 2 := by linarith
  have a2 : 0 < α - γ / 2 := by linarith
  have hq := slack_pos hαR'
  have key : ∫⁻ s, ENNReal.ofReal (2 / Real.pi * (connC T * exp (R / 2)) * exp (-(1 / 2) * r) * exp (-(1 / 2) * s)) ∂radialLaw α R ≤
      (∫⁻ q, ENNReal.ofReal (conn T (exp ((hypDist r a q.1 q.2 - R) / 2))) ∂pointLaw α R) +
      ((∫⁻ s, ENNReal.ofReal (2 / Real.pi * exp (R / 2) * exp (-(γ / 2) * r) * exp (-(1 / 2) * s)) ∂radialLaw α R) +
      (∫⁻ s, ENNReal.ofReal (2 / Real.pi * exp (R / 2) * exp (-(1 / 2) * r) * exp (-(γ / 2) * s)) ∂radialLaw α R) +
      ∫⁻ s, ENNReal.ofReal (2 / Real.pi * (connC T * exp (γ * R / 2)) * exp (-(γ / 2) * r) * exp (-(γ / 2) * s)) ∂radialLaw α R) := by
    unfold pointLaw
    rw [lintegral_prod _ hFm.aemeasurable, ← lintegral_add_right _ (by fun_prop), ← lintegral_add_right _ (by fun_prop), ← lintegral_add_right _ (by fun_prop)]
    refine lintegral_mono_ae ((radialLaw_range hα hR hαR').mono fun s hs => ?_)
    have := average_lower hT0 hT1 hγ0 hTγ hp0 hs.1 hp1 hs.2 a
    have e1 : exp ((R - r - s) / 2) = exp (R / 2) * (exp (-(1 / 2) * r) * exp (-(1 / 2) * s)) := by
      rw [← Real.exp_add, ← Real.exp_add]; congr 1; ring
    have e2 : exp ((R - r - s) / 2) ^ γ = exp (γ * R / 2) * (exp (-(γ / 2) * r) * exp (-(γ / 2) * s)) := by
      rw [← Real.exp_mul, ← Real.exp_add, ← Real.exp_add]; congr 1; ring
    rw [← ENNReal.ofReal_add (by positivity) (by positivity), ← ENNReal.ofReal_add (by positivity) (by positivity)]
    refine le_trans (le_of_eq ?_) (this.trans (add_le_add le_rfl (ENNReal.ofReal_le_ofReal ?_)))
    · rw [e1]; congr 1; ring
    · rw [e2, e1]
      have p1 : exp (-(1 / 2) * r) * exp (-(1 / 2) * r) ≤ exp (-(γ / 2) * r) := by
        rw [← Real.exp_add]; exact Real.exp_le_exp.2 (by nlinarith)
      have p2 : exp (-(1 / 2) * s) * exp (-(1 / 2) * s) ≤ exp (-(γ / 2) * s) := by
        rw [← Real.exp_add]; exact Real.exp_le_exp.2 (by nlinarith [hs.1])
      have p3 := Real.exp_pos (-(1 / 2) * r)
      have p4 := Real.exp_pos (-(1 / 2) * s)
      calc _ = 2 / Real.pi * exp (R / 2) * (exp (-(1 / 2) * r) * exp (-(1 / 2) * r)) * exp (-(1 / 2) * s) +
            2 / Real.pi * exp (R / 2) * exp (-(1 / 2) * r) * (exp (-(1 / 2) * s) * exp (-(1 / 2) * s)) +
            2 / Real.pi * (connC T * exp (γ * R / 2)) * exp (-(γ / 2) * r) * exp (-(γ / 2) * s) := by ring
        _ ≤ _ := by gcongr
  have hl := moment_lower (β := 1 / 2) hα hR hαR' (by norm_num) (by linarith)
  have hlow : 0 < 1 - 2.1 * exp (-((α - 1 / 2) * R)) := by
    have h1 : exp (-((α - 1 / 2) * R)) ≤ exp (-1) := Real.exp_le_exp.2 (by linarith)
    have h2 := Real.exp_one_gt_d9
    have h3 : exp 1 * exp (-1) = 1 := by rw [← Real.exp_add]; norm_num
    have h4 := Real.exp_pos (-1)
    nlinarith
  have e3 : exp (R / 2) * exp (-(1 / 2) * R) = 1 := by
    rw [← Real.exp_add, Real.exp_eq_one_iff]; ring
  have e4 : exp (γ * R / 2) * exp (-(γ / 2) * R) = 1 := by
    rw [← Real.exp_add, Real.exp_eq_one_iff]; ring
  have e9 : exp (R / 2) * exp (-(γ / 2) * R) ≤ exp (-((γ - 1) * r / 2)) := by
    rw [← Real.exp_add]; exact Real.exp_le_exp.2 (by nlinarith)
  have e5 : α / (α - γ / 2) = xi α * kappa α γ := by
    unfold xi kappa
    rw [div_mul_div_cancel₀ a1.ne']
  have e6 : α / (α - 1 / 2) = xi α := rfl
  have e7 : exp (-(γ / 2) * r) = exp (-r / 2) * exp (-((γ - 1) * r / 2)) := by
    rw [← Real.exp_add]; congr 1; ring
  have e8 : exp (-(1 / 2) * r) = exp (-r / 2) := by congr 1; ring
  have hX : 0 < xi α := by unfold xi; positivity
  have hK : 1 ≤ kappa α γ := by
    unfold kappa
    rw [le_div_iff₀ a2]; linarith
  refine le_trans ?_ (key.trans (add_le_add le_rfl ?_))
  · simp only [ENNReal.ofReal_mul (show 0 ≤ 2 / Real.pi * (connC T * exp (R / 2)) * exp (-(1 / 2) * r) by positivity)]
    rw [lintegral_const_mul _ (by fun_prop)]
    refine le_trans ?_ (mul_le_mul le_rfl hl bot_le bot_le)
    rw [e6, ← ENNReal.ofReal_mul (by positivity), e8]
    refine ENNReal.ofReal_le_ofReal (le_of_eq ?_)
    calc _ = 2 / Real.pi * xi α * exp (-r / 2) * (connC T * (1 - 2.1 * exp (-((α - 1 / 2) * R)))) * (exp (R / 2) * exp (-(1 / 2) * R)) := by rw [e3, mul_one]
      _ = _ := by ring
  · refine (add_le_add (add_le_add (node_moment (β := 1 / 2) hα hR hαR' (by norm_num) (by linarith) (by positivity))
        (node_moment (β := γ / 2) hα hR hαR' (by linarith) (by linarith) (by positivity)))
        (node_moment (β := γ / 2) hα hR hαR' (by linarith) (by linarith) (by positivity))).trans ?_
    have hK0 : 0 < kappa α γ := by linarith
    rw [e5, e6, e7, e8]
    unfold nodeError
    dsimp only
    set X := xi α
    set K := kappa α γ
    set S := slack α R
    set δ := exp (-((γ - 1) * r / 2)) with hδ
    have hδ0 : 0 < δ := Real.exp_pos _
    have hE := Real.exp_pos (-r / 2)
    rw [← ENNReal.ofReal_add (by positivity) (by positivity), ← ENNReal.ofReal_add (by positivity) (by positivity)]
    refine ENNReal.ofReal_le_ofReal ?_
    calc _ = 2 / Real.pi * X * S * exp (-r / 2) * (δ * 1 * (exp (R / 2) * exp (-(1 / 2) * R)) + K * 1 * (exp (R / 2) * exp (-(γ / 2) * R)) +
          connC T * K * δ * (exp (γ * R / 2) * exp (-(γ / 2) * R))) := by ring
      _ ≤ 2 / Real.pi * X * S * exp (-r / 2) * (δ * (K * connC T) * 1 + K * connC T * δ + connC T * K * δ * 1) := by
          rw [e3, e4]
          have : 1 ≤ K * connC T := by nlinarith
          gcongr
      _ = _ := by ring

end Girgs.HypDeg
