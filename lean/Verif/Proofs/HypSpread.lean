import Verif.Proofs.UStat
import Verif.Spec.Spread
import Verif.Props.EdgeConcentration
import Verif.Props.HyperPowerLaw
/-
The sum of the connection probabilities of all pairs of random points of the disk is close to its mean.
-/
namespace Girgs.HypDeg
open MeasureTheory Spec Props Set
open scoped ENNReal

variable {Ω : Type} [MeasurableSpace Ω] {P : Measure Ω} {n : ℕ} {α β R T : ℝ} {ρ φ : Fin n → Ω → ℝ}

theorem hrgSpread_eq : hrgSpread α β T R = α / (α - β / 2) * slack α R * (3 * slack α R * (2 / Real.pi * xi α * Real.exp (-R / 2) * connC T)) ^ β := by
  unfold hrgSpread hrgNodeDegree connC
  rw [one_mul]

theorem hrgSpread_nonneg (hT0 : 0 ≤ T) (hT1 : T < 1) (hβ0 : 1 ≤ β) (hβα : β < 2 * α) (hαR : 1 ≤ α * R) : 0 ≤ hrgSpread α β T R := by
  have hC := one_le_connC hT0 hT1
  have hs := slack_pos hαR
  have hα : 0 < α := by linarith
  have a2 : 0 < α - β / 2 := by linarith
  have hX : 0 < xi α := by unfold xi; exact div_pos (by linarith) (by linarith)
  rw [hrgSpread_eq]
  have := Real.pi_pos
  positivity

/-- the mean of the square of the connection probability of a point -/
theorem spread (hT0 : 0 ≤ T) (hT1 : T < 1) (hβ0 : 1 ≤ β) (hβ : β ≤ 2) (hβα : β < 2 * α) (hR : 0 < R) (hαR : 1 ≤ α * R) {h : ℝ → ℝ}
    (h1 : ∀ v, 0 < v → h v ≤ conn T v) :
    ∫⁻ p, (∫⁻ q, ENNReal.ofReal (h (Real.exp ((hypDist p.1 p.2 q.1 q.2 - R) / 2))) ∂pointLaw α R) ^ 2 ∂pointLaw α R ≤ ENNReal.ofReal (hrgSpread α β T R) := by
  haveI := radialLaw_prob hαR
  haveI : IsProbabilityMeasure (pointLaw α R) := by unfold pointLaw; infer_instance
  have hC := one_le_connC hT0 hT1
  have hs := slack_pos hαR
  have hα : 0 < α := by linarith
  have hα2 : 1 / 2 < α := by linarith
  have hX : 0 < xi α := by unfold xi; exact div_pos (by linarith) (by linarith)
  have hpi := Real.pi_pos
  obtain ⟨B, hB⟩ : ∃ B : ℝ, B = 3 * slack α R * (2 / Real.pi * xi α * connC T) := ⟨_, rfl⟩
  have hB0 : 0 < B := by rw [hB]; positivity
  have key : ∀ p : ℝ × ℝ, (∫⁻ q, ENNReal.ofReal (h (Real.exp ((hypDist p.1 p.2 q.1 q.2 - R) / 2))) ∂pointLaw α R) ^ 2 ≤
      ENNReal.ofReal (B ^ β * Real.exp (-(β / 2) * p.1)) := by
    intro p
    have b1 : ∫⁻ q, ENNReal.ofReal (h (Real.exp ((hypDist p.1 p.2 q.1 q.2 - R) / 2))) ∂pointLaw α R ≤ ENNReal.ofReal (B * Real.exp (-p.1 / 2)) := by
      refine (lintegral_mono fun q => ENNReal.ofReal_le_ofReal (h1 _ (Real.exp_pos _))).trans ((node_upper' hT0 hT1 (γ := 1) le_rfl (by norm_num)
        (by linarith) (by linarith) hR hαR p).trans (ENNReal.ofReal_le_ofReal (le_of_eq ?_)))
      rw [nodeError_one hα2, hB]
      ring
    have b2 : ∫⁻ q, ENNReal.ofReal (h (Real.exp ((hypDist p.1 p.2 q.1 q.2 - R) / 2))) ∂pointLaw α R ≤ ENNReal.ofReal 1 := by
      refine (lintegral_mono fun q => (ENNReal.ofReal_le_ofReal ((h1 _ (Real.exp_pos _)).trans (conn_le_one (Real.exp_pos _).le)) : _ ≤ ENNReal.ofReal 1)).trans ?_
      simp
    obtain ⟨x, hx⟩ : ∃ x, x = B * Real.exp (-p.1 / 2) := ⟨_, rfl⟩
    have hx0 : 0 < x := by rw [hx]; positivity
    rw [← hx] at b1
    have b3 : ∫⁻ q, ENNReal.ofReal (h (Real.exp ((hypDist p.1 p.2 q.1 q.2 - R) / 2))) ∂pointLaw α R ≤ ENNReal.ofReal (min x 1) := by
      rw [ENNReal.ofReal_min]; exact le_min b1 b2
    refine (pow_le_pow_left₀ bot_le b3 2).trans ?_
    have hm0 : 0 < min x 1 := lt_min hx0 one_pos
    rw [← ENNReal.ofReal_pow hm0.le]
    refine ENNReal.ofReal_le_ofReal ?_
    calc (min x 1) ^ 2 = (min x 1) ^ (2 : ℝ) := (Real.rpow_natCast _ 2).symm
      _ ≤ (min x 1) ^ β := Real.rpow_le_rpow_of_exponent_ge hm0 (min_le_right _ _) hβ
      _ ≤ x ^ β := Real.rpow_le_rpow hm0.le (min_le_left _ _) (by linarith)
      _ = _ := by
        rw [hx, Real.mul_rpow hB0.le (Real.exp_pos _).le, ← Real.exp_mul]
        congr 2
        ring
  refine (lintegral_mono key).trans ?_
  unfold pointLaw
  rw [lintegral_prod _ (by fun_prop)]
  simp only [lintegral_const, measure_univ, mul_one]
  refine (node_moment (β := β / 2) hα hR hαR (by linarith) (by linarith) (by positivity)).trans (ENNReal.ofReal_le_ofReal (le_of_eq ?_))
  have e : 3 * slack α R * (2 / Real.pi * xi α * Real.exp (-R / 2) * connC T) = B * Real.exp (-R / 2) := by rw [hB]; ring
  rw [hrgSpread_eq, e, Real.mul_rpow hB0.le (Real.exp_pos _).le, ← Real.exp_mul, show -R / 2 * β = -(β / 2) * R by ring]
  ring

/-- the sum over all pairs is close to its mean, with high probability -/
theorem pairs_close (hp : RandomPoints P n α R ρ φ) (hT0 : 0 ≤ T) (hT1 : T < 1) (hβ0 : 1 ≤ β) (hβ : β ≤ 2) (hβα : β < 2 * α) (hR : 0 < R) (hαR : 1 ≤ α * R)
    {h : ℝ → ℝ} (h0 : ∀ v, 0 < v → 0 ≤ h v) (h1 : ∀ v, 0 < v → h v ≤ conn T v) (hm : Measurable h) :
    ∃ M : ℝ, 0 ≤ M ∧ ∫⁻ ω, ENNReal.ofReal (allPairs ρ φ R h ω) ∂P = ENNReal.ofReal (2 * M) ∧
      ∀ (F : Ω → ℝ≥0∞) (b t : ℝ), 0 ≤ b → 0 < t → (∀ ω, F ω ≤ 1) →
        (∀ ω, |(∑ e ∈ PairIndep.pairs n, h (gap ρ φ R ω e.1 e.2)) - M| < t → F ω ≤ ENNReal.ofReal b) →
        upperMean P F ≤ ENNReal.ofReal ((M + n ^ 3 * hrgSpread α β T R) / t ^ 2 + b) := by
  haveI := radialLaw_prob hαR
  haveI : IsProbabilityMeasure (pointLaw α R) := by unfold pointLaw; infer_instance
  haveI := hp.prob
  obtain ⟨f, hf⟩ : ∃ f : ℝ × ℝ → ℝ × ℝ → ℝ, f = fun p q => h (Real.exp ((hypDist p.1 p.2 q.1 q.2 - R) / 2)) := ⟨_, rfl⟩
  have hfm : Measurable fun z : (ℝ × ℝ) × (ℝ × ℝ) => f z.1 z.2 := by
    rw [hf]
    exact hm.comp (((measurable_hypDist.sub_const R).div_const 2).exp)
  have hfs : ∀ p q, f p q = f q p := fun p q => by rw [hf]; beta_reduce; rw [hypDist_comm]
  have hfb : ∀ p q, 0 ≤ f p q ∧ f p q ≤ 1 := fun p q => by
    rw [hf]; exact ⟨h0 _ (Real.exp_pos _), (h1 _ (Real.exp_pos _)).trans (conn_le_one (Real.exp_pos _).le)⟩
  have hle : ∫⁻ q, ∫⁻ p, ENNReal.ofReal (f q p) ∂pointLaw α R ∂pointLaw α R ≤ 1 := by
    refine (lintegral_mono fun q => (lintegral_mono fun p => (ENNReal.ofReal_le_ofReal (hfb q p).2 : _ ≤ ENNReal.ofReal 1))).trans ?_
    simp
  obtain ⟨m, hmd⟩ : ∃ m : ℝ, m = (∫⁻ q, ∫⁻ p, ENNReal.ofReal (f q p) ∂pointLaw α R ∂pointLaw α R).toReal := ⟨_, rfl⟩
  have hm0 : 0 ≤ m := by rw [hmd]; exact ENNReal.toReal_nonneg
  have hk : ∫⁻ q, ∫⁻ p, ENNReal.ofReal (f q p) ∂pointLaw α R ∂pointLaw α R = ENNReal.ofReal m := by
    rw [hmd, ENNReal.ofReal_toReal (ne_top_of_le_ne_top ENNReal.one_ne_top hle)]
  have hκ0 := hrgSpread_nonneg hT0 hT1 hβ0 hβα hαR
  have hκ : ∫⁻ q, (∫⁻ p, ENNReal.ofReal (f q p) ∂pointLaw α R) ^ 2 ∂pointLaw α R ≤ ENNReal.ofReal (hrgSpread α β T R) := by
    rw [hf]; exact spread hT0 hT1 hβ0 hβ hβα hR hαR h1
  obtain ⟨M, hM⟩ : ∃ M : ℝ, M = ∑ _e ∈ PairIndep.pairs n, m := ⟨_, rfl⟩
  have hM0 : 0 ≤ M := hM ▸ Finset.sum_nonneg fun _ _ => hm0
  refine ⟨M, hM0, ?_, fun F b t hb0 ht hF1 hF => ?_⟩
  · rw [mean_allPairs hp h0 hm]
    have e1 : 2 * M = n * (n - 1) * m := by
      rw [hM, ← two_pairs (f := fun _ _ : Fin n => m) fun _ _ => rfl]
      have : ∀ u : Fin n, (∑ v : Fin n, if u = v then 0 else m) = (n - 1) * m := by
        intro u
        have h : ∀ v : Fin n, (if u = v then 0 else m) = m - if u = v then m else 0 := fun v => by split_ifs <;> simp
        simp only [h]
        rw [Finset.sum_sub_distrib, Finset.sum_ite_eq, if_pos (Finset.mem_univ _)]
        simp
        ring
      simp only [this]
      simp
      ring
    rw [hf] at hk
    rw [hk, e1]
    rcases Nat.eq_zero_or_pos n with h | h
    · subst h; simp
    · rw [← ENNReal.ofReal_mul]
      have : (1 : ℝ) ≤ n := by exact_mod_cast h
      nlinarith
  · have dev := PairIndep.deviation' (pointLaw α R) hfm hfs hfb hm0 hk hκ0 hκ hM ht
    obtain ⟨X, hXd⟩ : ∃ X : Ω → Fin n → ℝ × ℝ, X = fun ω i => (ρ i ω, φ i ω) := ⟨_, rfl⟩
    have hX : Measurable X := by rw [hXd]; exact measurable_pi_lambda _ fun i => (hp.measR i).prodMk (hp.measA i)
    have hlaw : P.map X = Measure.pi fun _ => pointLaw α R := by rw [hXd]; exact hp.joint
    set A : Set (Fin n → ℝ × ℝ) := {x | t ≤ |(∑ e ∈ PairIndep.pairs n, f (x e.1) (x e.2)) - M|} with hA
    have hSm : Measurable fun x : Fin n → ℝ × ℝ => ∑ e ∈ PairIndep.pairs n, f (x e.1) (x e.2) := by
      refine Finset.measurable_sum _ fun e _ => ?_
      have h : Measurable fun x : Fin n → ℝ × ℝ => (x e.1, x e.2) := by fun_prop
      exact hfm.comp h
    have hAm : MeasurableSet A := measurableSet_le measurable_const (continuous_abs.measurable.comp (hSm.sub measurable_const))
    refine (upperMean_le (F := fun ω => (X ⁻¹' A).indicator (fun _ => 1) ω + ENNReal.ofReal b) ?_ ?_).trans ?_
    · exact (measurable_const.indicator (hX hAm)).add measurable_const
    · intro ω
      by_cases h : ω ∈ X ⁻¹' A
      · rw [Set.indicator_of_mem h]
        exact (hF1 ω).trans le_self_add
      · rw [Set.indicator_of_notMem h, zero_add]
        refine hF ω ?_
        have h2 : ¬ t ≤ |(∑ e ∈ PairIndep.pairs n, f (X ω e.1) (X ω e.2)) - M| := h
        rw [hXd, hf] at h2
        exact not_le.1 h2
    · rw [lintegral_add_right _ measurable_const, lintegral_indicator_const (hX hAm), one_mul, lintegral_const, measure_univ, mul_one,
        ← Measure.map_apply hX hAm, hlaw, ENNReal.ofReal_add (by positivity) hb0]
      exact add_le_add dev le_rfl

end Girgs.HypDeg
