import Verif.Proofs.HypSample
/-
The expected sum of the connection probabilities of all pairs of sampled points.
-/
namespace Girgs.HypDeg
open MeasureTheory Spec Props Set
open Real (exp)
open scoped ENNReal

variable {Ω : Type} [MeasurableSpace Ω] {P : Measure Ω} {n : ℕ} {α R T γ : ℝ} {ρ φ : Fin n → Ω → ℝ}

/-- `exp((d - R) / 2)` for the distance `d` of the points `u` and `v` -/
noncomputable def gap (ρ φ : Fin n → Ω → ℝ) (R : ℝ) (ω : Ω) (u v : Fin n) : ℝ := exp ((hypDist (ρ u ω) (φ u ω) (ρ v ω) (φ v ω) - R) / 2)

theorem gap_pos (ω : Ω) (u v : Fin n) : 0 < gap ρ φ R ω u v := Real.exp_pos _

/-- sum over all ordered pairs of distinct nodes -/
noncomputable def allPairs (ρ φ : Fin n → Ω → ℝ) (R : ℝ) (h : ℝ → ℝ) (ω : Ω) : ℝ := ∑ u : Fin n, ∑ v : Fin n, if u = v then 0 else h (gap ρ φ R ω u v)

theorem allPairs_nonneg {h : ℝ → ℝ} (h0 : ∀ v, 0 < v → 0 ≤ h v) (ω : Ω) : 0 ≤ allPairs ρ φ R h ω := by
  refine Finset.sum_nonneg fun u _ => Finset.sum_nonneg fun v _ => ?_
  split
  · rfl
  · exact h0 _ (gap_pos ω u v)

theorem allPairs_measurable (hp : RandomPoints P n α R ρ φ) {h : ℝ → ℝ} (hm : Measurable h) :
    Measurable fun ω => ENNReal.ofReal (allPairs ρ φ R h ω) := by
  unfold allPairs
  refine Measurable.ennreal_ofReal (Finset.measurable_sum _ fun u _ => Finset.measurable_sum _ fun v _ => ?_)
  by_cases huv : u = v
  · simp only [huv, if_true]; fun_prop
  · simp only [huv, if_false]
    have h1 : Measurable fun ω => ((ρ u ω, φ u ω), (ρ v ω, φ v ω)) := ((hp.measR u).prodMk (hp.measA u)).prodMk ((hp.measR v).prodMk (hp.measA v))
    have h2 : Measurable fun ω => gap ρ φ R ω u v := (((measurable_hypDist.comp h1).sub_const R).div_const 2).exp
    exact hm.comp h2

/-- all pairs have the same mean -/
theorem mean_allPairs (hp : RandomPoints P n α R ρ φ) {h : ℝ → ℝ} (h0 : ∀ v, 0 < v → 0 ≤ h v) (hm : Measurable h) :
    ∫⁻ ω, ENNReal.ofReal (allPairs ρ φ R h ω) ∂P = ENNReal.ofReal (n * (n - 1)) *
      ∫⁻ p, ∫⁻ q, ENNReal.ofReal (h (exp ((hypDist p.1 p.2 q.1 q.2 - R) / 2))) ∂pointLaw α R ∂pointLaw α R := by
  set M := ∫⁻ p, ∫⁻ q, ENNReal.ofReal (h (exp ((hypDist p.1 p.2 q.1 q.2 - R) / 2))) ∂pointLaw α R ∂pointLaw α R with hM
  obtain ⟨F, hFe⟩ : ∃ F : (ℝ × ℝ) × (ℝ × ℝ) → ℝ≥0∞, F = fun x => ENNReal.ofReal (h (exp ((hypDist x.1.1 x.1.2 x.2.1 x.2.2 - R) / 2))) := ⟨_, rfl⟩
  have hF : Measurable F := by
    rw [hFe]
    exact (hm.comp (((measurable_hypDist.sub_const R).div_const 2).exp)).ennreal_ofReal
  have e0 : ∀ ω u v, ENNReal.ofReal (h (gap ρ φ R ω u v)) = F ((ρ u ω, φ u ω), (ρ v ω, φ v ω)) := by
    intro ω u v
    rw [hFe]
    rfl
  have hmeas : ∀ u v : Fin n, Measurable fun ω => ENNReal.ofReal (h (gap ρ φ R ω u v)) := by
    intro u v
    have : Measurable fun ω => ((ρ u ω, φ u ω), (ρ v ω, φ v ω)) := ((hp.measR u).prodMk (hp.measA u)).prodMk ((hp.measR v).prodMk (hp.measA v))
    simp only [e0]
    exact hF.comp this
  have e1 : ∀ ω, ENNReal.ofReal (allPairs ρ φ R h ω) = ∑ u : Fin n, ∑ v : Fin n, if u = v then 0 else ENNReal.ofReal (h (gap ρ φ R ω u v)) := by
    intro ω
    have q : ∀ u v : Fin n, 0 ≤ if u = v then 0 else h (gap ρ φ R ω u v) := by
      intro u v
      split
      · rfl
      · exact h0 _ (gap_pos ω u v)
    unfold allPairs
    rw [ENNReal.ofReal_sum_of_nonneg fun u _ => Finset.sum_nonneg fun v _ => q u v]
    refine Finset.sum_congr rfl fun u _ => ?_
    rw [ENNReal.ofReal_sum_of_nonneg fun v _ => q u v]
    refine Finset.sum_congr rfl fun v _ => ?_
    split <;> simp
  have hmeas' : ∀ u v : Fin n, Measurable fun ω => if u = v then (0 : ℝ≥0∞) else ENNReal.ofReal (h (gap ρ φ R ω u v)) := by
    intro u v
    by_cases huv : u = v
    · simp only [huv, if_true]; fun_prop
    · simp only [huv, if_false]; exact hmeas u v
  simp only [e1]
  rw [lintegral_finsetSum _ fun u _ => Finset.measurable_sum _ fun v _ => hmeas' u v]
  have e2 : ∀ u : Fin n, ∫⁻ ω, ∑ v : Fin n, (if u = v then 0 else ENNReal.ofReal (h (gap ρ φ R ω u v))) ∂P = ∑ v : Fin n, if u = v then 0 else M := by
    intro u
    rw [lintegral_finsetSum _ fun v _ => hmeas' u v]
    refine Finset.sum_congr rfl fun v _ => ?_
    by_cases huv : u = v
    · simp [huv]
    · simp only [huv, if_false]
      simp only [e0]
      rw [hp.pair u v huv F hF, hM, hFe]
  have e3 : ∀ u : Fin n, (∑ v : Fin n, if u = v then 0 else M) = ((n - 1 : ℕ) : ℝ≥0∞) * M := by
    intro u
    rw [Finset.sum_ite, Finset.sum_const_zero, zero_add, Finset.sum_const, nsmul_eq_mul]
    congr 2
    have : Finset.univ.filter (fun v : Fin n => ¬ u = v) = Finset.univ.erase u := by
      ext v; simp [eq_comm]
    rw [this, Finset.card_erase_of_mem (Finset.mem_univ _)]
    simp
  simp only [e2, e3]
  rw [Finset.sum_const, nsmul_eq_mul, Finset.card_univ, Fintype.card_fin, ← mul_assoc]
  rcases Nat.eq_zero_or_pos n with h | h
  · subst h; simp
  · rw [ENNReal.ofReal_mul (by positivity), ENNReal.ofReal_natCast]
    congr 2
    rw [← ENNReal.ofReal_natCast, Nat.cast_sub h]
    simp

variable (hp : RandomPoints P n α R ρ φ) (hn : 1 ≤ n) (hγ0 : 1 ≤ γ) (hγ : γ ≤ 2) (hγα : γ < 2 * α) (hR : 0 < R)
include hp hn hγ0 hγ hγα hR

omit hp hγα hγ hγ0 hR in
theorem one_le_n : (1 : ℝ) ≤ n := by exact_mod_cast hn

omit hp hn hγ0 hγ hγα hR in
theorem hrg_eq (T : ℝ) : hrgDegree ((n : ℝ) - 1) α T R = (n - 1) * (2 / Real.pi * xi α ^ 2 * exp (-R / 2)) * connC T := by
  unfold hrgDegree connC
  ring

omit hp hn hγ0 hγ hγα hR in
theorem lead_nonneg : 0 ≤ 2 / Real.pi * xi α ^ 2 * exp (-R / 2) := by
  have := Real.pi_pos
  positivity

omit hp hn hγ0 hγ hγα hR in
theorem degreeError_nonneg : 0 ≤ degreeError α γ R := by unfold degreeError; positivity

/-- from above -/
theorem pairs_upper (hT0 : 0 ≤ T) (hT1 : T < 1) (hTγ : T * γ ≤ 1) (hαR : 1 ≤ α * R) :
    ∫⁻ ω, ENNReal.ofReal (allPairs ρ φ R (conn T) ω) ∂P ≤
      ENNReal.ofReal (hrgDegree ((n : ℝ) - 1) α T R * ((1 + 2 * degreeError α γ R) * slack α R ^ 2) * n) := by
  have hC := one_le_connC hT0 hT1
  have h1n := one_le_n hn
  rw [mean_allPairs hp (fun v hv => conn_nonneg' hv.le) (conn_measurable T)]
  refine (mul_le_mul le_rfl (mean_upper (fun v hv => conn_nonneg' hv.le) (fun v w hv h => conn_anti hT0 hv h) hγ0 hγ (by linarith)
    (fun v hv => conn_le_rpow hT0 (by linarith) hTγ hv) (conn_integral hT0 hT1).le (conn_measurable T) hγα hR hαR) bot_le bot_le).trans ?_
  rw [← ENNReal.ofReal_mul (by nlinarith)]
  refine ENNReal.ofReal_le_ofReal ?_
  rw [hrg_eq]
  have hl := lead_nonneg (α := α) (R := R)
  have he := degreeError_nonneg (α := α) (γ := γ) (R := R)
  have q : connC T + 2 * kappa α γ ^ 2 * exp (-((γ - 1) * R / 2)) ≤ connC T * (1 + 2 * degreeError α γ R) := by
    have e : 2 * kappa α γ ^ 2 * exp (-((γ - 1) * R / 2)) = 2 * degreeError α γ R := by unfold degreeError; ring
    rw [e]; nlinarith
  calc n * (n - 1) * (2 / Real.pi * xi α ^ 2 * exp (-R / 2) * ((connC T + 2 * kappa α γ ^ 2 * exp (-((γ - 1) * R / 2))) * slack α R ^ 2))
      ≤ n * (n - 1) * (2 / Real.pi * xi α ^ 2 * exp (-R / 2) * (connC T * (1 + 2 * degreeError α γ R) * slack α R ^ 2)) := by
        refine mul_le_mul_of_nonneg_left (mul_le_mul_of_nonneg_left (mul_le_mul_of_nonneg_right q (sq_nonneg _)) hl) (by nlinarith)
    _ = _ := by ring

/-- from below -/
theorem pairs_lower (hT0 : 0 ≤ T) (hT1 : T < 1) (hTγ : T * γ ≤ 1) (hαR : 1 ≤ (α - 1 / 2) * R) :
    ENNReal.ofReal (hrgDegree ((n : ℝ) - 1) α T R * ((1 - 2.1 * exp (-((α - 1 / 2) * R))) ^ 2 - 3 * degreeError α γ R * slack α R ^ 2) * n) ≤
      ∫⁻ ω, ENNReal.ofReal (allPairs ρ φ R (conn T) ω) ∂P := by
  have hC := one_le_connC hT0 hT1
  have h1n := one_le_n hn
  rw [mean_allPairs hp (fun v hv => conn_nonneg' hv.le) (conn_measurable T)]
  have key := mean_lower (α := α) (R := R) hT0 hT1 hγ0 hγ hTγ hγα hR hαR
  set M := ∫⁻ p, ∫⁻ q, ENNReal.ofReal (conn T (exp ((hypDist p.1 p.2 q.1 q.2 - R) / 2))) ∂pointLaw α R ∂pointLaw α R
  have hl := lead_nonneg (α := α) (R := R)
  have hk1 : 1 ≤ kappa α γ := by
    unfold kappa
    rw [le_div_iff₀ (by linarith)]; linarith
  set A := 2 / Real.pi * xi α ^ 2 * exp (-R / 2) * (connC T * (1 - 2.1 * exp (-((α - 1 / 2) * R))) ^ 2) with hA
  set B := 2 / Real.pi * xi α ^ 2 * exp (-R / 2) * (connC T * ((2 * kappa α γ + kappa α γ ^ 2) * exp (-((γ - 1) * R / 2)) * slack α R ^ 2)) with hB
  have hB0 : 0 ≤ B := mul_nonneg hl (mul_nonneg (by linarith) (by positivity))
  have h3 : ENNReal.ofReal (A - B) ≤ M := by
    rw [ENNReal.ofReal_sub _ hB0]
    exact tsub_le_iff_right.2 key
  refine le_trans ?_ (mul_le_mul le_rfl h3 bot_le bot_le)
  rw [← ENNReal.ofReal_mul (by nlinarith)]
  refine ENNReal.ofReal_le_ofReal ?_
  rw [hrg_eq]
  have q : B ≤ 2 / Real.pi * xi α ^ 2 * exp (-R / 2) * (connC T * (3 * degreeError α γ R * slack α R ^ 2)) := by
    rw [hB]
    refine mul_le_mul_of_nonneg_left (mul_le_mul_of_nonneg_left (mul_le_mul_of_nonneg_right ?_ (sq_nonneg _)) (by linarith)) hl
    unfold degreeError
    rw [← mul_assoc]
    refine mul_le_mul_of_nonneg_right ?_ (Real.exp_pos _).le
    nlinarith
  have : n * (n - 1) * (A - 2 / Real.pi * xi α ^ 2 * exp (-R / 2) * (connC T * (3 * degreeError α γ R * slack α R ^ 2))) ≤ n * (n - 1) * (A - B) :=
    mul_le_mul_of_nonneg_left (by linarith) (by nlinarith)
  refine le_trans (le_of_eq ?_) this
  rw [hA]
  ring

/-- the sum of the small probabilities -/
theorem pairs_small (hT0 : 0 < T) (hT1 : T < 1) (hTγ : T * γ ≤ 1) (hαR : 1 ≤ α * R) {ε : ℝ} (hε : 0 < ε) :
    ∫⁻ ω, ENNReal.ofReal (allPairs ρ φ R (fun v => min (conn T v) ε) ω) ∂P ≤
      ENNReal.ofReal (hrgDegree ((n : ℝ) - 1) α T R * ((ε ^ (1 - T) / (1 - T) + 2 * degreeError α γ R) * slack α R ^ 2) * n) := by
  have hC := one_le_connC hT0.le hT1
  have h1n := one_le_n hn
  have hm : Measurable fun v => min (conn T v) ε := (conn_measurable T).min measurable_const
  have h0 : ∀ v, 0 < v → 0 ≤ min (conn T v) ε := fun v hv => le_min (conn_nonneg' hv.le) hε.le
  have hc0 : 0 ≤ ε ^ (1 - T) / (1 - T) := div_nonneg (Real.rpow_nonneg hε.le _) (by linarith)
  have hint : ∫⁻ v in Ioi 0, ENNReal.ofReal (min (conn T v) ε) ≤ ENNReal.ofReal (ε ^ (1 - T) / (1 - T)) := by
    refine le_trans (setLIntegral_mono' measurableSet_Ioi fun v hv => ?_) (small_integral hT0 hT1 hε)
    refine ENNReal.ofReal_le_ofReal (min_le_min_right _ (conn_le_rpow hT0.le (by positivity) ?_ hv))
    rw [mul_one_div, div_self hT0.ne']
  rw [mean_allPairs hp h0 hm]
  refine (mul_le_mul le_rfl (mean_upper h0 (fun v w hv h => min_le_min_right _ (conn_anti hT0.le hv h)) hγ0 hγ hc0
    (fun v hv => (min_le_left _ _).trans (conn_le_rpow hT0.le (by linarith) hTγ hv)) hint hm hγα hR hαR) bot_le bot_le).trans ?_
  rw [← ENNReal.ofReal_mul (by nlinarith)]
  refine ENNReal.ofReal_le_ofReal ?_
  rw [hrg_eq]
  have hl := lead_nonneg (α := α) (R := R)
  have he := degreeError_nonneg (α := α) (γ := γ) (R := R)
  have e : 2 * kappa α γ ^ 2 * exp (-((γ - 1) * R / 2)) = 2 * degreeError α γ R := by unfold degreeError; ring
  rw [e]
  have h4 : 0 ≤ ε ^ (1 - T) / (1 - T) + 2 * degreeError α γ R := by linarith
  have h5 : n * (n - 1) * (2 / Real.pi * xi α ^ 2 * exp (-R / 2) * ((ε ^ (1 - T) / (1 - T) + 2 * degreeError α γ R) * slack α R ^ 2)) * 1 ≤
      n * (n - 1) * (2 / Real.pi * xi α ^ 2 * exp (-R / 2) * ((ε ^ (1 - T) / (1 - T) + 2 * degreeError α γ R) * slack α R ^ 2)) * connC T :=
    mul_le_mul_of_nonneg_left hC (mul_nonneg (by nlinarith) (mul_nonneg hl (mul_nonneg h4 (sq_nonneg _))))
  calc _ = _ := (mul_one _).symm
    _ ≤ _ := h5
    _ = _ := by ring

end Girgs.HypDeg
