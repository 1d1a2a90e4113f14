import Verif.Proofs.HypSpread
/-
C106: the average degree of a generated hyperbolic random graph is close to the requested one with high probability.
-/
namespace Girgs.Props
open CFloat Spec MeasureTheory HypDeg Radius
open XR (fin)
open scoped ENNReal

theorem hypEdgesProb_mono {env : HEnv} {rng : Tree.Rng XR} [MeasurableSpace rng.G] {μ : Measure rng.G} {n : ℕ} {hn : 1 ≤ n} {radii angles : List XR} {T R : XR}
    {A : ℕ → ℕ → Prop} {Q Q' : ℕ → Prop} (h : ∀ k, Q k → Q' k) :
    hypEdgesProb env rng μ hn radii angles T R A Q ≤ hypEdgesProb env rng μ hn radii angles T R A Q' :=
  measure_mono fun _ ⟨out, h1, h2⟩ => ⟨out, h1, h _ h2⟩

theorem hypEdgesProb_le_one {env : HEnv} {rng : Tree.Rng XR} [MeasurableSpace rng.G] {μ : Measure rng.G} (hr : IdealRng rng μ) {n : ℕ} {hn : 1 ≤ n}
    {radii angles : List XR} {T R : XR} {A : ℕ → ℕ → Prop} {Q : ℕ → Prop} : hypEdgesProb env rng μ hn radii angles T R A Q ≤ 1 := by
  have := hr.prob
  exact prob_le_one (μ := Measure.pi fun _ : Fin n => μ)

theorem exp_neg_le {y z : ℝ} (hz : 0 < z) (hy : 1 / z ≤ y) : Real.exp (-y) ≤ z := by
  have h1 := Real.add_one_le_exp y
  have h2 : 1 / z ≤ Real.exp y := by linarith
  rw [Real.exp_neg, ← one_div, div_le_iff₀ (Real.exp_pos _)]
  rwa [div_le_iff₀' hz] at h2

section Random
variable {Ω : Type} [MeasurableSpace Ω] {P : Measure Ω} {omp : Omp} {eng : Engine XR} [MeasurableSpace eng.G] {μ : Measure eng.G}
  {σ : ℤ → Ω → eng.G} {device : ℕ → Ω → eng.G} {n : ℕ} {α R T γ β : ℝ} {radii angles : Ω → List XR} {rng : Tree.Rng XR}

/-- C106, `T = 0`.  `n` points of the disk are drawn (ideal engines, independently started), then `generateEdges` is run with temperature 0, in any environment
and with any random numbers.  `U` and `L` are the bounds of C94 for the expected average degree.  The average degree `2 k / n` of the result (`k` edges) is above
`U + ε`, and it is below `L - ε`, with probability at most `2 U / (n ε²) + 4 n s / ε²`; here `s` is of order `exp(-βR/2)`, for any `β ≤ 2` with `1 ≤ β < 2α`. -/
theorem C106_threshold (hs : SampledPoints P omp eng μ σ device n α R radii angles) (hn : 1 ≤ n) (h31 : n < 2147483648)
    (hdisk : (2 / 3 ≤ R ∧ R ≤ 1) ∨ (4 / 3 ≤ R ∧ R ≤ 165 / 4)) (hγ0 : 1 ≤ γ) (hγ : γ ≤ 2) (hγα : γ < 2 * α) (hβ0 : 1 ≤ β) (hβ : β ≤ 2) (hβα : β < 2 * α)
    (hαR : 1 ≤ (α - 1 / 2) * R) (env : Ω → HEnv) (hgeo : GeoBounded rng) (gens : Ω → ℕ → rng.G) {out : Ω → List (ℕ × ℕ)}
    (h : ∀ ω, HGenerateEdges (env ω) rng (gens ω) (radii ω) (angles ω) (fin 0) (fin R) (out ω)) {U L ε : ℝ}
    (hU : U = hrgDegree (n - 1) α 0 R * ((1 + 2 * degreeError α γ R) * slack α R ^ 2))
    (hL : L = hrgDegree (n - 1) α 0 R * ((1 - 2.1 * Real.exp (-((α - 1 / 2) * R))) ^ 2 - 3 * degreeError α γ R * slack α R ^ 2)) (hε : 0 < ε) :
    P {ω | U + ε ≤ 2 * ((out ω).length : ℝ) / n} ≤ ENNReal.ofReal (2 * U / (n * ε ^ 2) + 4 * n * hrgSpread α β 0 R / ε ^ 2) ∧
    P {ω | 2 * ((out ω).length : ℝ) / n ≤ L - ε} ≤ ENNReal.ofReal (2 * U / (n * ε ^ 2) + 4 * n * hrgSpread α β 0 R / ε ^ 2) := by
  classical
  have hR : 0 < R := by rcases hdisk with h | h <;> linarith
  have hα : 0 < α := by linarith
  have hαR' : 1 ≤ α * R := by nlinarith
  have hn0 : (0 : ℝ) < n := by exact_mod_cast hn
  obtain ⟨ρ, φ, hp, ho⟩ := sampled_random hs hn hα hR hαR'
  have e : ∀ ω, ((out ω).length : ℝ) = ∑ e ∈ PairIndep.pairs n, conn 0 (gap ρ φ R ω e.1 e.2) := by
    intro ω
    have h1 := h ω
    rw [(ho ω).1, (ho ω).2, xw_ofFn, xw_ofFn] at h1
    have hin := random_input hp hn h31 le_rfl hdisk ω
    have h2 := C45_threshold_exact hin _ rng hgeo _ _ h1
    rw [List.length_ofFn] at h2
    have h3 := graph_edges (fun _ _ h => hypRule_symm h) h2
    rw [edgesIn_true] at h3
    rw [h3]
    refine Finset.sum_congr rfl fun e _ => ?_
    unfold conn
    simp only [if_true, rule_gap]
  obtain ⟨M, hM0, hM, hdev⟩ := pairs_close hp (T := 0) le_rfl one_pos hβ0 hβ hβα hR hαR' (h := conn 0) (fun v hv => conn_nonneg' hv.le) (fun v _ => le_rfl)
    (conn_measurable 0)
  have q1 := pairs_lower hp hn hγ0 hγ hγα hR (T := 0) le_rfl one_pos (by norm_num) hαR
  have q2 := HypDeg.pairs_upper hp hn hγ0 hγ hγα hR (T := 0) le_rfl one_pos (by norm_num) hαR'
  rw [hM, ← hL, ENNReal.ofReal_le_ofReal_iff (by linarith)] at q1
  have hU0 : 0 ≤ U * n := by
    have h1 := one_le_n hn
    have h2 := one_le_connC (T := 0) le_rfl one_pos
    have h3 := degreeError_nonneg (α := α) (γ := γ) (R := R)
    rw [hU, hrg_eq]
    exact mul_nonneg (mul_nonneg (mul_nonneg (mul_nonneg (by linarith) lead_nonneg) (by linarith)) (mul_nonneg (by linarith) (sq_nonneg _))) hn0.le
  rw [hM, ← hU, ENNReal.ofReal_le_ofReal_iff hU0] at q2
  have hfin : (M + n ^ 3 * hrgSpread α β 0 R) / (n * ε / 2) ^ 2 + 0 ≤ 2 * U / (n * ε ^ 2) + 4 * n * hrgSpread α β 0 R / ε ^ 2 := by
    have e1 : (M + n ^ 3 * hrgSpread α β 0 R) / (n * ε / 2) ^ 2 + 0 = 2 * (2 * M) / (n ^ 2 * ε ^ 2) + 4 * n * hrgSpread α β 0 R / ε ^ 2 := by
      field_simp
      ring
    have e2 : 2 * U / (n * ε ^ 2) = 2 * (U * n) / (n ^ 2 * ε ^ 2) := by field_simp
    rw [e1, e2]
    have : 2 * (2 * M) / (n ^ 2 * ε ^ 2) ≤ 2 * (U * n) / (n ^ 2 * ε ^ 2) := div_le_div_of_nonneg_right (by linarith) (by positivity)
    linarith
  have far : ∀ Q : Set Ω, (∀ ω ∈ Q, n * ε / 2 ≤ |(∑ e ∈ PairIndep.pairs n, conn 0 (gap ρ φ R ω e.1 e.2)) - M|) →
      P Q ≤ ENNReal.ofReal (2 * U / (n * ε ^ 2) + 4 * n * hrgSpread α β 0 R / ε ^ 2) := by
    intro Q hQ
    refine le_trans (meas_le_upperMean (f := Q.indicator fun _ => 1) fun ω hω => by rw [Set.indicator_of_mem hω])
      ((hdev _ 0 (n * ε / 2) le_rfl (by positivity) (fun ω => ?_) fun ω hω => ?_).trans (ENNReal.ofReal_le_ofReal hfin))
    · exact Set.indicator_le_self' (fun _ _ => bot_le) ω
    · rw [Set.indicator_of_notMem fun hc => absurd hω (not_lt.2 (hQ ω hc))]
      exact bot_le
  constructor
  · refine far _ fun ω hω => ?_
    have hω' : U + ε ≤ 2 * ((out ω).length : ℝ) / n := hω
    rw [le_div_iff₀ hn0] at hω'
    rw [← e]
    refine le_trans ?_ (le_abs_self _)
    linarith
  · refine far _ fun ω hω => ?_
    have hω' : 2 * ((out ω).length : ℝ) / n ≤ L - ε := hω
    rw [div_le_iff₀ hn0] at hω'
    rw [← e]
    refine le_trans ?_ (neg_le_abs _)
    linarith

set_option maxHeartbeats 1000000 in
/-- C106, `2^-52 < T < 1`, same setting, but in an environment in which the call returns (C44), with ideal random numbers that are independent of the points.  `U`
and `L` are the bounds of C94 for the expected average degree.  The average degree of the result is above `U + ε` with probability at most
`(24 U + 16 ε) / (n ε²) + 16 n s / ε²`, and below `L - ε` with probability at most `24 U / (n ε²) + 16 n s / ε²`. -/
theorem C106_expected (hs : SampledPoints P omp eng μ σ device n α R radii angles) (hn : 1 ≤ n) (h31 : n < 2147483648)
    (hdisk : (2 / 3 ≤ R ∧ R ≤ 1) ∨ (4 / 3 ≤ R ∧ R ≤ 165 / 4)) (hγ0 : 1 ≤ γ) (hγ : γ ≤ 2) (hγα : γ < 2 * α) (hβ0 : 1 ≤ β) (hβ : β ≤ 2) (hβα : β < 2 * α)
    (hαR : 1 ≤ (α - 1 / 2) * R)
    (hT : 1 / 4503599627370496 < T) (hT1 : T < 1) (hTγ : T * γ ≤ 1) (hfil : 2 * T * Real.log 99 ≤ R) (env : HEnv) [MeasurableSpace rng.G]
    {ν : Measure rng.G} (hr : IdealRng rng ν) (hu : UnitRng rng)
    (hret : env.threads = 1 ∨ ∃ L, HTree.firstParallelLevel XR env.threads = some L ∧
      Real.cosh R < hypCosh (R - 1) (Real.pi / 2 ^ (L - 1)) (R - 1) 0) {m : ℕ} (hm : 1 ≤ m)
    (hgens : env.threads ≠ 1 → ∃ L tasks, HTree.firstParallelLevel XR env.threads = some L ∧
      HTree.numTasks L = some tasks ∧ env.threads - 1 + tasks ≤ m) {U L ε : ℝ}
    (hU : U = hrgDegree (n - 1) α T R * ((1 + 2 * degreeError α γ R) * slack α R ^ 2))
    (hL : L = hrgDegree (n - 1) α T R * ((1 - 2.1 * Real.exp (-((α - 1 / 2) * R))) ^ 2 -
        ((1 / 1000000) ^ (1 - T) / (1 - T) + 5 * degreeError α γ R) * slack α R ^ 2)) (hε : 0 < ε) :
    upperMean P (fun ω => hypEdgesProb env rng ν hm (radii ω) (angles ω) (fin T) (fin R) (fun _ _ => True) fun k => U + ε ≤ 2 * (k : ℝ) / n) ≤
      ENNReal.ofReal ((24 * U + 16 * ε) / (n * ε ^ 2) + 16 * n * hrgSpread α β T R / ε ^ 2) ∧
    upperMean P (fun ω => hypEdgesProb env rng ν hm (radii ω) (angles ω) (fin T) (fin R) (fun _ _ => True) fun k => 2 * (k : ℝ) / n ≤ L - ε) ≤
      ENNReal.ofReal (24 * U / (n * ε ^ 2) + 16 * n * hrgSpread α β T R / ε ^ 2) := by
  have hR : 0 < R := by rcases hdisk with h | h <;> linarith
  have hT0 : 0 < T := lt_trans (by norm_num) hT
  have hα : 0 < α := by linarith
  have hαR' : 1 ≤ α * R := by nlinarith
  have hn0 : (0 : ℝ) < n := by exact_mod_cast hn
  obtain ⟨ρ, φ, hp, ho⟩ := sampled_random hs hn hα hR hαR'
  haveI := hp.prob
  obtain ⟨δ, hδ⟩ : ∃ δ : ℝ, δ = 1 / 1000000 := ⟨_, rfl⟩
  have hδ0 : 0 < δ := by rw [hδ]; norm_num
  obtain ⟨g, hg⟩ : ∃ g : ℝ → ℝ, g = fun v => conn T v - min (conn T v) δ := ⟨_, rfl⟩
  have hgm : Measurable g := by rw [hg]; exact (conn_measurable T).sub ((conn_measurable T).min measurable_const)
  have hg0 : ∀ v, 0 < v → 0 ≤ g v := fun v _ => by rw [hg]; simp
  have hg1 : ∀ v, 0 < v → g v ≤ conn T v := fun v hv => by
    rw [hg]
    have := le_min (conn_nonneg' (T := T) hv.le) hδ0.le
    simp only
    linarith
  obtain ⟨M, hM0, hM, hdev⟩ := pairs_close hp hT0.le hT1 hβ0 hβ hβα hR hαR' (h := conn T) (fun v hv => conn_nonneg' hv.le) (fun v _ => le_rfl)
    (conn_measurable T)
  obtain ⟨G, hG0, hG, hdev'⟩ := pairs_close hp hT0.le hT1 hβ0 hβ hβα hR hαR' (h := g) hg0 hg1 hgm
  have hκ0 := hrgSpread_nonneg hT0.le hT1 hβ0 hβα hαR'
  have h1n := one_le_n hn
  have hd0 : 0 ≤ hrgDegree ((n : ℝ) - 1) α T R := by
    rw [hrg_eq]
    have := one_le_connC hT0.le hT1
    exact mul_nonneg (mul_nonneg (by linarith) lead_nonneg) (by linarith)
  have herr := degreeError_nonneg (α := α) (γ := γ) (R := R)
  have hU0 : 0 ≤ U * n := by
    rw [hU]
    exact mul_nonneg (mul_nonneg hd0 (mul_nonneg (by linarith) (sq_nonneg _))) hn0.le
  have hMU : 2 * M ≤ U * n := by
    have q2 := HypDeg.pairs_upper hp hn hγ0 hγ hγα hR hT0.le hT1 hTγ hαR'
    rwa [hM, ← hU, ENNReal.ofReal_le_ofReal_iff hU0] at q2
  have hGM : G ≤ M := by
    have : ENNReal.ofReal (2 * G) ≤ ENNReal.ofReal (2 * M) := by
      rw [← hG, ← hM]
      refine lintegral_mono fun ω => ENNReal.ofReal_le_ofReal ?_
      unfold allPairs
      refine Finset.sum_le_sum fun u _ => Finset.sum_le_sum fun v _ => ?_
      split
      · rfl
      · exact hg1 _ (gap_pos ω u v)
    rw [ENNReal.ofReal_le_ofReal_iff (by linarith)] at this
    linarith
  have hLG : L * n ≤ 2 * G := by
    have q1 := pairs_lower hp hn hγ0 hγ hγα hR hT0.le hT1 hTγ hαR
    have q2 := pairs_small hp hn hγ0 hγ hγα hR hT0 hT1 hTγ hαR' hδ0
    have q3 : ENNReal.ofReal (2 * M) = ENNReal.ofReal (2 * G) + ∫⁻ ω, ENNReal.ofReal (allPairs ρ φ R (fun v => min (conn T v) δ) ω) ∂P := by
      rw [← hG, ← hM, ← lintegral_add_right _ (allPairs_measurable hp ((conn_measurable T).min measurable_const))]
      refine lintegral_congr fun ω => ?_
      rw [← ENNReal.ofReal_add (allPairs_nonneg hg0 ω) (allPairs_nonneg (fun v hv => le_min (conn_nonneg' hv.le) hδ0.le) ω)]
      congr 1
      unfold allPairs
      rw [← Finset.sum_add_distrib]
      refine Finset.sum_congr rfl fun u _ => ?_
      rw [← Finset.sum_add_distrib]
      refine Finset.sum_congr rfl fun v _ => ?_
      split
      · simp
      · rw [hg]; simp
    rw [hM] at q1
    obtain ⟨A, hA⟩ : ∃ A : ℝ, A = hrgDegree ((n : ℝ) - 1) α T R * ((1 - 2.1 * Real.exp (-((α - 1 / 2) * R))) ^ 2 - 3 * degreeError α γ R * slack α R ^ 2) * n :=
      ⟨_, rfl⟩
    obtain ⟨B, hB⟩ : ∃ B : ℝ, B = hrgDegree ((n : ℝ) - 1) α T R * ((δ ^ (1 - T) / (1 - T) + 2 * degreeError α γ R) * slack α R ^ 2) * n := ⟨_, rfl⟩
    have hB0 : 0 ≤ B := by
      have h1 : 0 ≤ δ ^ (1 - T) / (1 - T) := div_nonneg (Real.rpow_nonneg hδ0.le _) (by linarith)
      rw [hB]
      exact mul_nonneg (mul_nonneg hd0 (mul_nonneg (by linarith) (sq_nonneg _))) (by linarith)
    rw [← hA] at q1
    rw [← hB] at q2
    have q4 := q1.trans (q3.le.trans (add_le_add le_rfl q2))
    rw [← ENNReal.ofReal_add (by linarith) hB0, ENNReal.ofReal_le_ofReal_iff (by linarith)] at q4
    have e : L * n = A - B := by
      rw [hL, hA, hB, hδ]
      ring
    linarith
  have hpr : ∀ ω, ∃ mean : ℝ, 0 ≤ mean ∧ ∑ e ∈ PairIndep.pairs n, g (gap ρ φ R ω e.1 e.2) ≤ mean ∧ mean ≤ ∑ e ∈ PairIndep.pairs n, conn T (gap ρ φ R ω e.1 e.2) ∧
      ∀ t : ℝ, 0 ≤ t → hypEdgesProb env rng ν hm (radii ω) (angles ω) (fin T) (fin R) (fun _ _ => True) (fun k => mean + t ≤ k) ≤
          ENNReal.ofReal (Real.exp (-(t ^ 2 / (2 * (mean + t / 3))))) ∧
        hypEdgesProb env rng ν hm (radii ω) (angles ω) (fin T) (fin R) (fun _ _ => True) (fun k => (k : ℝ) ≤ mean - t) ≤
          ENNReal.ofReal (Real.exp (-(t ^ 2 / (2 * mean)))) := by
    intro ω
    have hin := random_input hp hn h31 hT0.le hdisk ω
    have hlen : (List.ofFn fun i => ρ i ω).length = n := List.length_ofFn
    obtain ⟨pr, _, h2, h3⟩ := C97_points hin hT hfil
    have hb : ∀ e ∈ PairIndep.pairs n, g (gap ρ φ R ω e.1 e.2) ≤ pr e.1 e.2 ∧ pr e.1 e.2 ≤ conn T (gap ρ φ R ω e.1 e.2) := by
      intro e he
      have hlt : e.1.1 < e.2.1 := PairIndep.mem_pairs.1 he
      have h4 := h2 e.1 e.2 (by rw [hlen]; exact e.1.2) (by rw [hlen]; exact e.2.2) hlt.ne
      rw [prob_gap hT0, ← hδ] at h4
      have h5 := conn_nonneg' (T := T) (gap_pos (ρ := ρ) (φ := φ) (R := R) ω e.1 e.2).le
      have h6 := hg1 _ (gap_pos (ρ := ρ) (φ := φ) (R := R) ω e.1 e.2)
      rcases h4 with h4 | h4
      · rw [h4]; exact ⟨h6, le_rfl⟩
      · rw [h4.1]
        refine ⟨?_, h5⟩
        rw [hg]
        simp only
        rw [min_eq_left h4.2.le]
        simp
    refine ⟨Spec.pairSum n (fun _ _ => True) pr, ?_, ?_, ?_, fun t ht => ?_⟩
    · rw [pairSum_true]
      exact Finset.sum_nonneg fun e he => (hg0 _ (gap_pos ω _ _)).trans (hb e he).1
    · rw [pairSum_true]
      exact Finset.sum_le_sum fun e he => (hb e he).1
    · rw [pairSum_true]
      exact Finset.sum_le_sum fun e he => (hb e he).2
    · have := h3 env rng ν hr hu hret m hm hgens (fun _ _ => True) (fun _ _ h => h) _ t rfl ht
      rw [hlen, ← xw_ofFn, ← xw_ofFn, ← (ho ω).1, ← (ho ω).2] at this
      exact this
  obtain ⟨s, hsd⟩ : ∃ s : ℝ, s = n * ε / 4 := ⟨_, rfl⟩
  have hs0 : 0 < s := by rw [hsd]; positivity
  constructor
  · refine (hdev _ (2 * (M + 2 * s) / s ^ 2) s (by positivity) hs0 (fun ω => hypEdgesProb_le_one hr) fun ω hω => ?_).trans (ENNReal.ofReal_le_ofReal ?_)
    · obtain ⟨k, h0, _, h1, h2⟩ := hpr ω
      have h3 := (abs_lt.1 hω).2
      refine (hypEdgesProb_mono fun j hj => ?_).trans ((h2 s hs0.le).1.trans (ENNReal.ofReal_le_ofReal (exp_neg_le (by positivity) ?_)))
      · rw [le_div_iff₀ hn0] at hj
        linarith
      · rw [one_div_div]
        exact div_le_div_of_nonneg_left (by positivity) (by positivity) (by linarith)
    · have e1 : (M + n ^ 3 * hrgSpread α β T R) / s ^ 2 + 2 * (M + 2 * s) / s ^ 2 =
          (24 * (2 * M) + 16 * ε * n) / (n ^ 2 * ε ^ 2) + 16 * n * hrgSpread α β T R / ε ^ 2 := by
        rw [hsd]
        field_simp
        ring
      have e2 : (24 * U + 16 * ε) / (n * ε ^ 2) = (24 * (U * n) + 16 * ε * n) / (n ^ 2 * ε ^ 2) := by field_simp
      rw [e1, e2]
      have : (24 * (2 * M) + 16 * ε * n) / (n ^ 2 * ε ^ 2) ≤ (24 * (U * n) + 16 * ε * n) / (n ^ 2 * ε ^ 2) :=
        div_le_div_of_nonneg_right (by linarith) (by positivity)
      linarith
  · refine (hdev' _ (2 * M / s ^ 2) s (by positivity) hs0 (fun ω => hypEdgesProb_le_one hr) fun ω hω => ?_).trans (ENNReal.ofReal_le_ofReal ?_)
    · obtain ⟨k, h0, h1, _, h2⟩ := hpr ω
      have h3 := (abs_lt.1 hω).1
      have hc : ∀ j : ℕ, 2 * (j : ℝ) / n ≤ L - ε → (j : ℝ) ≤ G - 2 * s := by
        intro j hj
        rw [div_le_iff₀ hn0] at hj
        linarith
      rcases lt_or_ge (G - 2 * s) 0 with hneg | hnn
      · have : {y | ∃ out, HGenerateEdges env rng (gensOf hm y) (radii ω) (angles ω) (fin T) (fin R) out ∧
            2 * (edgesIn (fun _ _ => True) out : ℝ) / n ≤ L - ε} = ∅ := by
          ext y
          simp only [Set.mem_setOf_eq, Set.mem_empty_iff_false, iff_false]
          rintro ⟨out, _, hq⟩
          have h6 := hc _ hq
          have h7 : (0 : ℝ) ≤ (edgesIn (fun _ _ => True) out : ℕ) := Nat.cast_nonneg _
          linarith
        unfold hypEdgesProb
        rw [this, measure_empty]
        exact bot_le
      · obtain ⟨d, hd⟩ : ∃ d : ℝ, d = k - (G - 2 * s) := ⟨_, rfl⟩
        have hds : s ≤ d := by rw [hd]; linarith
        have hk0 : 0 < k := by linarith
        have hMp : 0 < M := by linarith
        refine (hypEdgesProb_mono fun j hj => ?_).trans ((h2 d (by linarith)).2.trans (ENNReal.ofReal_le_ofReal (exp_neg_le (by positivity) ?_)))
        · have := hc j hj
          rw [hd]; linarith
        · rw [one_div_div, div_le_div_iff₀ (by positivity) (by positivity)]
          have e1 : k = (G - 2 * s) + d := by rw [hd]; ring
          rw [e1]
          obtain ⟨c, hcd⟩ : ∃ c : ℝ, c = G - 2 * s := ⟨_, rfl⟩
          rw [← hcd] at hnn ⊢
          have h8 : c + s ≤ M := by rw [hcd]; linarith
          have h9 : s ^ 2 * (c + d) ≤ d ^ 2 * (c + s) := by
            have : d ^ 2 * (c + s) - s ^ 2 * (c + d) = c * ((d - s) * (d + s)) + d * s * (d - s) := by ring
            have h10 : 0 ≤ c * ((d - s) * (d + s)) + d * s * (d - s) :=
              add_nonneg (mul_nonneg hnn (mul_nonneg (by linarith) (by linarith))) (mul_nonneg (mul_nonneg (by linarith) hs0.le) (by linarith))
            linarith
          have h11 := mul_le_mul_of_nonneg_left h8 (sq_nonneg d)
          linarith
    · have e1 : (G + n ^ 3 * hrgSpread α β T R) / s ^ 2 + 2 * M / s ^ 2 =
          (16 * G + 32 * M) / (n ^ 2 * ε ^ 2) + 16 * n * hrgSpread α β T R / ε ^ 2 := by
        rw [hsd]
        field_simp
        ring
      have e2 : 24 * U / (n * ε ^ 2) = 24 * (U * n) / (n ^ 2 * ε ^ 2) := by field_simp
      rw [e1, e2]
      have : (16 * G + 32 * M) / (n ^ 2 * ε ^ 2) ≤ 24 * (U * n) / (n ^ 2 * ε ^ 2) :=
        div_le_div_of_nonneg_right (by linarith) (by positivity)
      linarith

/-- the spread for the radius that `calculateRadius` returns -/
theorem spread_requested {deg : ℝ} (hn : 1 ≤ n) (h30 : n < 2 ^ 30) (hα : 1 ≤ α) (h0 : 0 ≤ T) (h1 : T < 1) (hd : 0 < deg) (hR : 20 ≤ R)
    (hc : calculateRadius n (fin α) (fin T) (fin deg) = some (fin R)) : hrgSpread α (7 / 4) T R ≤ 56 * (deg / n) ^ (7 / 4 : ℝ) := by
  have hn0 : (0 : ℝ) < n := by exact_mod_cast hn
  have hpi := Real.pi_pos
  have hC := one_le_connC h0 h1
  have hX : 1 ≤ xi α := by
    unfold xi
    rw [le_div_iff₀ (by linarith)]; linarith
  obtain ⟨_, _, _, e4, e5⟩ := error_small hα hR
  have hs0 : 0 < slack α R := slack_pos (by nlinarith)
  have hs1 : slack α R ≤ 1.0005 := by nlinarith
  have hL : hrgNodeDegree 1 α T R ≤ deg / n := by
    obtain ⟨R', h2, h3⟩ := C51_inverts (n := n) (α := α) (by exact_mod_cast hn) (by exact_mod_cast h30) (by linarith) h0 h1 hd
    rw [h2, Option.some.injEq] at hc
    have h4 := (h3 R).2 (XR.fin.inj hc).symm
    rw [le_div_iff₀ hn0, ← h4]
    have e1 : hrgNodeDegree 1 α T R = 2 / Real.pi * xi α * Real.exp (-R / 2) * connC T := by unfold hrgNodeDegree connC; ring
    have e2 : hrgDegree ((n : ℤ) : ℝ) α T R = n * (2 / Real.pi * xi α * Real.exp (-R / 2) * connC T) * xi α := by
      unfold hrgDegree connC
      push_cast
      ring
    rw [e1, e2]
    have : 0 ≤ n * (2 / Real.pi * xi α * Real.exp (-R / 2) * connC T) := by positivity
    nlinarith
  have hL0 : 0 ≤ hrgNodeDegree 1 α T R := by
    have e1 : hrgNodeDegree 1 α T R = 2 / Real.pi * xi α * Real.exp (-R / 2) * connC T := by unfold hrgNodeDegree connC; ring
    rw [e1]; positivity
  have p1 : (3.0015 : ℝ) ^ (7 / 4 : ℝ) ≤ 6.9 := by
    rw [← Real.rpow_le_rpow_iff (by positivity) (by norm_num) (show (0 : ℝ) < 4 by norm_num), ← Real.rpow_mul (by norm_num)]
    norm_num
  have p2 : 0 ≤ (deg / n) ^ (7 / 4 : ℝ) := by positivity
  have p3 : (3 * slack α R * hrgNodeDegree 1 α T R) ^ (7 / 4 : ℝ) ≤ 6.9 * (deg / n) ^ (7 / 4 : ℝ) := by
    calc (3 * slack α R * hrgNodeDegree 1 α T R) ^ (7 / 4 : ℝ) ≤ (3.0015 * (deg / n)) ^ (7 / 4 : ℝ) := by
          refine Real.rpow_le_rpow (by positivity) (mul_le_mul (by linarith) hL hL0 (by norm_num)) (by norm_num)
      _ = 3.0015 ^ (7 / 4 : ℝ) * (deg / n) ^ (7 / 4 : ℝ) := Real.mul_rpow (by norm_num) (by positivity)
      _ ≤ _ := mul_le_mul_of_nonneg_right p1 p2
  have p4 : α / (α - 7 / 4 / 2) ≤ 8 := by
    rw [div_le_iff₀ (by linarith)]; linarith
  have p5 : 0 ≤ α / (α - 7 / 4 / 2) := div_nonneg (by linarith) (by linarith)
  unfold hrgSpread
  calc _ ≤ 8 * 1.0005 * (6.9 * (deg / n) ^ (7 / 4 : ℝ)) :=
        mul_le_mul (mul_le_mul p4 hs1 hs0.le (by norm_num)) p3 (by positivity) (by norm_num)
    _ ≤ _ := by linarith

/-- C106.  The whole pipeline for `T = 0`, `α ≥ 1`: `calculateRadius` for an average degree `deg` gives a radius `R`, `20 ≤ R ≤ 41.25`; `n` points are drawn in that
disk, `generateEdges` is run with temperature 0.  Then the average degree of the result is between `0.97 d - ε` and `1.02 d + ε`, where `d = deg * (n-1)/n`, except
with probability at most `5 deg / (n ε²) + 450 n (deg/n)^(7/4) / ε²`. -/
theorem C106_requested_threshold {deg : ℝ} (h30 : n < 2 ^ 30) (hα : 1 ≤ α) (hd : 0 < deg)
    (hc : calculateRadius n (fin α) (fin 0) (fin deg) = some (fin R)) (hR : 20 ≤ R) (hR' : R ≤ 165 / 4) (hn : 1 ≤ n)
    (hs : SampledPoints P omp eng μ σ device n α R radii angles)
    (env : Ω → HEnv) (hgeo : GeoBounded rng) (gens : Ω → ℕ → rng.G) {out : Ω → List (ℕ × ℕ)}
    (h : ∀ ω, HGenerateEdges (env ω) rng (gens ω) (radii ω) (angles ω) (fin 0) (fin R) (out ω)) {ε : ℝ} (hε : 0 < ε) :
    P {ω | ¬ (0.97 * (deg * (1 - 1 / n)) - ε < 2 * ((out ω).length : ℝ) / n ∧ 2 * ((out ω).length : ℝ) / n < 1.02 * (deg * (1 - 1 / n)) + ε)} ≤
      ENNReal.ofReal (5 * deg / (n * ε ^ 2) + 450 * n * (deg / n) ^ (7 / 4 : ℝ) / ε ^ 2) := by
  have hn0 : (0 : ℝ) < n := by exact_mod_cast hn
  obtain ⟨h1, h2⟩ := C106_threshold (γ := 7 / 4) (β := 7 / 4) hs hn (by omega) (Or.inr ⟨by linarith, hR'⟩) (by norm_num) (by norm_num) (by linarith)
    (by norm_num) (by norm_num) (by linarith) (by nlinarith) env hgeo gens h rfl rfl hε
  have hsp := spread_requested hn h30 hα le_rfl one_pos hd hR hc
  rw [hrg_requested hn h30 (by linarith) le_rfl one_pos hd hc] at h1 h2
  obtain ⟨e1, e2, e3, e4, e5⟩ := error_small hα hR
  have hx : 0 ≤ deg * (1 - 1 / n) := by
    refine mul_nonneg hd.le ?_
    rw [sub_nonneg, div_le_one hn0]
    exact_mod_cast hn
  have hx1 : deg * (1 - 1 / n) ≤ deg := by
    have : 0 ≤ deg * (1 / n) := by positivity
    linarith
  obtain ⟨d, hdd⟩ : ∃ d, d = deg * (1 - 1 / n) := ⟨_, rfl⟩
  rw [← hdd] at h1 h2 hx hx1 ⊢
  obtain ⟨U, hU⟩ : ∃ U, U = d * ((1 + 2 * degreeError α (7 / 4) R) * slack α R ^ 2) := ⟨_, rfl⟩
  obtain ⟨L, hL⟩ : ∃ L, L = d * ((1 - 2.1 * Real.exp (-((α - 1 / 2) * R))) ^ 2 - 3 * degreeError α (7 / 4) R * slack α R ^ 2) := ⟨_, rfl⟩
  rw [← hU] at h1 h2
  rw [← hL] at h2
  have hU1 : U ≤ 1.02 * d := by
    rw [hU, mul_comm (1.02 : ℝ)]
    exact mul_le_mul_of_nonneg_left (by nlinarith) hx
  have hL1 : 0.97 * d ≤ L := by
    rw [hL, mul_comm (0.97 : ℝ)]
    exact mul_le_mul_of_nonneg_left (by nlinarith) hx
  have hU0 : 0 ≤ U := by
    rw [hU]
    exact mul_nonneg hx (mul_nonneg (by linarith) (sq_nonneg _))
  have hk0 : 0 ≤ hrgSpread α (7 / 4) 0 R := hrgSpread_nonneg le_rfl one_pos (by norm_num) (by linarith) (by nlinarith)
  refine (measure_mono (t := {ω | U + ε ≤ 2 * ((out ω).length : ℝ) / n} ∪ {ω | 2 * ((out ω).length : ℝ) / n ≤ L - ε}) fun ω hω => ?_).trans
    ((measure_union_le _ _).trans ((add_le_add h1 h2).trans ?_))
  · by_contra hcon
    rw [Set.mem_union, not_or] at hcon
    have c1 : ¬ U + ε ≤ 2 * ((out ω).length : ℝ) / n := hcon.1
    have c2 : ¬ 2 * ((out ω).length : ℝ) / n ≤ L - ε := hcon.2
    exact hω ⟨by linarith, by linarith⟩
  · rw [← ENNReal.ofReal_add (by positivity) (by positivity)]
    refine ENNReal.ofReal_le_ofReal ?_
    have f1 : 2 * U / (n * ε ^ 2) + 2 * U / (n * ε ^ 2) ≤ 5 * deg / (n * ε ^ 2) := by
      rw [← add_div]
      exact div_le_div_of_nonneg_right (by linarith) (by positivity)
    have f2 : 4 * n * hrgSpread α (7 / 4) 0 R / ε ^ 2 + 4 * n * hrgSpread α (7 / 4) 0 R / ε ^ 2 ≤ 450 * n * (deg / n) ^ (7 / 4 : ℝ) / ε ^ 2 := by
      rw [← add_div]
      refine div_le_div_of_nonneg_right ?_ (by positivity)
      have p2 : 0 ≤ (deg / n) ^ (7 / 4 : ℝ) := by positivity
      have := mul_le_mul_of_nonneg_left hsp hn0.le
      have := mul_nonneg hn0.le p2
      linarith
    linarith

/-- C106.  The whole pipeline for `2^-52 < T ≤ 1/2`, `α ≥ 1`: `calculateRadius` for an average degree `deg` gives a radius `R`, `20 ≤ R ≤ 41.25`; `n` points are
drawn in that disk, `generateEdges` is run with independent ideal random numbers in an environment in which it returns.  Let `d = deg * (n-1)/n`.  Then the average
degree of the result is at least `1.02 d + ε` with probability at most `(25 deg + 16 ε) / (n ε²) + 900 n (deg/n)^(7/4) / ε²`, and at most `0.95 d - ε` with
probability at most `25 deg / (n ε²) + 900 n (deg/n)^(7/4) / ε²`. -/
theorem C106_requested {deg : ℝ} (h30 : n < 2 ^ 30) (hα : 1 ≤ α) (hT : 1 / 4503599627370496 < T) (hT1 : T ≤ 1 / 2) (hd : 0 < deg)
    (hc : calculateRadius n (fin α) (fin T) (fin deg) = some (fin R)) (hR : 20 ≤ R) (hR' : R ≤ 165 / 4) (hn : 1 ≤ n)
    (hs : SampledPoints P omp eng μ σ device n α R radii angles) (env : HEnv) [MeasurableSpace rng.G]
    {ν : Measure rng.G} (hr : IdealRng rng ν) (hu : UnitRng rng)
    (hret : env.threads = 1 ∨ ∃ L, HTree.firstParallelLevel XR env.threads = some L ∧
      Real.cosh R < hypCosh (R - 1) (Real.pi / 2 ^ (L - 1)) (R - 1) 0) {m : ℕ} (hm : 1 ≤ m)
    (hgens : env.threads ≠ 1 → ∃ L tasks, HTree.firstParallelLevel XR env.threads = some L ∧
      HTree.numTasks L = some tasks ∧ env.threads - 1 + tasks ≤ m) {ε : ℝ} (hε : 0 < ε) :
    upperMean P (fun ω => hypEdgesProb env rng ν hm (radii ω) (angles ω) (fin T) (fin R) (fun _ _ => True) fun k =>
        1.02 * (deg * (1 - 1 / n)) + ε ≤ 2 * (k : ℝ) / n) ≤
      ENNReal.ofReal ((25 * deg + 16 * ε) / (n * ε ^ 2) + 900 * n * (deg / n) ^ (7 / 4 : ℝ) / ε ^ 2) ∧
    upperMean P (fun ω => hypEdgesProb env rng ν hm (radii ω) (angles ω) (fin T) (fin R) (fun _ _ => True) fun k =>
        2 * (k : ℝ) / n ≤ 0.95 * (deg * (1 - 1 / n)) - ε) ≤
      ENNReal.ofReal (25 * deg / (n * ε ^ 2) + 900 * n * (deg / n) ^ (7 / 4 : ℝ) / ε ^ 2) := by
  have hT0 : 0 < T := lt_trans (by norm_num) hT
  have hn0 : (0 : ℝ) < n := by exact_mod_cast hn
  have h99 := log_99
  have hfil : 2 * T * Real.log 99 ≤ R := by
    have : 0 ≤ Real.log 99 := Real.log_nonneg (by norm_num)
    nlinarith
  obtain ⟨h1, h2⟩ := C106_expected (γ := 7 / 4) (β := 7 / 4) hs hn (by omega) (Or.inr ⟨by linarith, hR'⟩) (by norm_num) (by norm_num) (by linarith)
    (by norm_num) (by norm_num) (by linarith) (by nlinarith) hT (by linarith) (by linarith) hfil env hr hu hret hm hgens rfl rfl hε
  have hsp := spread_requested hn h30 hα hT0.le (by linarith) hd hR hc
  rw [hrg_requested hn h30 (by linarith) hT0.le (by linarith) hd hc] at h1 h2
  obtain ⟨e1, e2, e3, e4, e5⟩ := error_small hα hR
  have hx : 0 ≤ deg * (1 - 1 / n) := by
    refine mul_nonneg hd.le ?_
    rw [sub_nonneg, div_le_one hn0]
    exact_mod_cast hn
  have hx1 : deg * (1 - 1 / n) ≤ deg := by
    have : 0 ≤ deg * (1 / n) := by positivity
    linarith
  have e6 : (1 / 1000000 : ℝ) ^ (1 - T) / (1 - T) ≤ 0.002 := by
    rw [div_le_iff₀ (by linarith)]
    calc (1 / 1000000 : ℝ) ^ (1 - T) ≤ (1 / 1000000 : ℝ) ^ (1 / 2 : ℝ) := Real.rpow_le_rpow_of_exponent_ge (by norm_num) (by norm_num) (by linarith)
      _ = 1 / 1000 := by
        rw [show (1 / 1000000 : ℝ) = (1 / 1000) ^ (2 : ℝ) by norm_num, ← Real.rpow_mul (by norm_num)]
        norm_num
      _ ≤ 0.002 * (1 - T) := by linarith
  obtain ⟨c, hcd⟩ : ∃ c : ℝ, c = (1 / 1000000 : ℝ) ^ (1 - T) / (1 - T) := ⟨_, rfl⟩
  rw [← hcd] at e6 h2
  obtain ⟨d, hdd⟩ : ∃ d, d = deg * (1 - 1 / n) := ⟨_, rfl⟩
  rw [← hdd] at h1 h2 hx hx1 ⊢
  obtain ⟨U, hU⟩ : ∃ U, U = d * ((1 + 2 * degreeError α (7 / 4) R) * slack α R ^ 2) := ⟨_, rfl⟩
  obtain ⟨L, hL⟩ : ∃ L, L = d * ((1 - 2.1 * Real.exp (-((α - 1 / 2) * R))) ^ 2 - (c + 5 * degreeError α (7 / 4) R) * slack α R ^ 2) := ⟨_, rfl⟩
  rw [← hU] at h1 h2
  rw [← hL] at h2
  have hU1 : U ≤ 1.02 * d := by
    rw [hU, mul_comm (1.02 : ℝ)]
    exact mul_le_mul_of_nonneg_left (by nlinarith) hx
  have hL1 : 0.95 * d ≤ L := by
    rw [hL, mul_comm (0.95 : ℝ)]
    refine mul_le_mul_of_nonneg_left ?_ hx
    have : (c + 5 * degreeError α (7 / 4) R) * slack α R ^ 2 ≤ (0.002 + 5 * 0.00896) * 1.001 :=
      mul_le_mul (by linarith) e5 (sq_nonneg _) (by norm_num)
    linarith
  have f2 : 16 * n * hrgSpread α (7 / 4) T R / ε ^ 2 ≤ 900 * n * (deg / n) ^ (7 / 4 : ℝ) / ε ^ 2 := by
    refine div_le_div_of_nonneg_right ?_ (by positivity)
    have p2 : 0 ≤ (deg / n) ^ (7 / 4 : ℝ) := by positivity
    have := mul_le_mul_of_nonneg_left hsp hn0.le
    have := mul_nonneg hn0.le p2
    linarith
  constructor
  · refine (upperMean_mono fun ω => hypEdgesProb_mono fun j hj => ?_).trans (h1.trans (ENNReal.ofReal_le_ofReal (add_le_add ?_ f2)))
    · linarith
    · exact div_le_div_of_nonneg_right (by linarith) (by positivity)
  · refine (upperMean_mono fun ω => hypEdgesProb_mono fun j hj => ?_).trans (h2.trans (ENNReal.ofReal_le_ofReal (add_le_add ?_ f2)))
    · linarith
    · exact div_le_div_of_nonneg_right (by linarith) (by positivity)

end Random

/-! ### the hypotheses can be met -/

/-- 10^8 nodes, `α = 1`, radius 32: the leading term -/
theorem example_degree : 28.6 ≤ hrgDegree 100000000 1 0 32 ∧ hrgDegree 100000000 1 0 32 ≤ 28.7 := by
  have h1 := Real.pi_gt_d4
  have h2 := Real.pi_lt_d4
  have h3 := Real.exp_one_gt_d9
  have h4 := Real.exp_one_lt_d9
  have e : Real.exp (-32 / 2) * Real.exp 1 ^ 16 = 1 := by
    rw [← Real.exp_nat_mul, ← Real.exp_add, Real.exp_eq_one_iff]
    norm_num
  have b1 : (8880000 : ℝ) ≤ Real.exp 1 ^ 16 := le_trans (by norm_num) (pow_le_pow_left₀ (by norm_num) h3.le 16)
  have b2 : Real.exp 1 ^ 16 ≤ 8890000 := le_trans (pow_le_pow_left₀ (by positivity) h4.le 16) (by norm_num)
  have e0 := Real.exp_pos (-32 / 2)
  have e' : Real.exp (-32 / 2) = 1 / Real.exp 1 ^ 16 := by
    rw [eq_div_iff (by positivity)]; exact e
  have hd : hrgDegree 100000000 1 0 32 = 800000000 / (Real.pi * Real.exp 1 ^ 16) := by
    unfold hrgDegree xi
    rw [e']
    have := Real.pi_pos
    field_simp
    norm_num
  have hb1 : 3.1415 * 8880000 ≤ Real.pi * Real.exp 1 ^ 16 := mul_le_mul h1.le b1 (by norm_num) (by linarith)
  have hb2 : Real.pi * Real.exp 1 ^ 16 ≤ 3.1416 * 8890000 := mul_le_mul h2.le b2 (by positivity) (by norm_num)
  rw [hd]
  constructor
  · rw [le_div_iff₀ (by linarith)]
    linarith
  · rw [div_le_iff₀ (by linarith)]
    linarith

theorem example_spread {deg : ℝ} (h0 : 0 < deg) (h1 : deg ≤ 28.7) : (100000000 : ℝ) * (deg / 100000000) ^ (7 / 4 : ℝ) ≤ 0.00036 := by
  have h2 : (deg / 100000000) ^ (7 / 4 : ℝ) ≤ 0.0000000000036 := by
    rw [← Real.rpow_le_rpow_iff (by positivity) (by norm_num) (show (0 : ℝ) < 4 by norm_num), ← Real.rpow_mul (by positivity)]
    refine (Real.rpow_le_rpow (by positivity) (show deg / 100000000 ≤ 0.000000287 by linarith) (by norm_num)).trans ?_
    norm_num
  linarith

/-- C106 at work, `T = 0`: 10^8 nodes, `α = 1`, and the average degree (between 28.6 and 28.7) for which `calculateRadius` returns 32.  The average degree of the
result is between 24 and 33, except with probability at most 1/50. -/
example (n : ℕ) (hn : n = 100000000) : ∃ (deg : ℝ) (radii angles : (ℤ → ℕ → ℝ) → List XR) (out : (ℤ → ℕ → ℝ) → List (ℕ × ℕ)), 28.6 ≤ deg ∧ deg ≤ 28.7 ∧
    calculateRadius n (fin 1) (fin 0) (fin deg) = some (fin 32) ∧
    (∀ ω, HGenerateEdges (exampleHEnv true 1 (by norm_num) (by norm_num)) idealRng (fun _ _ => 0) (radii ω) (angles ω) (fin 0) (fin 32) (out ω)) ∧
    (Measure.infinitePi fun _ : ℤ => seqMeasure) {ω | ¬ (24 < 2 * ((out ω).length : ℝ) / n ∧ 2 * ((out ω).length : ℝ) / n < 33)} ≤ ENNReal.ofReal (1 / 50) := by
  have hnR : (n : ℝ) = 100000000 := by rw [hn]; norm_num
  obtain ⟨d1, d2⟩ := example_degree
  obtain ⟨deg, hdeg⟩ : ∃ deg, deg = hrgDegree 100000000 1 0 32 := ⟨_, rfl⟩
  rw [← hdeg] at d1 d2
  have hd : 0 < deg := by linarith
  have hc : calculateRadius n (fin 1) (fin 0) (fin deg) = some (fin 32) := by
    obtain ⟨R, h1, h2⟩ := C51_inverts (n := n) (α := 1) (T := 0) (by omega) (by omega) (by norm_num) le_rfl one_pos hd
    rw [← (h2 32).1 (by rw [hdeg, Int.cast_natCast, hnR])] at h1
    exact h1
  obtain ⟨radii, angles, hs⟩ := exampleSampled (n := n) (by omega) (α := 1) (R := 32) one_pos (by norm_num)
  obtain ⟨ρ, φ, hp, ho⟩ := sampled_random hs (by omega) one_pos (by norm_num) (by norm_num)
  have hex : ∀ ω, ∃ out, HGenerateEdges (exampleHEnv true 1 (by norm_num) (by norm_num)) idealRng (fun _ _ => 0) (radii ω) (angles ω) (fin 0) (fin 32) out := by
    intro ω
    rw [(ho ω).1, (ho ω).2, xw_ofFn, xw_ofFn]
    exact (C44_returns_iff (random_input hp (by omega) (by omega) le_rfl (Or.inr (by norm_num)) ω) _ _ idealRng_unit _).2 (Or.inl rfl)
  choose out hout using hex
  refine ⟨deg, radii, angles, out, d1, d2, hc, hout, ?_⟩
  have hb := C106_requested_threshold (n := n) (by omega) le_rfl hd hc (by norm_num) (by norm_num) (by omega) hs _ idealRng_unit.geo _ hout (ε := 3) (by norm_num)
  have ht := example_spread hd d2
  rw [hnR] at hb ⊢
  refine le_trans (measure_mono ?_) (hb.trans (ENNReal.ofReal_le_ofReal ?_))
  · intro ω hω hcon
    refine hω ⟨lt_of_le_of_lt ?_ hcon.1, hcon.2.trans_le ?_⟩ <;> linarith
  · rw [mul_assoc (450 : ℝ)]
    have f1 : 5 * deg / (100000000 * 3 ^ 2) ≤ 0.001 := by
      rw [div_le_iff₀ (by norm_num)]; linarith
    generalize (100000000 : ℝ) * (deg / 100000000) ^ (7 / 4 : ℝ) = X at ht ⊢
    have f2 : 450 * X / 3 ^ 2 ≤ 0.018 := by
      rw [div_le_iff₀ (by norm_num)]; linarith
    linarith

/-- C106 at work, `T = 1/2`: 10^8 nodes, `α = 1`, and the average degree (between 44 and 46) for which `calculateRadius` returns 32.  The average degree of the
result is 60 or more, and 30 or less, with probability at most 1/50 each. -/
example (n : ℕ) (hn : n = 100000000) : ∃ (deg : ℝ) (radii angles : (ℤ → ℕ → ℝ) → List XR), 44 ≤ deg ∧ deg ≤ 46 ∧
    calculateRadius n (fin 1) (fin (1 / 2)) (fin deg) = some (fin 32) ∧
    upperMean (Measure.infinitePi fun _ : ℤ => seqMeasure) (fun ω => hypEdgesProb (exampleHEnv true 1 (by norm_num) (by norm_num)) idealRng seqMeasure le_rfl
      (radii ω) (angles ω) (fin (1 / 2)) (fin 32) (fun _ _ => True) fun k => 60 ≤ 2 * (k : ℝ) / n) ≤ ENNReal.ofReal (1 / 50) ∧
    upperMean (Measure.infinitePi fun _ : ℤ => seqMeasure) (fun ω => hypEdgesProb (exampleHEnv true 1 (by norm_num) (by norm_num)) idealRng seqMeasure le_rfl
      (radii ω) (angles ω) (fin (1 / 2)) (fin 32) (fun _ _ => True) fun k => 2 * (k : ℝ) / n ≤ 30) ≤ ENNReal.ofReal (1 / 50) := by
  have hnR : (n : ℝ) = 100000000 := by rw [hn]; norm_num
  obtain ⟨d1, d2⟩ := example_degree
  obtain ⟨deg, hdeg⟩ : ∃ deg, deg = hrgDegree 100000000 1 (1 / 2) 32 := ⟨_, rfl⟩
  have hrel : deg = hrgDegree 100000000 1 0 32 * (Real.pi / 2) := by
    rw [hdeg]
    unfold hrgDegree
    have : Real.sin (Real.pi * (1 / 2)) = 1 := by rw [mul_one_div, Real.sin_pi_div_two]
    rw [this, if_pos rfl, if_neg (by norm_num)]
    ring
  have p1 := Real.pi_gt_d4
  have p2 := Real.pi_lt_d4
  have c1 : 44 ≤ deg := by
    rw [hrel]
    exact le_trans (by norm_num) (mul_le_mul d1 (show (3.1415 / 2 : ℝ) ≤ Real.pi / 2 by linarith) (by norm_num) (by linarith))
  have c2 : deg ≤ 46 := by
    rw [hrel]
    exact (mul_le_mul d2 (show Real.pi / 2 ≤ 3.1416 / 2 by linarith) (by linarith) (by norm_num)).trans (by norm_num)
  have hd : 0 < deg := by linarith
  have hc : calculateRadius n (fin 1) (fin (1 / 2)) (fin deg) = some (fin 32) := by
    obtain ⟨R, h1, h2⟩ := C51_inverts (n := n) (α := 1) (T := 1 / 2) (by omega) (by omega) (by norm_num) (by norm_num) (by norm_num) hd
    rw [← (h2 32).1 (by rw [hdeg, Int.cast_natCast, hnR])] at h1
    exact h1
  obtain ⟨radii, angles, hs⟩ := exampleSampled (n := n) (by omega) (α := 1) (R := 32) one_pos (by norm_num)
  obtain ⟨b1, b2⟩ := C106_requested (n := n) (by omega) le_rfl (by norm_num) le_rfl hd hc (by norm_num) (by norm_num) (by omega) hs
    (exampleHEnv true 1 (by norm_num) (by norm_num)) idealRng_ideal idealRng_unit (Or.inl rfl) le_rfl (fun h => absurd rfl h) (ε := 10) (by norm_num)
  have ht : (100000000 : ℝ) * (deg / 100000000) ^ (7 / 4 : ℝ) ≤ 0.001 := by
    have h2 : (deg / 100000000) ^ (7 / 4 : ℝ) ≤ 0.00000000001 := by
      rw [← Real.rpow_le_rpow_iff (by positivity) (by norm_num) (show (0 : ℝ) < 4 by norm_num), ← Real.rpow_mul (by positivity)]
      refine (Real.rpow_le_rpow (by positivity) (show deg / 100000000 ≤ 0.00000046 by linarith) (by norm_num)).trans ?_
      norm_num
    linarith
  refine ⟨deg, radii, angles, c1, c2, hc, ?_⟩
  rw [hnR] at b1 b2 ⊢
  rw [mul_assoc (900 : ℝ)] at b1 b2
  generalize (100000000 : ℝ) * (deg / 100000000) ^ (7 / 4 : ℝ) = X at ht b1 b2
  have f2 : 900 * X / 10 ^ 2 ≤ 0.009 := by
    rw [div_le_iff₀ (by norm_num)]; linarith
  constructor
  · refine (upperMean_mono fun ω => hypEdgesProb_mono fun j hj => ?_).trans (b1.trans (ENNReal.ofReal_le_ofReal ?_))
    · linarith
    · have f1 : (25 * deg + 16 * 10) / (100000000 * 10 ^ 2) ≤ 0.001 := by
        rw [div_le_iff₀ (by norm_num)]; linarith
      linarith
  · refine (upperMean_mono fun ω => hypEdgesProb_mono fun j hj => ?_).trans (b2.trans (ENNReal.ofReal_le_ofReal ?_))
    · linarith
    · have f1 : 25 * deg / (100000000 * 10 ^ 2) ≤ 0.001 := by
        rw [div_le_iff₀ (by norm_num)]; linarith
      linarith

end Girgs.Props
