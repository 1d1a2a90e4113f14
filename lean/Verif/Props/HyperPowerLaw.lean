import Verif.Proofs.HypPower
import Verif.Props.HyperDegreeConcentration
/-
C101: the degrees of generated hyperbolic random graphs follow a power law.
-/
namespace Girgs.Props
open CFloat Spec MeasureTheory ProbabilityTheory HypDeg Radius
open XR (fin)
open scoped ENNReal

/-- the leading term as a function of the radius -/
theorem hrgNode_shift (n α T R r : ℝ) : hrgNodeDegree n α T r = hrgNodeDegree n α T R * Real.exp ((R - r) / 2) := by
  unfold hrgNodeDegree
  rw [show -r / 2 = -R / 2 + (R - r) / 2 by ring, Real.exp_add]
  ring

theorem hrgNode_pos {n : ℕ} {α T : ℝ} (hn : 2 ≤ n) (hα : 1 / 2 < α) (hT : 0 ≤ T) (hT1 : T < 1) (r : ℝ) : 0 < hrgNodeDegree ((n : ℝ) - 1) α T r := by
  have h1 : (0 : ℝ) < n - 1 := by
    have : (2 : ℝ) ≤ n := by exact_mod_cast hn
    linarith
  have h2 : 0 < xi α := div_pos (by linarith) (by linarith)
  have h3 : 0 < connC T := by linarith [one_le_connC hT hT1]
  have := Real.pi_pos
  rw [hrgNode_eq]
  positivity

/-- means over a part of the outcomes -/
theorem upperMean_split {Ω : Type} [MeasurableSpace Ω] {P : Measure Ω} {S : Set Ω} (hS : MeasurableSet S) {f : Ω → ℝ≥0∞} (hf : ∀ ω, f ω ≤ 1) :
    upperMean P f ≤ P S + upperMean (P.restrict Sᶜ) f := by
  rw [← tsub_le_iff_left]
  refine le_iInf fun F => le_iInf fun hF => le_iInf fun hfF => ?_
  rw [tsub_le_iff_left]
  have hm : Measurable fun ω => S.indicator (1 : Ω → ℝ≥0∞) ω + Sᶜ.indicator F ω := (measurable_one.indicator hS).add (hF.indicator hS.compl)
  refine (upperMean_le (F := fun ω => S.indicator (1 : Ω → ℝ≥0∞) ω + Sᶜ.indicator F ω) hm fun ω => ?_).trans (le_of_eq ?_)
  · by_cases h : ω ∈ S
    · rw [Set.indicator_of_mem h]
      exact (hf ω).trans le_self_add
    · rw [Set.indicator_of_mem (show ω ∈ Sᶜ from h)]
      exact (hfF ω).trans le_add_self
  · rw [lintegral_add_left (measurable_one.indicator hS), lintegral_indicator_one hS, lintegral_indicator hS.compl]

/-- the part of the outcomes with a rare exception -/
theorem lintegral_ge_of_compl {Ω : Type} [MeasurableSpace Ω] {P : Measure Ω} [IsFiniteMeasure P] {S : Set Ω} (hS : MeasurableSet S) {f g : Ω → ℝ≥0∞}
    (h : ∀ ω ∈ S, 1 ≤ f ω + g ω) {q : ℝ≥0∞} (hg : upperMean (P.restrict S) g ≤ P S * q) : P S * (1 - q) ≤ ∫⁻ ω, f ω ∂P := by
  rw [ENNReal.mul_sub (fun _ _ => measure_ne_top _ _), mul_one, tsub_le_iff_right]
  refine le_trans ?_ (add_le_add le_rfl hg)
  rw [← tsub_le_iff_left]
  refine le_iInf fun F => le_iInf fun hF => le_iInf fun hgF => ?_
  rw [tsub_le_iff_left]
  have h1 : P S = ∫⁻ ω in S, 1 ∂P := by simp
  rw [h1]
  refine le_trans (setLIntegral_mono' hS fun ω hω => (h ω hω).trans (add_le_add le_rfl (hgF ω))) ?_
  rw [lintegral_add_right _ hF]
  exact add_le_add (setLIntegral_le_lintegral _ _) le_rfl

/-- all or nothing -/
theorem hypEdgesProb_compl {radii angles : List ℝ} {T R : ℝ} (hin : HypInput radii angles T R) (env : HEnv) {rng : Tree.Rng XR} [MeasurableSpace rng.G]
    {ν : Measure rng.G} (hr : IdealRng rng ν) (hur : UnitRng rng)
    (hret : env.threads = 1 ∨ ∃ L, HTree.firstParallelLevel XR env.threads = some L ∧
      Real.cosh R < hypCosh (R - 1) (Real.pi / 2 ^ (L - 1)) (R - 1) 0) {g : ℕ} (hg : 1 ≤ g) (A : ℕ → ℕ → Prop) (Q : ℕ → Prop) :
    1 ≤ hypEdgesProb env rng ν hg (xw radii) (xw angles) (fin T) (fin R) A Q + hypEdgesProb env rng ν hg (xw radii) (xw angles) (fin T) (fin R) A fun k => ¬ Q k := by
  have hprob := hr.prob
  unfold hypEdgesProb
  refine le_trans (le_of_eq ?_) (measure_union_le _ _)
  rw [← measure_univ (μ := Measure.pi fun _ : Fin g => ν)]
  congr 1
  ext st
  simp only [Set.mem_univ, Set.mem_union, Set.mem_setOf_eq, true_iff]
  obtain ⟨out, h⟩ := (C44_returns_iff hin env rng hur (gensOf hg st)).2 hret
  by_cases hq : Q (edgesIn A out)
  · exact Or.inl ⟨out, h, hq⟩
  · exact Or.inr ⟨out, h, hq⟩

/-- numbers for the upper tail -/
theorem power_upper_exp {K : ℝ} (hK : 0 ≤ K) : Real.exp (-((K / 2) ^ 2 / (2 * (K / 2 + K / 2 / 3)))) ≤ Real.exp (-K / 6) := by
  refine Real.exp_le_exp.2 ?_
  rcases hK.eq_or_lt with rfl | hK
  · simp
  · have e : (K / 2) ^ 2 / (2 * (K / 2 + K / 2 / 3)) = 3 * K / 16 := by
      field_simp; norm_num
    rw [e]; linarith

/-- numbers for the lower tail -/
theorem power_lower_exp {K : ℝ} (hK : 1 ≤ K) : Real.exp (-(K ^ 2 / (2 * (2 * K)))) ≤ 4 / 5 := by
  have e : K ^ 2 / (2 * (2 * K)) = K / 4 := by field_simp; norm_num
  rw [e]
  have h1 : Real.exp (-(K / 4)) ≤ Real.exp (-(1 / 4)) := Real.exp_le_exp.2 (by linarith)
  refine h1.trans ?_
  rw [Real.exp_neg, inv_le_comm₀ (Real.exp_pos _) (by norm_num)]
  have := Real.add_one_le_exp (1 / 4 : ℝ)
  norm_num at this ⊢
  linarith

/-- the radius at which the leading term is `K / c` -/
theorem power_radius {n α T R : ℝ} (hD : 0 < hrgNodeDegree n α T R) {z : ℝ} (hz : 0 < z) :
    Real.exp (-(α * (R - (R + 2 * Real.log z)))) = z ^ (2 * α) ∧ (∀ r, R + 2 * Real.log z < r → hrgNodeDegree n α T r ≤ hrgNodeDegree n α T R / z) ∧
      ∀ r, r ≤ R + 2 * Real.log z → hrgNodeDegree n α T R / z ≤ hrgNodeDegree n α T r := by
  have e : Real.exp ((R - (R + 2 * Real.log z)) / 2) = 1 / z := by
    rw [show (R - (R + 2 * Real.log z)) / 2 = -Real.log z by ring, Real.exp_neg, Real.exp_log hz, one_div]
  refine ⟨?_, fun r hr => ?_, fun r hr => ?_⟩
  · rw [Real.rpow_def_of_pos hz]
    congr 1
    ring
  · rw [hrgNode_shift n α T R r, div_eq_mul_one_div (hrgNodeDegree n α T R) z, ← e]
    exact mul_le_mul_of_nonneg_left (Real.exp_le_exp.2 (by linarith)) hD.le
  · rw [hrgNode_shift n α T R r, div_eq_mul_one_div (hrgNodeDegree n α T R) z, ← e]
    exact mul_le_mul_of_nonneg_left (Real.exp_le_exp.2 (by linarith)) hD.le

theorem nodeError_anti {α γ r s : ℝ} (hγ0 : 1 ≤ γ) (hγα : γ < 2 * α) (h : r ≤ s) : nodeError α γ s ≤ nodeError α γ r ∧ 0 ≤ nodeError α γ s := by
  have hk : 0 ≤ kappa α γ := div_nonneg (by linarith) (by linarith)
  unfold nodeError
  exact ⟨mul_le_mul_of_nonneg_left (Real.exp_le_exp.2 (by nlinarith)) hk, mul_nonneg hk (Real.exp_pos _).le⟩

theorem nodeError_one {α r : ℝ} (h : 1 / 2 < α) : nodeError α 1 r = 1 := by
  unfold nodeError kappa
  rw [div_self (by linarith)]
  simp

section Random
variable {Ω : Type} [MeasurableSpace Ω] {P : Measure Ω} {omp : Omp} {eng : Engine XR} [MeasurableSpace eng.G] {μ : Measure eng.G}
  {σ : ℤ → Ω → eng.G} {device : ℕ → Ω → eng.G} {n : ℕ} {α R T γ : ℝ} {radii angles : Ω → List XR} {rng : Tree.Rng XR}

/-- C101, `T = 0`.  `n` points of the disk of radius `R` are drawn with parameter `α > 1/2` (ideal engines, independently started), then `generateEdges` is run
with temperature 0.  `d = hrgNodeDegree (n-1) α 0 R` is the leading term of the degree of a node at the boundary.  The probability that node `u` has degree at
least `K` is at most a constant times `(d/K)^(2α)`, up to a term that decreases exponentially with `K`; and it is at least a constant times
`min(1, d/(4K))^(2α)`, up to a term for the radii below `r₀`, where the leading term is not yet a good approximation.  So the degrees follow a power law with
exponent `2α + 1`. -/
theorem C101_threshold (hs : SampledPoints P omp eng μ σ device n α R radii angles) (hn : 2 ≤ n) (h31 : n < 2147483648)
    (hdisk : (2 / 3 ≤ R ∧ R ≤ 1) ∨ (4 / 3 ≤ R ∧ R ≤ 165 / 4)) (hαR : 1 ≤ (α - 1 / 2) * R)
    (env : Ω → HEnv) (hgeo : GeoBounded rng) (gens : Ω → ℕ → rng.G) {out : Ω → List (ℕ × ℕ)}
    (h : ∀ ω, HGenerateEdges (env ω) rng (gens ω) (radii ω) (angles ω) (fin 0) (fin R) (out ω)) {u : ℕ} (hu : u < n) {K : ℕ} (hK : 1 ≤ K) :
    P {ω | K ≤ degreeOf u (out ω)} ≤
      ENNReal.ofReal (slack α R * (6 * slack α R * hrgNodeDegree (n - 1) α 0 R / K) ^ (2 * α)) + ENNReal.ofReal (Real.exp (-K / 6)) ∧
    ∀ r₀ γ : ℝ, 0 ≤ r₀ → 1 ≤ γ → γ ≤ 2 → γ < 2 * α →
      1 / 2 ≤ 1 - 2.1 * Real.exp (-((α - 1 / 2) * R)) - 3 * nodeError α γ r₀ * slack α R →
      ENNReal.ofReal (((min 1 (hrgNodeDegree (n - 1) α 0 R / (4 * K))) ^ (2 * α) - 3 * Real.exp (-(α * (R - r₀)))) / 5) ≤
        P {ω | K ≤ degreeOf u (out ω)} := by
  have hR : 0 < R := by rcases hdisk with h | h <;> linarith
  have hα2 : 1 / 2 < α := by
    by_contra hc
    push Not at hc
    nlinarith
  have hα : 0 < α := by linarith
  have hαR' : 1 ≤ α * R := by nlinarith
  have hKR : (1 : ℝ) ≤ K := by exact_mod_cast hK
  obtain ⟨r, φ, hp, ho⟩ := sampled_random hs (by omega) hα hR hαR'
  haveI := hp.prob
  have hρ : ∀ ω, (radii ω)[u]? = some (fin (r ⟨u, hu⟩ ω)) := by
    intro ω
    rw [(ho ω).1, List.getElem?_ofFn, dif_pos hu]
  have hs1 := one_le_slack hαR'
  have hD := hrgNode_pos hn hα2 le_rfl one_pos R
  constructor
  · set z : ℝ := 6 * slack α R * hrgNodeDegree (n - 1) α 0 R / K with hz
    have hz0 : 0 < z := by positivity
    obtain ⟨e1, e2, _⟩ := power_radius (α := α) hD hz0
    have hb := (C99_threshold (γ := 1) hs hn h31 hdisk le_rfl (by norm_num) (by linarith) hαR env hgeo gens h hu hρ
      (measurableSet_Ioi (a := R + 2 * Real.log z)) (t := (K : ℝ) / 2) (by linarith)).1 (K / 2) (by linarith) fun s hsA _ _ => by
        have h1 := e2 s hsA
        rw [nodeError_one hα2]
        have h2 := mul_le_mul_of_nonneg_right h1 (show 0 ≤ (1 + 2 * 1) * slack α R by linarith)
        refine h2.trans (le_of_eq ?_)
        rw [hz]
        field_simp
        norm_num
    refine (measure_mono (t := {ω | r ⟨u, hu⟩ ω ≤ R + 2 * Real.log z} ∪
      {ω | r ⟨u, hu⟩ ω ∈ Set.Ioi (R + 2 * Real.log z) ∧ (K : ℝ) / 2 + K / 2 ≤ degreeOf u (out ω)}) fun ω hω => ?_).trans
      ((measure_union_le _ _).trans (add_le_add ?_ ?_))
    · rcases le_or_gt (r ⟨u, hu⟩ ω) (R + 2 * Real.log z) with h1 | h1
      · exact Or.inl h1
      · refine Or.inr ⟨h1, ?_⟩
        have : (K : ℝ) ≤ degreeOf u (out ω) := by exact_mod_cast hω
        linarith
    · have := radius_le hp hα hαR' ⟨u, hu⟩ (R + 2 * Real.log z)
      rwa [e1] at this
    · refine hb.trans ((mul_le_mul prob_le_one (ENNReal.ofReal_le_ofReal (power_upper_exp (by linarith))) bot_le bot_le).trans (le_of_eq (one_mul _)))
  · intro r₀ γ h0 hγ0 hγ hγα herr
    set z : ℝ := min 1 (hrgNodeDegree (n - 1) α 0 R / (4 * K)) with hz
    have hz0 : 0 < z := lt_min one_pos (by positivity)
    have hz1 : z ≤ 1 := min_le_left _ _
    have hz2 : 4 * K ≤ hrgNodeDegree (n - 1) α 0 R / z := by
      rw [le_div_iff₀ hz0]
      have : z ≤ hrgNodeDegree (n - 1) α 0 R / (4 * K) := min_le_right _ _
      rw [le_div_iff₀ (by linarith)] at this
      linarith
    obtain ⟨e1, _, e3⟩ := power_radius (α := α) hD hz0
    have hx : R + 2 * Real.log z ≤ R := by
      have := Real.log_nonpos hz0.le hz1
      linarith
    set A : Set ℝ := Set.Ioc r₀ (R + 2 * Real.log z) with hA
    have hb := (C99_threshold hs hn h31 hdisk hγ0 hγ hγα hαR env hgeo gens h hu hρ
      (measurableSet_Ioc (a := r₀) (b := R + 2 * Real.log z)) (t := (K : ℝ)) (by linarith)).2 (2 * K) (by linarith) fun s hsA _ _ => by
        have h1 := hz2.trans (e3 s hsA.2)
        obtain ⟨a1, a2⟩ := nodeError_anti (s := s) hγ0 hγα hsA.1.le
        have h2 : nodeError α γ s * slack α R ≤ nodeError α γ r₀ * slack α R := mul_le_mul_of_nonneg_right a1 (by linarith)
        calc 2 * (K : ℝ) = 4 * K * (1 / 2) := by ring
          _ ≤ _ := mul_le_mul h1 (by linarith) (by norm_num) (by linarith)
    have hlow := radius_ge hp hα hαR' ⟨u, hu⟩ h0 hx
    rw [e1] at hlow
    have hsub : {ω | r ⟨u, hu⟩ ω ∈ A} ⊆ {ω | K ≤ degreeOf u (out ω)} ∪ {ω | r ⟨u, hu⟩ ω ∈ A ∧ (degreeOf u (out ω) : ℝ) ≤ 2 * K - K} := by
      intro ω hω
      rcases le_or_gt K (degreeOf u (out ω)) with h1 | h1
      · exact Or.inl h1
      · refine Or.inr ⟨hω, ?_⟩
        have : (degreeOf u (out ω) : ℝ) ≤ K := by exact_mod_cast h1.le
        linarith
    have hfin : P {ω | r ⟨u, hu⟩ ω ∈ A} * (1 - ENNReal.ofReal (4 / 5)) ≤ P {ω | K ≤ degreeOf u (out ω)} := by
      rw [ENNReal.mul_sub (fun _ _ => measure_ne_top _ _), mul_one, tsub_le_iff_right]
      refine (measure_mono hsub).trans ((measure_union_le _ _).trans (add_le_add le_rfl (hb.trans ?_)))
      exact mul_le_mul le_rfl (ENNReal.ofReal_le_ofReal (power_lower_exp hKR)) bot_le bot_le
    refine le_trans ?_ hfin
    have e5 : (1 : ℝ≥0∞) - ENNReal.ofReal (4 / 5) = ENNReal.ofReal (1 / 5) := by
      rw [← ENNReal.ofReal_one, ← ENNReal.ofReal_sub _ (by norm_num)]
      norm_num
    rw [e5]
    refine le_trans (le_of_eq ?_) (mul_le_mul hlow le_rfl bot_le bot_le)
    rw [← ENNReal.ofReal_mul' (by norm_num)]
    congr 1
    ring

/-- C101, `2^-52 < T < 1`, same setting, but in an environment in which the call returns (C44), with ideal random numbers that are independent of the points.  The
leading term and the relative error are those of C96 for the temperature `T`. -/
theorem C101_expected (hs : SampledPoints P omp eng μ σ device n α R radii angles) (hn : 2 ≤ n) (h31 : n < 2147483648)
    (hdisk : (2 / 3 ≤ R ∧ R ≤ 1) ∨ (4 / 3 ≤ R ∧ R ≤ 165 / 4)) (hαR : 1 ≤ (α - 1 / 2) * R)
    (hT : 1 / 4503599627370496 < T) (hT1 : T < 1) (hfil : 2 * T * Real.log 99 ≤ R) (env : HEnv) [MeasurableSpace rng.G]
    {ν : Measure rng.G} (hr : IdealRng rng ν) (hur : UnitRng rng)
    (hret : env.threads = 1 ∨ ∃ L, HTree.firstParallelLevel XR env.threads = some L ∧
      Real.cosh R < hypCosh (R - 1) (Real.pi / 2 ^ (L - 1)) (R - 1) 0) {g : ℕ} (hg : 1 ≤ g)
    (hgens : env.threads ≠ 1 → ∃ L tasks, HTree.firstParallelLevel XR env.threads = some L ∧
      HTree.numTasks L = some tasks ∧ env.threads - 1 + tasks ≤ g)
    {u : ℕ} (hu : u < n) {K : ℕ} (hK : 1 ≤ K) :
    upperMean P (fun ω => hypEdgesProb env rng ν hg (radii ω) (angles ω) (fin T) (fin R) (incident u) fun k => K ≤ k) ≤
      ENNReal.ofReal (slack α R * (6 * slack α R * hrgNodeDegree (n - 1) α T R / K) ^ (2 * α)) + ENNReal.ofReal (Real.exp (-K / 6)) ∧
    ∀ r₀ γ : ℝ, 0 ≤ r₀ → 1 ≤ γ → γ ≤ 2 → γ < 2 * α → T * γ ≤ 1 →
      1 / 2 ≤ 1 - 2.1 * Real.exp (-((α - 1 / 2) * R)) - ((1 / 1000000) ^ (1 - T) / (1 - T) + 5 * nodeError α γ r₀) * slack α R →
      ENNReal.ofReal (((min 1 (hrgNodeDegree (n - 1) α T R / (4 * K))) ^ (2 * α) - 3 * Real.exp (-(α * (R - r₀)))) / 5) ≤
        ∫⁻ ω, hypEdgesProb env rng ν hg (radii ω) (angles ω) (fin T) (fin R) (incident u) (fun k => K ≤ k) ∂P := by
  have hR : 0 < R := by rcases hdisk with h | h <;> linarith
  have hT0 : 0 < T := lt_trans (by norm_num) hT
  have hα2 : 1 / 2 < α := by
    by_contra hc
    push Not at hc
    nlinarith
  have hα : 0 < α := by linarith
  have hαR' : 1 ≤ α * R := by nlinarith
  have hKR : (1 : ℝ) ≤ K := by exact_mod_cast hK
  obtain ⟨r, φ, hp, ho⟩ := sampled_random hs (by omega) hα hR hαR'
  haveI := hp.prob
  have hprobν := hr.prob
  have hρ : ∀ ω, (radii ω)[u]? = some (fin (r ⟨u, hu⟩ ω)) := by
    intro ω
    rw [(ho ω).1, List.getElem?_ofFn, dif_pos hu]
  have hs1 := one_le_slack hαR'
  have hD := hrgNode_pos hn hα2 hT0.le hT1 R
  constructor
  · set z : ℝ := 6 * slack α R * hrgNodeDegree (n - 1) α T R / K with hz
    have hz0 : 0 < z := by positivity
    obtain ⟨e1, e2, _⟩ := power_radius (α := α) hD hz0
    have hb := (C99_expected (γ := 1) hs hn h31 hdisk le_rfl (by norm_num) (by linarith) hαR hT hT1 (by linarith) hfil env hr hur hret hg hgens hu hρ
      (measurableSet_Ioi (a := R + 2 * Real.log z)) (t := (K : ℝ) / 2) (by linarith)).1 (K / 2) (by linarith) fun s hsA _ _ => by
        have h1 := e2 s hsA
        rw [nodeError_one hα2]
        have h2 := mul_le_mul_of_nonneg_right h1 (show 0 ≤ (1 + 2 * 1) * slack α R by linarith)
        refine h2.trans (le_of_eq ?_)
        rw [hz]
        field_simp
        norm_num
    have hms : MeasurableSet {ω | r ⟨u, hu⟩ ω ≤ R + 2 * Real.log z} := measurableSet_le (hp.measR _) measurable_const
    refine (upperMean_split hms fun ω => prob_le_one (μ := Measure.pi fun _ : Fin g => ν)).trans (add_le_add ?_ ?_)
    · have := radius_le hp hα hαR' ⟨u, hu⟩ (R + 2 * Real.log z)
      rwa [e1] at this
    · have ec : {ω | r ⟨u, hu⟩ ω ≤ R + 2 * Real.log z}ᶜ = {ω | r ⟨u, hu⟩ ω ∈ Set.Ioi (R + 2 * Real.log z)} := by
        ext ω; simp
      rw [ec]
      refine le_trans (upperMean_mono fun ω => measure_mono ?_)
        (hb.trans ((mul_le_mul prob_le_one (ENNReal.ofReal_le_ofReal (power_upper_exp (by linarith))) bot_le bot_le).trans (le_of_eq (one_mul _))))
      rintro st ⟨out, h1, h2⟩
      have h3 : (K : ℝ) ≤ edgesIn (incident u) out := by exact_mod_cast h2
      exact ⟨out, h1, by linarith⟩
  · intro r₀ γ h0 hγ0 hγ hγα hTγ herr
    set z : ℝ := min 1 (hrgNodeDegree (n - 1) α T R / (4 * K)) with hz
    have hz0 : 0 < z := lt_min one_pos (by positivity)
    have hz1 : z ≤ 1 := min_le_left _ _
    have hz2 : 4 * K ≤ hrgNodeDegree (n - 1) α T R / z := by
      rw [le_div_iff₀ hz0]
      have : z ≤ hrgNodeDegree (n - 1) α T R / (4 * K) := min_le_right _ _
      rw [le_div_iff₀ (by linarith)] at this
      linarith
    obtain ⟨e1, _, e3⟩ := power_radius (α := α) hD hz0
    have hx : R + 2 * Real.log z ≤ R := by
      have := Real.log_nonpos hz0.le hz1
      linarith
    have hb := (C99_expected hs hn h31 hdisk hγ0 hγ hγα hαR hT hT1 hTγ hfil env hr hur hret hg hgens hu hρ
      (measurableSet_Ioc (a := r₀) (b := R + 2 * Real.log z)) (t := (K : ℝ)) (by linarith)).2 (2 * K) (by linarith) fun s hsA _ _ => by
        have h1 := hz2.trans (e3 s hsA.2)
        obtain ⟨a1, a2⟩ := nodeError_anti (s := s) hγ0 hγα hsA.1.le
        have h2 : ((1 / 1000000) ^ (1 - T) / (1 - T) + 5 * nodeError α γ s) * slack α R ≤
            ((1 / 1000000) ^ (1 - T) / (1 - T) + 5 * nodeError α γ r₀) * slack α R := mul_le_mul_of_nonneg_right (by linarith) (by linarith)
        calc 2 * (K : ℝ) = 4 * K * (1 / 2) := by ring
          _ ≤ _ := mul_le_mul h1 (by linarith) (by norm_num) (by linarith)
    have hlow := radius_ge hp hα hαR' ⟨u, hu⟩ h0 hx
    rw [e1] at hlow
    have hms : MeasurableSet {ω | r ⟨u, hu⟩ ω ∈ Set.Ioc r₀ (R + 2 * Real.log z)} := row_sets hp ⟨u, hu⟩ measurableSet_Ioc
    have hfin := lintegral_ge_of_compl (P := P) hms (f := fun ω => hypEdgesProb env rng ν hg (radii ω) (angles ω) (fin T) (fin R) (incident u) (fun k => K ≤ k))
      (g := fun ω => hypEdgesProb env rng ν hg (radii ω) (angles ω) (fin T) (fin R) (incident u) (fun k => (k : ℝ) ≤ 2 * K - K)) (q := ENNReal.ofReal (4 / 5))
      (fun ω _ => by
        have h1 := hypEdgesProb_compl (random_input hp (by omega) h31 hT0.le hdisk ω) env hr hur hret hg (incident u) fun k => K ≤ k
        rw [← xw_ofFn, ← xw_ofFn, ← (ho ω).1, ← (ho ω).2] at h1
        refine h1.trans (add_le_add le_rfl (measure_mono ?_))
        rintro st ⟨out, h2, h3⟩
        push Not at h3
        have h4 : (edgesIn (incident u) out : ℝ) ≤ K := by exact_mod_cast h3.le
        exact ⟨out, h2, by linarith⟩)
      (hb.trans (mul_le_mul le_rfl (ENNReal.ofReal_le_ofReal (power_lower_exp hKR)) bot_le bot_le))
    refine le_trans ?_ hfin
    have e5 : (1 : ℝ≥0∞) - ENNReal.ofReal (4 / 5) = ENNReal.ofReal (1 / 5) := by
      rw [← ENNReal.ofReal_one, ← ENNReal.ofReal_sub _ (by norm_num)]
      norm_num
    rw [e5]
    refine le_trans (le_of_eq ?_) (mul_le_mul hlow le_rfl bot_le bot_le)
    rw [← ENNReal.ofReal_mul' (by norm_num)]
    congr 1
    ring

end Random

/-! ### the bounds at work -/

theorem exp_neg_between {k : ℕ} {a b : ℝ} (ha : a * 2.7182818286 ^ k ≤ 1) (hb : 1 ≤ b * 2.7182818283 ^ k) (ha0 : 0 ≤ a) (hb0 : 0 ≤ b) :
    a ≤ Real.exp (-k) ∧ Real.exp (-k) ≤ b := by
  have e1 := Real.exp_one_gt_d9
  have e2 := Real.exp_one_lt_d9
  have h1 : Real.exp k = Real.exp 1 ^ k := by rw [← Real.exp_nat_mul]; simp
  have h2 : (2.7182818283 : ℝ) ^ k ≤ Real.exp k := by rw [h1]; exact pow_le_pow_left₀ (by norm_num) (by linarith) k
  have h3 : Real.exp k ≤ (2.7182818286 : ℝ) ^ k := by rw [h1]; exact pow_le_pow_left₀ (Real.exp_pos _).le (by linarith) k
  have h4 := Real.exp_pos (k : ℝ)
  rw [Real.exp_neg, ← one_div]
  constructor
  · rw [le_div_iff₀ h4]
    exact (mul_le_mul_of_nonneg_left h3 ha0).trans ha
  · rw [div_le_iff₀ h4]
    exact hb.trans (mul_le_mul_of_nonneg_left h2 hb0)

theorem example_tail {K : ℝ} (hK : 100 ≤ K) : Real.exp (-K / 6) ≤ 1 / K ^ 2 := by
  have h := Real.pow_div_factorial_le_exp (K / 6) (by linarith) 5
  rw [show -K / 6 = -(K / 6) by ring, Real.exp_neg, one_div]
  refine inv_anti₀ (by positivity) (le_trans ?_ h)
  rw [show ((Nat.factorial 5 : ℕ) : ℝ) = 120 by norm_num [Nat.factorial], le_div_iff₀ (by norm_num)]
  have h1 : (100 : ℝ) ^ 3 ≤ K ^ 3 := pow_le_pow_left₀ (by norm_num) hK 3
  have h2 : (0 : ℝ) ≤ K ^ 2 := by positivity
  nlinarith

theorem example_power_terms : slack 1 36 ≤ 1.00001 ∧ 19.3 ≤ hrgNodeDegree (((1000000000 : ℕ) : ℝ) - 1) 1 0 36 ∧ hrgNodeDegree (((1000000000 : ℕ) : ℝ) - 1) 1 0 36 ≤ 19.5 ∧
    30.4 ≤ hrgNodeDegree (((1000000000 : ℕ) : ℝ) - 1) 1 (1 / 2) 36 ∧ hrgNodeDegree (((1000000000 : ℕ) : ℝ) - 1) 1 (1 / 2) 36 ≤ 30.5 ∧
    1 / 2 ≤ 1 - 2.1 * Real.exp (-((1 - 1 / 2) * 36)) - 3 * nodeError 1 (7 / 4) 9 * slack 1 36 ∧
    1 / 2 ≤ 1 - 2.1 * Real.exp (-((1 - 1 / 2) * 36)) - ((1 / 1000000) ^ ((1 : ℝ) - 1 / 2) / (1 - 1 / 2) + 5 * nodeError 1 (7 / 4) 10) * slack 1 36 ∧
    3 * Real.exp (-(1 * (36 - 9))) ≤ 6 / 1000000000000 ∧ 3 * Real.exp (-(1 * (36 - 10))) ≤ 16 / 1000000000000 := by
  obtain ⟨a1, a2⟩ := exp_neg_between (k := 18) (a := 1.522e-8) (b := 1.524e-8) (by norm_num) (by norm_num) (by norm_num) (by norm_num)
  obtain ⟨_, b2⟩ := exp_neg_between (k := 36) (a := 0) (b := 1e-6) (by norm_num) (by norm_num) (by norm_num) (by norm_num)
  obtain ⟨_, c2⟩ := exp_neg_between (k := 27) (a := 0) (b := 2e-12) (by norm_num) (by norm_num) (by norm_num) (by norm_num)
  obtain ⟨_, d2⟩ := exp_neg_between (k := 26) (a := 0) (b := 5.2e-12) (by norm_num) (by norm_num) (by norm_num) (by norm_num)
  push_cast at a1 a2 b2 c2 d2
  have p1 := Real.pi_gt_d4
  have p2 := Real.pi_lt_d4
  have hx : xi 1 = 2 := by unfold xi; norm_num
  have hs : Real.sin (Real.pi * (1 / 2)) = 1 := by rw [mul_one_div, Real.sin_pi_div_two]
  have d0 : hrgNodeDegree (((1000000000 : ℕ) : ℝ) - 1) 1 0 36 = 3999999996 * Real.exp (-18) / Real.pi := by
    unfold hrgNodeDegree; rw [hx, if_pos rfl, show (-36 : ℝ) / 2 = -18 by norm_num]; push_cast; ring
  have d1 : hrgNodeDegree (((1000000000 : ℕ) : ℝ) - 1) 1 (1 / 2) 36 = 1999999998 * Real.exp (-18) := by
    unfold hrgNodeDegree; rw [hx, if_neg (by norm_num), hs, show (-36 : ℝ) / 2 = -18 by norm_num]; push_cast; field_simp; norm_num
  have hsl : slack 1 36 ≤ 1.00001 := by
    unfold slack
    rw [one_mul, div_le_iff₀ (by linarith)]
    linarith
  have hs0 : 0 ≤ slack 1 36 := zero_le_one.trans (one_le_slack (by norm_num))
  have ne : ∀ r : ℝ, nodeError 1 (7 / 4) r = 4 * Real.exp (-(3 / 8 * r)) := by
    intro r
    unfold nodeError kappa
    rw [show ((1 : ℝ) - 1 / 2) / (1 - 7 / 4 / 2) = 4 by norm_num, show (7 / 4 - 1) * r / 2 = 3 / 8 * r by ring]
  have n9 : Real.exp (-(3 / 8 * 9)) ≤ 0.0345 := by
    have h : Real.exp (-(3 / 8 * 9)) ^ 8 = Real.exp (-27) := by rw [← Real.exp_nat_mul]; norm_num
    have h2 : Real.exp (-(3 / 8 * 9)) ^ 8 ≤ 0.0345 ^ 8 := by rw [h]; refine c2.trans (by norm_num)
    exact le_of_pow_le_pow_left₀ (by norm_num) (by norm_num) h2
  have n10 : Real.exp (-(3 / 8 * 10)) ≤ 0.0240 := by
    obtain ⟨_, g2⟩ := exp_neg_between (k := 15) (a := 0) (b := 3.1e-7) (by norm_num) (by norm_num) (by norm_num) (by norm_num)
    push_cast at g2
    have h : Real.exp (-(3 / 8 * 10)) ^ 4 = Real.exp (-15) := by rw [← Real.exp_nat_mul]; norm_num
    have h2 : Real.exp (-(3 / 8 * 10)) ^ 4 ≤ 0.0240 ^ 4 := by rw [h]; refine g2.trans (by norm_num)
    exact le_of_pow_le_pow_left₀ (by norm_num) (by norm_num) h2
  have hsq : (1 / 1000000 : ℝ) ^ ((1 : ℝ) - 1 / 2) = 1 / 1000 := by
    rw [show (1 : ℝ) - 1 / 2 = 1 / 2 by norm_num, ← Real.sqrt_eq_rpow, show (1 / 1000000 : ℝ) = (1 / 1000) ^ 2 by norm_num, Real.sqrt_sq (by norm_num)]
  rw [show (-((1 - 1 / 2) * 36) : ℝ) = -18 by norm_num, show (-(1 * (36 - 9)) : ℝ) = -27 by norm_num, show (-(1 * (36 - 10)) : ℝ) = -26 by norm_num]
  refine ⟨hsl, ?_, ?_, ?_, ?_, ?_, ?_, ?_, ?_⟩
  · rw [d0, le_div_iff₀ Real.pi_pos]; nlinarith
  · rw [d0, div_le_iff₀ Real.pi_pos]; nlinarith
  · rw [d1]; nlinarith
  · rw [d1]; nlinarith
  · rw [ne]
    have : 3 * (4 * Real.exp (-(3 / 8 * 9))) * slack 1 36 ≤ 3 * (4 * 0.0345) * 1.00001 := mul_le_mul (by linarith) hsl hs0 (by norm_num)
    linarith
  · rw [ne, hsq]
    have : (1 / 1000 / (1 - 1 / 2) + 5 * (4 * Real.exp (-(3 / 8 * 10)))) * slack 1 36 ≤ (1 / 1000 / (1 - 1 / 2) + 5 * (4 * 0.0240)) * 1.00001 :=
      mul_le_mul (by linarith) hsl hs0 (by norm_num)
    norm_num at this ⊢
    linarith
  · linarith
  · linarith

theorem example_power_upper {s d c K b : ℝ} (hs0 : 1 ≤ s) (hs : s ≤ 1.00001) (hd0 : 0 < d) (hd : d ≤ c) (hK : 100 ≤ K) (hb : 36.01 * c ^ 2 + 1 ≤ b) :
    ENNReal.ofReal (s * (6 * s * d / K) ^ (2 * 1 : ℝ)) + ENNReal.ofReal (Real.exp (-K / 6)) ≤ ENNReal.ofReal (b / K ^ 2) := by
  have hKp : 0 < K := by linarith
  rw [← ENNReal.ofReal_add (by positivity) (Real.exp_pos _).le]
  refine ENNReal.ofReal_le_ofReal ?_
  have e : (6 * s * d / K) ^ (2 * 1 : ℝ) = 36 * s ^ 2 * d ^ 2 / K ^ 2 := by
    rw [show (2 * 1 : ℝ) = ((2 : ℕ) : ℝ) by norm_num, Real.rpow_natCast, div_pow]
    ring
  rw [e]
  have h1 := example_tail hK
  have h2 : s * (36 * s ^ 2 * d ^ 2 / K ^ 2) ≤ 36.01 * c ^ 2 / K ^ 2 := by
    rw [← mul_div_assoc]
    refine div_le_div_of_nonneg_right ?_ (by positivity)
    have h3 : s ^ 3 ≤ 1.00001 ^ 3 := pow_le_pow_left₀ (by linarith) hs 3
    have h4 : d ^ 2 ≤ c ^ 2 := pow_le_pow_left₀ hd0.le hd 2
    calc s * (36 * s ^ 2 * d ^ 2) = 36 * s ^ 3 * d ^ 2 := by ring
      _ ≤ 36 * 1.00001 ^ 3 * c ^ 2 := mul_le_mul (by linarith) h4 (by positivity) (by norm_num)
      _ ≤ 36.01 * c ^ 2 := mul_le_mul_of_nonneg_right (by norm_num) (by positivity)
  have h5 : 36.01 * c ^ 2 / K ^ 2 + 1 / K ^ 2 ≤ b / K ^ 2 := by
    rw [← add_div]
    exact div_le_div_of_nonneg_right hb (by positivity)
  linarith

theorem example_power_lower {d c e q K b : ℝ} (hd : c ≤ d) (hc : 0 ≤ c) (hdK : d ≤ 4 * K) (hK0 : 0 < K) (hK : K ≤ 1000000) (he : e ≤ q / 1000000000000) (hq : 0 ≤ q)
    (hb : b ≤ (c ^ 2 / 16 - q) / 5) : ENNReal.ofReal (b / K ^ 2) ≤ ENNReal.ofReal (((min 1 (d / (4 * K))) ^ (2 * 1 : ℝ) - e) / 5) := by
  refine ENNReal.ofReal_le_ofReal ?_
  rw [min_eq_right (by rw [div_le_one (by linarith)]; exact hdK), show (2 * 1 : ℝ) = ((2 : ℕ) : ℝ) by norm_num, Real.rpow_natCast, div_pow]
  have h1 : e ≤ q / K ^ 2 := by
    refine he.trans (div_le_div_of_nonneg_left hq (by positivity) ?_)
    have := pow_le_pow_left₀ hK0.le hK 2
    norm_num at this ⊢
    exact this
  have h2 : c ^ 2 / 16 / K ^ 2 ≤ d ^ 2 / (4 * K) ^ 2 := by
    rw [div_div, mul_pow, show (4 : ℝ) ^ 2 = 16 by norm_num]
    exact div_le_div_of_nonneg_right (pow_le_pow_left₀ hc hd 2) (by positivity)
  have h3 : b / K ^ 2 ≤ (c ^ 2 / 16 - q) / 5 / K ^ 2 := div_le_div_of_nonneg_right hb (by positivity)
  have h4 : (c ^ 2 / 16 - q) / 5 / K ^ 2 = (c ^ 2 / 16 / K ^ 2 - q / K ^ 2) / 5 := by ring
  linarith

/-- `C101_threshold`: a billion nodes, `α = 1` (power law exponent 3), `R = 36`, `T = 0`.  For all `K` from 100 to a million the probability that node 7 has degree
at least `K` is between `3/K²` and `14000/K²`. -/
example : ∃ (radii angles : (ℤ → ℕ → ℝ) → List XR) (out : (ℤ → ℕ → ℝ) → List (ℕ × ℕ)) (P : Measure (ℤ → ℕ → ℝ)),
    P = (Measure.infinitePi fun _ : ℤ => seqMeasure) ∧
    (∀ ω, HGenerateEdges (exampleHEnv true 1 (by norm_num) (by norm_num)) idealRng (fun _ _ => 0) (radii ω) (angles ω) (fin 0) (fin 36) (out ω)) ∧
    ∀ K : ℕ, 100 ≤ K → K ≤ 1000000 → ENNReal.ofReal (3 / K ^ 2) ≤ P {ω | K ≤ degreeOf 7 (out ω)} ∧
      P {ω | K ≤ degreeOf 7 (out ω)} ≤ ENNReal.ofReal (14000 / K ^ 2) := by
  obtain ⟨radii, angles, hs⟩ := exampleSampled (n := 1000000000) (by norm_num) (α := 1) (R := 36) one_pos (by norm_num)
  obtain ⟨ρ, φ, hp, ho⟩ := sampled_random hs (by norm_num) one_pos (by norm_num) (by norm_num)
  have hex : ∀ ω, ∃ out, HGenerateEdges (exampleHEnv true 1 (by norm_num) (by norm_num)) idealRng (fun _ _ => 0) (radii ω) (angles ω) (fin 0) (fin 36) out := by
    intro ω
    rw [(ho ω).1, (ho ω).2, xw_ofFn, xw_ofFn]
    exact (C44_returns_iff (random_input hp (by norm_num) (by norm_num) le_rfl (Or.inr (by norm_num)) ω) _ _ idealRng_unit _).2 (Or.inl rfl)
  choose out hout using hex
  refine ⟨radii, angles, out, _, rfl, hout, fun K h1 h2 => ?_⟩
  have h1R : (100 : ℝ) ≤ K := by exact_mod_cast h1
  have h2R : (K : ℝ) ≤ 1000000 := by exact_mod_cast h2
  obtain ⟨s1, d1, d2, _, _, f1, _, g1, _⟩ := example_power_terms
  obtain ⟨hup, hlow⟩ := C101_threshold (n := 1000000000) (α := 1) hs (by norm_num) (by norm_num) (Or.inr (by norm_num)) (by norm_num) _ idealRng_unit.geo _ hout
    (u := 7) (by norm_num) (K := K) (by omega)
  refine ⟨le_trans ?_ (hlow 9 (7 / 4) (by norm_num) (by norm_num) (by norm_num) (by norm_num) f1), hup.trans ?_⟩
  · exact example_power_lower d1 (by norm_num) (d2.trans (by linarith)) (by linarith) h2R g1 (by norm_num) (by norm_num)
  · exact example_power_upper (one_le_slack (by norm_num)) s1 (lt_of_lt_of_le (by norm_num) d1) d2 h1R (by norm_num)

/-- `C101_expected`: the same at temperature 1/2: between `8/K²` and `34000/K²` -/
example : ∃ (radii angles : (ℤ → ℕ → ℝ) → List XR) (P : Measure (ℤ → ℕ → ℝ)), P = (Measure.infinitePi fun _ : ℤ => seqMeasure) ∧
    ∀ K : ℕ, 100 ≤ K → K ≤ 1000000 →
      ENNReal.ofReal (8 / K ^ 2) ≤ ∫⁻ ω, hypEdgesProb (exampleHEnv true 1 (by norm_num) (by norm_num)) idealRng seqMeasure le_rfl
        (radii ω) (angles ω) (fin (1 / 2)) (fin 36) (incident 7) (fun k => K ≤ k) ∂P ∧
      upperMean P (fun ω => hypEdgesProb (exampleHEnv true 1 (by norm_num) (by norm_num)) idealRng seqMeasure le_rfl
        (radii ω) (angles ω) (fin (1 / 2)) (fin 36) (incident 7) fun k => K ≤ k) ≤ ENNReal.ofReal (34000 / K ^ 2) := by
  obtain ⟨radii, angles, hs⟩ := exampleSampled (n := 1000000000) (by norm_num) (α := 1) (R := 36) one_pos (by norm_num)
  have hlog : Real.log 99 ≤ 36 := by
    have h2 : Real.log 99 < 5 := by
      rw [Real.log_lt_iff_lt_exp (by norm_num), show (5 : ℝ) = ((5 : ℕ) : ℝ) * 1 by norm_num, Real.exp_nat_mul]
      have h1 := Real.exp_one_gt_d9
      have h4 : (2.7 : ℝ) ^ 5 ≤ Real.exp 1 ^ 5 := pow_le_pow_left₀ (by norm_num) (by linarith) 5
      have h5 : (99 : ℝ) < 2.7 ^ 5 := by norm_num
      exact h5.trans_le h4
    linarith
  refine ⟨radii, angles, _, rfl, fun K h1 h2 => ?_⟩
  have h1R : (100 : ℝ) ≤ K := by exact_mod_cast h1
  have h2R : (K : ℝ) ≤ 1000000 := by exact_mod_cast h2
  obtain ⟨s1, _, _, d1, d2, _, f1, _, g1⟩ := example_power_terms
  obtain ⟨hup, hlow⟩ := C101_expected (n := 1000000000) (α := 1) (T := 1 / 2) hs (by norm_num) (by norm_num) (Or.inr (by norm_num)) (by norm_num) (by norm_num)
    (by norm_num) (by linarith) (exampleHEnv true 1 (by norm_num) (by norm_num)) idealRng_ideal idealRng_unit (Or.inl rfl) le_rfl (fun h => absurd rfl h)
    (u := 7) (by norm_num) (K := K) (by omega)
  refine ⟨le_trans ?_ (hlow 10 (7 / 4) (by norm_num) (by norm_num) (by norm_num) (by norm_num) (by norm_num) f1), hup.trans ?_⟩
  · exact example_power_lower d1 (by norm_num) (d2.trans (by linarith)) (by linarith) h2R g1 (by norm_num) (by norm_num)
  · exact example_power_upper (one_le_slack (by norm_num)) s1 (lt_of_lt_of_le (by norm_num) d1) d2 h1R (by norm_num)

end Girgs.Props
