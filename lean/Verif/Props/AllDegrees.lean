import Verif.Proofs.AllNodes
/-
C108: all degrees of a graph at the same time, and its maximum degree.
-/
namespace Girgs.Props
open CFloat Spec MeasureTheory ProbabilityTheory Tree Scaling
open XR (fin)
open scoped ENNReal

section Positions
variable {Ω : Type} [MeasurableSpace Ω] {P : Measure Ω} {omp : Omp} {eng : Engine XR} [MeasurableSpace eng.G] {μ : Measure eng.G}
  {σ : ℤ → Ω → eng.G} {device : ℕ → Ω → eng.G} {n : ℕ} {seed : ℤ} {parallel : Bool} {D : ℕ} {w : List ℝ} {pos : Ω → List (List XR)}
  {rng : Rng XR} [MeasurableSpace rng.G] {ν : Measure rng.G}

/-- from one node to all nodes -/
theorem all_of_each {alpha : XR} (env : Env) {N : ℕ} {mean low : Fin N → ℝ} (hM : ∀ u, 0 ≤ mean u) (hlow : ∀ u, low u ≤ mean u) {L : ℝ} (hL : 0 ≤ L)
    (h : ∀ (u : Fin N) (t : ℝ), 0 ≤ t → upperMean P (fun ω => edgesProb env rng ν (xw w) (pos ω) alpha (incident u) fun k => mean u + t ≤ k) ≤
        ENNReal.ofReal (Real.exp (-(t ^ 2 / (2 * (mean u + t / 3))))) ∧
      upperMean P (fun ω => edgesProb env rng ν (xw w) (pos ω) alpha (incident u) fun k => (k : ℝ) ≤ low u - t) ≤
        ENNReal.ofReal (Real.exp (-(t ^ 2 / (2 * mean u))))) :
    upperMean P (fun ω => graphProb env rng ν (xw w) (pos ω) alpha fun out => ∃ u : Fin N,
        (degreeOf u out : ℝ) < low u - √(2 * mean u * L) ∨ mean u + √(2 * mean u * L) + 2 * L / 3 < degreeOf u out) ≤ ENNReal.ofReal (2 * N * Real.exp (-L)) := by
  refine (upperMean_mono fun ω => graphProb_union env rng ν (xw w) (pos ω) alpha (n := N)
    (Q := fun u k => (k : ℝ) < low u - √(2 * mean u * L) ∨ mean u + √(2 * mean u * L) + 2 * L / 3 < k) fun out h => h).trans ?_
  refine (upperMean_sum _ _).trans ?_
  have key : ∀ u : Fin N, upperMean P (fun ω => edgesProb env rng ν (xw w) (pos ω) alpha (incident u) fun k =>
      (k : ℝ) < low u - √(2 * mean u * L) ∨ mean u + √(2 * mean u * L) + 2 * L / 3 < k) ≤ ENNReal.ofReal (2 * Real.exp (-L)) := by
    intro u
    have hs := Real.sqrt_nonneg (2 * mean u * L)
    have hb : upperMean P (fun ω => edgesProb env rng ν (xw w) (pos ω) alpha (incident u) fun k => (k : ℝ) < low u - √(2 * mean u * L)) ≤ ENNReal.ofReal (Real.exp (-L)) := by
      rcases (hM u).eq_or_lt with h0 | h0
      · refine (upperMean_le (F := fun _ => 0) measurable_const fun ω => ?_).trans (by simp)
        unfold edgesProb
        rw [nonpos_iff_eq_zero, ← measure_empty (μ := Measure.pi fun _ : Fin env.threads => ν)]
        congr 1
        ext g
        simp only [Set.mem_setOf_eq, Set.mem_empty_iff_false, iff_false]
        rintro ⟨out, notice, _, hq⟩
        have h1 := hlow u
        rw [← h0] at h1
        have h2 : (0 : ℝ) ≤ edgesIn (incident u) out := Nat.cast_nonneg _
        linarith
      · exact (upperMean_mono fun ω => edgesProb_mono fun k hk => hk.le).trans (((h u _ hs).2).trans (ENNReal.ofReal_le_ofReal (deviation_low h0 hL)))
    have ha := (upperMean_mono fun ω => edgesProb_mono (env := env) (rng := rng) (μ := ν) (w := xw w) (x := pos ω) (a := alpha) (A := incident u)
        (Q := fun k => mean u + √(2 * mean u * L) + 2 * L / 3 < k) (Q' := fun k => mean u + (√(2 * mean u * L) + 2 * L / 3) ≤ k) fun k hk => by linarith).trans
      (((h u (√(2 * mean u * L) + 2 * L / 3) (by positivity)).1).trans (ENNReal.ofReal_le_ofReal (deviation_exp (hM u) hL)))
    rw [two_mul (Real.exp (-L)), ENNReal.ofReal_add (Real.exp_pos _).le (Real.exp_pos _).le]
    refine le_trans (upperMean_mono fun ω => ?_) ((upperMean_add _ _).trans (add_le_add hb ha))
    unfold edgesProb
    refine le_trans (measure_mono ?_) (measure_union_le _ _)
    rintro g ⟨out, notice, h1, h2 | h2⟩
    · exact Or.inl ⟨out, notice, h1, h2⟩
    · exact Or.inr ⟨out, notice, h1, h2⟩
  refine (Finset.sum_le_sum fun u _ => key u).trans (le_of_eq ?_)
  rw [Finset.sum_const, Finset.card_univ, Fintype.card_fin, nsmul_eq_mul, ← ENNReal.ofReal_natCast, ← ENNReal.ofReal_mul (Nat.cast_nonneg _)]
  congr 1
  ring

/-- C108, `alpha = infinity`.  `n` positions are drawn by `generatePositions` (ideal engines, independently started), then `generateEdges` is run on weights `w`
(ideal random numbers).  Let `mean u` be the expected degree of `u`, the sum over the other nodes `v` of `min(1, 2^D w_u w_v / W)`.  Except with probability
`2 n exp(-L)`, the degrees of all nodes `u` at the same time are between `mean u - √(2 (mean u) L)` and `mean u + √(2 (mean u) L) + 2L/3`. -/
theorem C108_all_threshold (he : IdealEngine eng μ)
    (hs : (0 ≤ seed ∧ seed + nodeThreads omp n parallel ≤ 2147483648 ∧ IndependentStates P μ σ) ∨ (seed < 0 ∧ IndependentStates P μ device))
    (hpos : ∀ ω, GeneratePositions omp (withSeeds eng fun s => σ s ω) (fun k => device k ω) n D seed parallel (pos ω))
    (hr : IdealRng rng ν) (env : Env) (hw : SupportedWeights D w) (hn : w.length = n)
    {mean : Fin w.length → ℝ} (hmean : ∀ u, mean u = ∑ v : Fin w.length, if u = v then 0 else min 1 (2 ^ D * (w[u] * w[v] / w.sum))) {L : ℝ} (hL : 0 ≤ L) :
    upperMean P (fun ω => graphProb env rng ν (xw w) (pos ω) .pinf fun out => ∃ u : Fin w.length,
      (degreeOf u out : ℝ) < mean u - √(2 * mean u * L) ∨ mean u + √(2 * mean u * L) + 2 * L / 3 < degreeOf u out) ≤ ENNReal.ofReal (2 * n * Real.exp (-L)) := by
  have s0 : SupportedInput D w (List.replicate w.length fun _ => 0) := hw _ (by simp) (by
    intro p hp d
    rw [List.eq_of_mem_replicate hp]; norm_num)
  have hM : ∀ u, 0 ≤ mean u := by
    intro u
    rw [hmean]
    refine Finset.sum_nonneg fun v _ => ?_
    split_ifs
    · exact le_rfl
    · have : 0 < w[u.1] * w[v.1] / w.sum := div_pos (mul_pos (s0.wpos _ (List.getElem_mem _)) (s0.wpos _ (List.getElem_mem _)))
        (List.sum_pos w s0.wpos (by rintro rfl; exact absurd u.2 (by simp)))
      exact le_min zero_le_one (mul_nonneg (by positivity) this.le)
  refine (all_of_each env (low := mean) hM (fun _ => le_rfl) hL fun u t ht => ?_).trans (le_of_eq (by rw [hn]))
  exact C98_threshold he hs hpos hr env hw hn u (hmean u) ht

/-- C108, finite `alpha = a > 0`, same setting; `mean u` is the sum of the mean connection probabilities of `u` with the other nodes.  Except with probability
`2 n exp(-L)`, the degrees of all nodes `u` at the same time are between `mean u - 10^-6*(n-1) - √(2 (mean u) L)` and `mean u + √(2 (mean u) L) + 2L/3`;
for `a > 1` also with the lower end `(1 - a/(a-1) * 10^(-6(1-1/a))) (mean u) - √(2 (mean u) L)`. -/
theorem C108_all_alpha (he : IdealEngine eng μ)
    (hs : (0 ≤ seed ∧ seed + nodeThreads omp n parallel ≤ 2147483648 ∧ IndependentStates P μ σ) ∨ (seed < 0 ∧ IndependentStates P μ device))
    (hpos : ∀ ω, GeneratePositions omp (withSeeds eng fun s => σ s ω) (fun k => device k ω) n D seed parallel (pos ω))
    (hr : IdealRng rng ν) (env : Env) (hw : SupportedWeights D w) (hn : w.length = n) {a : ℝ} (ha : 0 < a)
    {mean : Fin w.length → ℝ} (hmean : ∀ u, mean u = ∑ v : Fin w.length, if u = v then 0 else meanConnection a (2 ^ D * (w[u] * w[v] / w.sum)))
    {L : ℝ} (hL : 0 ≤ L) :
    upperMean P (fun ω => graphProb env rng ν (xw w) (pos ω) (fin a) fun out => ∃ u : Fin w.length,
      (degreeOf u out : ℝ) < mean u - (n - 1) / 1000000 - √(2 * mean u * L) ∨ mean u + √(2 * mean u * L) + 2 * L / 3 < degreeOf u out) ≤
        ENNReal.ofReal (2 * n * Real.exp (-L)) ∧
    (1 < a → upperMean P (fun ω => graphProb env rng ν (xw w) (pos ω) (fin a) fun out => ∃ u : Fin w.length,
      (degreeOf u out : ℝ) < (1 - a / (a - 1) * (1 / 1000000 : ℝ) ^ (1 - 1 / a)) * mean u - √(2 * mean u * L) ∨
        mean u + √(2 * mean u * L) + 2 * L / 3 < degreeOf u out) ≤ ENNReal.ofReal (2 * n * Real.exp (-L))) := by
  have s0 : SupportedInput D w (List.replicate w.length fun _ => 0) := hw _ (by simp) (by
    intro p hp d
    rw [List.eq_of_mem_replicate hp]; norm_num)
  have hM : ∀ u, 0 ≤ mean u := by
    intro u
    rw [hmean]
    refine Finset.sum_nonneg fun v _ => ?_
    split_ifs
    · exact le_rfl
    · have : 0 < w[u.1] * w[v.1] / w.sum := div_pos (mul_pos (s0.wpos _ (List.getElem_mem _)) (s0.wpos _ (List.getElem_mem _)))
        (List.sum_pos w s0.wpos (by rintro rfl; exact absurd u.2 (by simp)))
      exact (meanConnection_mem ha (mul_pos (by positivity) this)).1
  have hn1 : (1 : ℝ) ≤ n := by
    have := s0.pos
    have h2 : 1 ≤ n := by omega
    exact_mod_cast h2
  constructor
  · refine (all_of_each env (low := fun u => mean u - (n - 1) / 1000000) hM (fun u => ?_) hL fun u t ht => ?_).trans (le_of_eq (by rw [hn]))
    · have : 0 ≤ ((n : ℝ) - 1) / 1000000 := div_nonneg (by linarith) (by norm_num)
      linarith
    · obtain ⟨h1, h2, _⟩ := C98_alpha he hs hpos hr env hw hn ha u (hmean u) ht
      exact ⟨h1, h2⟩
  · intro ha1
    refine (all_of_each env (low := fun u => (1 - a / (a - 1) * (1 / 1000000 : ℝ) ^ (1 - 1 / a)) * mean u) hM (fun u => ?_) hL fun u t ht => ?_).trans
      (le_of_eq (by rw [hn]))
    · have : 0 ≤ a / (a - 1) * (1 / 1000000 : ℝ) ^ (1 - 1 / a) := mul_nonneg (div_nonneg (by linarith) (by linarith)) (Real.rpow_nonneg (by norm_num) _)
      have := mul_nonneg this (hM u)
      linarith
    · obtain ⟨h1, _, h2⟩ := C98_alpha he hs hpos hr env hw hn ha u (hmean u) ht
      exact ⟨h1, h2 ha1⟩

end Positions

section Pipeline
variable {Ω : Type} [MeasurableSpace Ω] {P : Measure Ω} {omp : Omp} {eng : Engine XR} [MeasurableSpace eng.G] {μ : Measure eng.G}
  {σ : ℤ → Ω → eng.G} {device : ℕ → Ω → eng.G} {n : ℕ} {wseed pseed : ℤ} {wpar ppar : Bool} {D : ℕ} {wts ws : Ω → List XR} {pos : Ω → List (List XR)}
  {rng : Rng XR} [MeasurableSpace rng.G] {ν : Measure rng.G} {ple : ℝ}

/-- C108, the maximum degree of a GIRG with power law weights, in the setting of C100: weights, scaling, positions, edges.  The probability that any node has
degree at least `K` is at most `n` times the bound of C100. -/
theorem C108_max_girg (he : IdealEngine eng μ) (hσ : IndependentStates P μ σ) (hn : 3 ≤ n) (h31 : n < 2147483648) (hD1 : 1 ≤ D) (hD5 : D ≤ 5) (hple : 2 < ple)
    (hw : 0 ≤ wseed ∧ wseed + nodeThreads omp n wpar ≤ 2147483648) (hp : 0 ≤ pseed ∧ pseed + nodeThreads omp n ppar ≤ 2147483648)
    (hd : wseed + nodeThreads omp n wpar ≤ pseed ∨ pseed + nodeThreads omp n ppar ≤ wseed)
    (hwts : ∀ ω, GenerateWeights omp (withSeeds eng fun s => σ s ω) (fun k => device k ω) n (fin ple) wseed wpar (wts ω))
    (hpos : ∀ ω, GeneratePositions omp (withSeeds eng fun s => σ s ω) (fun k => device k ω) n D pseed ppar (pos ω))
    {part : List (List ℕ)} (hpart : part.flatten.Perm (List.range n)) {alg : StdAlg XR} {ndebug : Bool} {alpha : XR}
    (ha : alpha = .pinf ∨ ∃ a : ℝ, alpha = fin a ∧ 1 < a) {desired : ℝ} (hd1 : 1 ≤ desired) (hdn : alphaFactor alpha * (desired + 1 / 2) ≤ n - 1) {sc : Ω → XR}
    (hsc : ∀ ω, ScaleWeights alg ndebug part (wts ω) (fin desired) D alpha (.returned (sc ω) (ws ω)))
    (hr : IdealRng rng ν) (env : Env) {K : ℕ} (hK : 1 ≤ K) :
    upperMean P (fun ω => graphProb env rng ν (ws ω) (pos ω) alpha fun out => ∃ u < n, K ≤ degreeOf u out) ≤
      n * (ENNReal.ofReal (Real.exp (3 / 2 * ((ple - 1) / (ple - 2))) * (2 * (ple - 1) * alphaFactor alpha ^ 2 * (desired + 1 / 2) / (Real.exp 1 * K)) ^ (ple - 1)) +
      ENNReal.ofReal (Real.exp (-K / 6)) +
      ENNReal.ofReal (Real.exp (3 / 2 * ((ple - 1) / (ple - 2)) + 3 / 4 - √(2 ^ 29 * (desired - 2 / 100) / (alphaFactor alpha * 2 ^ D * n))))) := by
  refine (upperMean_mono fun ω => graphProb_union env rng ν (ws ω) (pos ω) alpha (n := n) (Q := fun _ k => K ≤ k)
    fun out ⟨u, h1, h2⟩ => ⟨⟨u, h1⟩, h2⟩).trans ((upperMean_sum _ _).trans ?_)
  refine (Finset.sum_le_sum fun u _ => C100_upper he hσ hn h31 hD1 hD5 hple hw hp hd hwts hpos hpart ha hd1 hdn hsc hr env u hK).trans (le_of_eq ?_)
  rw [Finset.sum_const, Finset.card_univ, Fintype.card_fin, nsmul_eq_mul]

end Pipeline

section Hyperbolic
open HypDeg Radius
variable {Ω : Type} [MeasurableSpace Ω] {P : Measure Ω} {omp : Omp} {eng : Engine XR} [MeasurableSpace eng.G] {μ : Measure eng.G}
  {σ : ℤ → Ω → eng.G} {device : ℕ → Ω → eng.G} {n : ℕ} {α R T γ : ℝ} {radii angles : Ω → List XR} {rng : Tree.Rng XR}

theorem sum_const_le {n : ℕ} {f : Fin n → ℝ≥0∞} {b : ℝ} (h : ∀ u, f u ≤ ENNReal.ofReal b) : ∑ u, f u ≤ ENNReal.ofReal (n * b) := by
  refine (Finset.sum_le_sum fun u _ => h u).trans (le_of_eq ?_)
  rw [Finset.sum_const, Finset.card_univ, Fintype.card_fin, nsmul_eq_mul, ENNReal.ofReal_mul (Nat.cast_nonneg _), ENNReal.ofReal_natCast]

theorem power_lower_exp' {K : ℝ} (hK : 1 ≤ K) : Real.exp (-(K ^ 2 / (2 * (2 * K)))) = Real.exp (-K / 4) := by
  congr 1
  field_simp
  norm_num

/-- C108, the maximum degree of a hyperbolic random graph, `T = 0`, in the setting of C101: points, edges.  The probability that any node has degree at least `K`
is at most `n` times the bound of C101.  The probability that all degrees are below `K` is at most `exp(-n q)`, where `q = min(1, d/(4K))^(2α) - 3 exp(-α(R-r₀))`
and `d` is the leading term at the boundary, up to a term that decreases exponentially with `K`.  So the maximum degree is of the order `n^(1/(2α)) d`. -/
theorem C108_max_threshold (hs : SampledPoints P omp eng μ σ device n α R radii angles) (hn : 2 ≤ n) (h31 : n < 2147483648)
    (hdisk : (2 / 3 ≤ R ∧ R ≤ 1) ∨ (4 / 3 ≤ R ∧ R ≤ 165 / 4)) (hαR : 1 ≤ (α - 1 / 2) * R)
    (env : Ω → HEnv) (hgeo : GeoBounded rng) (gens : Ω → ℕ → rng.G) {out : Ω → List (ℕ × ℕ)}
    (h : ∀ ω, HGenerateEdges (env ω) rng (gens ω) (radii ω) (angles ω) (fin 0) (fin R) (out ω)) {K : ℕ} (hK : 1 ≤ K) :
    P {ω | ∃ u < n, K ≤ degreeOf u (out ω)} ≤
      n * (ENNReal.ofReal (slack α R * (6 * slack α R * hrgNodeDegree (n - 1) α 0 R / K) ^ (2 * α)) + ENNReal.ofReal (Real.exp (-K / 6))) ∧
    ∀ r₀ γ z : ℝ, 0 ≤ r₀ → 1 ≤ γ → γ ≤ 2 → γ < 2 * α → z = min 1 (hrgNodeDegree (n - 1) α 0 R / (4 * K)) →
      1 / 2 ≤ 1 - 2.1 * Real.exp (-((α - 1 / 2) * R)) - 3 * nodeError α γ r₀ * slack α R →
      P {ω | ∀ u < n, degreeOf u (out ω) < K} ≤
        ENNReal.ofReal (Real.exp (-(n * (z ^ (2 * α) - 3 * Real.exp (-(α * (R - r₀))))))) +
        ENNReal.ofReal (n * (slack α R * z ^ (2 * α) * Real.exp (-K / 4))) := by
  have hR : 0 < R := by rcases hdisk with h | h <;> linarith
  have hα2 : 1 / 2 < α := by
    by_contra hc
    push Not at hc
    nlinarith
  have hα : 0 < α := by linarith
  have hαR' : 1 ≤ α * R := by nlinarith
  have hKR : (1 : ℝ) ≤ K := by exact_mod_cast hK
  obtain ⟨r, φ, hp, ho⟩ := sampled_random hs (by omega) hα hR hαR'
  haveI := hp.prob
  have hρ : ∀ (u : Fin n) ω, (radii ω)[u.1]? = some (fin (r u ω)) := by
    intro u ω
    rw [(ho ω).1, List.getElem?_ofFn, dif_pos u.2]
  have hs1 := one_le_slack hαR'
  have hD := hrgNode_pos hn hα2 le_rfl one_pos R
  constructor
  · have e : {ω | ∃ u < n, K ≤ degreeOf u (out ω)} = ⋃ u : Fin n, {ω | K ≤ degreeOf u.1 (out ω)} := by
      ext ω
      simp only [Set.mem_setOf_eq, Set.mem_iUnion]
      exact ⟨fun ⟨u, h1, h2⟩ => ⟨⟨u, h1⟩, h2⟩, fun ⟨u, h2⟩ => ⟨u, u.2, h2⟩⟩
    rw [e]
    refine (measure_iUnion_fintype_le _ _).trans ?_
    refine (Finset.sum_le_sum fun u _ => (C101_threshold hs hn h31 hdisk hαR env hgeo gens h u.2 hK).1).trans (le_of_eq ?_)
    rw [Finset.sum_const, Finset.card_univ, Fintype.card_fin, nsmul_eq_mul]
  · intro r₀ γ z h0 hγ0 hγ hγα hz herr
    have hz0 : 0 < z := by rw [hz]; exact lt_min one_pos (by positivity)
    have hz1 : z ≤ 1 := hz ▸ min_le_left _ _
    have hz2 : 4 * K ≤ hrgNodeDegree (n - 1) α 0 R / z := by
      rw [le_div_iff₀ hz0]
      have : z ≤ hrgNodeDegree (n - 1) α 0 R / (4 * K) := hz ▸ min_le_right _ _
      rw [le_div_iff₀ (by linarith)] at this
      linarith
    obtain ⟨e1, _, e3⟩ := power_radius (α := α) hD hz0
    have hx : R + 2 * Real.log z ≤ R := by
      have := Real.log_nonpos hz0.le hz1
      linarith
    have hb := fun u : Fin n => (C99_threshold hs hn h31 hdisk hγ0 hγ hγα hαR env hgeo gens h u.2 (hρ u)
      (measurableSet_Ioc (a := r₀) (b := R + 2 * Real.log z)) (t := (K : ℝ)) (by linarith)).2 (2 * K) (by linarith) fun s hsA _ _ => by
        have h1 := hz2.trans (e3 s hsA.2)
        obtain ⟨a1, a2⟩ := nodeError_anti (s := s) hγ0 hγα hsA.1.le
        have h2 : nodeError α γ s * slack α R ≤ nodeError α γ r₀ * slack α R := mul_le_mul_of_nonneg_right a1 (by linarith)
        calc 2 * (K : ℝ) = 4 * K * (1 / 2) := by ring
          _ ≤ _ := mul_le_mul h1 (by linarith) (by norm_num) (by linarith)
    have hnone := HypMax.none_in hp hαR' (A := Set.Ioc r₀ (R + 2 * Real.log z)) measurableSet_Ioc fun u => radius_ge hp hα hαR' u h0 hx
    rw [e1] at hnone
    refine (measure_mono (t := {ω | ∀ u, r u ω ∉ Set.Ioc r₀ (R + 2 * Real.log z)} ∪
      ⋃ u : Fin n, {ω | r u ω ∈ Set.Ioc r₀ (R + 2 * Real.log z) ∧ (degreeOf u.1 (out ω) : ℝ) ≤ 2 * K - K}) fun ω hω => ?_).trans
      ((measure_union_le _ _).trans (add_le_add hnone ((measure_iUnion_fintype_le _ _).trans (sum_const_le fun u => ?_))))
    · by_cases h1 : ∀ u, r u ω ∉ Set.Ioc r₀ (R + 2 * Real.log z)
      · exact Or.inl h1
      · push Not at h1
        obtain ⟨u, hu⟩ := h1
        refine Or.inr (Set.mem_iUnion.2 ⟨u, hu, ?_⟩)
        have : (degreeOf u.1 (out ω) : ℝ) ≤ K := by exact_mod_cast (hω u u.2).le
        linarith
    · refine (hb u).trans ?_
      rw [power_lower_exp' hKR]
      have h2 : P {ω | r u ω ∈ Set.Ioc r₀ (R + 2 * Real.log z)} ≤ ENNReal.ofReal (slack α R * z ^ (2 * α)) := by
        have := radius_le hp hα hαR' u (R + 2 * Real.log z)
        rw [e1] at this
        exact (measure_mono fun ω hω => hω.2).trans this
      refine (mul_le_mul h2 le_rfl bot_le bot_le).trans (le_of_eq ?_)
      rw [← ENNReal.ofReal_mul (mul_nonneg (by linarith) (Real.rpow_nonneg hz0.le _))]

/-- C108, the maximum degree of a hyperbolic random graph, `2^-52 < T < 1`, in the setting of C101 -/
theorem C108_max_expected (hs : SampledPoints P omp eng μ σ device n α R radii angles) (hn : 2 ≤ n) (h31 : n < 2147483648)
    (hdisk : (2 / 3 ≤ R ∧ R ≤ 1) ∨ (4 / 3 ≤ R ∧ R ≤ 165 / 4)) (hαR : 1 ≤ (α - 1 / 2) * R)
    (hT : 1 / 4503599627370496 < T) (hT1 : T < 1) (hfil : 2 * T * Real.log 99 ≤ R) (env : HEnv) [MeasurableSpace rng.G]
    {ν : Measure rng.G} (hr : IdealRng rng ν) (hur : UnitRng rng)
    (hret : env.threads = 1 ∨ ∃ L, HTree.firstParallelLevel XR env.threads = some L ∧
      Real.cosh R < hypCosh (R - 1) (Real.pi / 2 ^ (L - 1)) (R - 1) 0) {g : ℕ} (hg : 1 ≤ g)
    (hgens : env.threads ≠ 1 → ∃ L tasks, HTree.firstParallelLevel XR env.threads = some L ∧
      HTree.numTasks L = some tasks ∧ env.threads - 1 + tasks ≤ g) {K : ℕ} (hK : 1 ≤ K) :
    upperMean P (fun ω => hypGraphProb env rng ν hg (radii ω) (angles ω) (fin T) (fin R) fun out => ∃ u < n, K ≤ degreeOf u out) ≤
      n * (ENNReal.ofReal (slack α R * (6 * slack α R * hrgNodeDegree (n - 1) α T R / K) ^ (2 * α)) + ENNReal.ofReal (Real.exp (-K / 6))) ∧
    ∀ r₀ γ z : ℝ, 0 ≤ r₀ → 1 ≤ γ → γ ≤ 2 → γ < 2 * α → T * γ ≤ 1 → z = min 1 (hrgNodeDegree (n - 1) α T R / (4 * K)) →
      1 / 2 ≤ 1 - 2.1 * Real.exp (-((α - 1 / 2) * R)) - ((1 / 1000000) ^ (1 - T) / (1 - T) + 5 * nodeError α γ r₀) * slack α R →
      upperMean P (fun ω => hypGraphProb env rng ν hg (radii ω) (angles ω) (fin T) (fin R) fun out => ∀ u < n, degreeOf u out < K) ≤
        ENNReal.ofReal (Real.exp (-(n * (z ^ (2 * α) - 3 * Real.exp (-(α * (R - r₀))))))) +
        ENNReal.ofReal (n * (slack α R * z ^ (2 * α) * Real.exp (-K / 4))) := by
  have hR : 0 < R := by rcases hdisk with h | h <;> linarith
  have hT0 : 0 < T := lt_trans (by norm_num) hT
  have hα2 : 1 / 2 < α := by
    by_contra hc
    push Not at hc
    nlinarith
  have hα : 0 < α := by linarith
  have hαR' : 1 ≤ α * R := by nlinarith
  have hKR : (1 : ℝ) ≤ K := by exact_mod_cast hK
  obtain ⟨r, φ, hp, ho⟩ := sampled_random hs (by omega) hα hR hαR'
  haveI := hp.prob
  have hprobν := hr.prob
  have hρ : ∀ (u : Fin n) ω, (radii ω)[u.1]? = some (fin (r u ω)) := by
    intro u ω
    rw [(ho ω).1, List.getElem?_ofFn, dif_pos u.2]
  have hs1 := one_le_slack hαR'
  have hD := hrgNode_pos hn hα2 hT0.le hT1 R
  constructor
  · refine (upperMean_mono fun ω => hypGraphProb_union env rng ν hg (radii ω) (angles ω) (fin T) (fin R) (n := n) (Q := fun _ k => K ≤ k) Finset.univ
      fun out ⟨u, h1, h2⟩ => ⟨⟨u, h1⟩, Finset.mem_univ _, h2⟩).trans ((upperMean_sum _ _).trans ?_)
    refine (Finset.sum_le_sum fun u _ => (C101_expected hs hn h31 hdisk hαR hT hT1 hfil env hr hur hret hg hgens u.2 hK).1).trans (le_of_eq ?_)
    rw [Finset.sum_const, Finset.card_univ, Fintype.card_fin, nsmul_eq_mul]
  · intro r₀ γ z h0 hγ0 hγ hγα hTγ hz herr
    have hz0 : 0 < z := by rw [hz]; exact lt_min one_pos (by positivity)
    have hz1 : z ≤ 1 := hz ▸ min_le_left _ _
    have hz2 : 4 * K ≤ hrgNodeDegree (n - 1) α T R / z := by
      rw [le_div_iff₀ hz0]
      have : z ≤ hrgNodeDegree (n - 1) α T R / (4 * K) := hz ▸ min_le_right _ _
      rw [le_div_iff₀ (by linarith)] at this
      linarith
    obtain ⟨e1, _, e3⟩ := power_radius (α := α) hD hz0
    have hx : R + 2 * Real.log z ≤ R := by
      have := Real.log_nonpos hz0.le hz1
      linarith
    have hb := fun u : Fin n => (C99_expected hs hn h31 hdisk hγ0 hγ hγα hαR hT hT1 hTγ hfil env hr hur hret hg hgens u.2 (hρ u)
      (measurableSet_Ioc (a := r₀) (b := R + 2 * Real.log z)) (t := (K : ℝ)) (by linarith)).2 (2 * K) (by linarith) fun s hsA _ _ => by
        have h1 := hz2.trans (e3 s hsA.2)
        obtain ⟨a1, a2⟩ := nodeError_anti (s := s) hγ0 hγα hsA.1.le
        have h2 : ((1 / 1000000) ^ (1 - T) / (1 - T) + 5 * nodeError α γ s) * slack α R ≤
            ((1 / 1000000) ^ (1 - T) / (1 - T) + 5 * nodeError α γ r₀) * slack α R := mul_le_mul_of_nonneg_right (by linarith) (by linarith)
        calc 2 * (K : ℝ) = 4 * K * (1 / 2) := by ring
          _ ≤ _ := mul_le_mul h1 (by linarith) (by norm_num) (by linarith)
    have hnone := HypMax.none_in hp hαR' (A := Set.Ioc r₀ (R + 2 * Real.log z)) measurableSet_Ioc fun u => radius_ge hp hα hαR' u h0 hx
    rw [e1] at hnone
    have hmu : ∀ u : Fin n, MeasurableSet {ω | r u ω ∈ Set.Ioc r₀ (R + 2 * Real.log z)} := fun u => row_sets hp u measurableSet_Ioc
    have hm0 : MeasurableSet {ω | ∀ u, r u ω ∉ Set.Ioc r₀ (R + 2 * Real.log z)} := by
      rw [Set.setOf_forall]
      exact MeasurableSet.iInter fun u => (hmu u).compl
    refine (upperMean_mono (g := fun ω => {ω | ∀ u, r u ω ∉ Set.Ioc r₀ (R + 2 * Real.log z)}.indicator 1 ω +
      ∑ u : Fin n, {ω | r u ω ∈ Set.Ioc r₀ (R + 2 * Real.log z)}.indicator (fun ω => hypEdgesProb env rng ν hg (radii ω) (angles ω) (fin T) (fin R)
        (incident u) fun k => (k : ℝ) ≤ 2 * K - K) ω) fun ω => ?_).trans
      ((upperMean_add _ _).trans (add_le_add ((upperMean_one hm0).trans hnone) ((upperMean_sum _ _).trans (sum_const_le fun u => ?_))))
    · by_cases h1 : ∀ u, r u ω ∉ Set.Ioc r₀ (R + 2 * Real.log z)
      · rw [Set.indicator_of_mem (show ω ∈ {ω | ∀ u, r u ω ∉ Set.Ioc r₀ (R + 2 * Real.log z)} from h1)]
        exact prob_le_one.trans le_self_add
      · push Not at h1
        obtain ⟨u, hu⟩ := h1
        refine le_trans ?_ le_add_self
        refine le_trans ?_ (Finset.single_le_sum (fun _ _ => bot_le) (Finset.mem_univ u))
        rw [Set.indicator_of_mem (show ω ∈ {ω | r u ω ∈ Set.Ioc r₀ (R + 2 * Real.log z)} from hu)]
        refine measure_mono ?_
        rintro st ⟨out, h2, h3⟩
        have h4 : (degreeOf u.1 out : ℝ) ≤ K := by exact_mod_cast (h3 u u.2).le
        refine ⟨out, h2, ?_⟩
        rw [edgesIn_incident]
        linarith
    · refine (upperMean_indicator (hmu u) _).trans ((hb u).trans ?_)
      rw [power_lower_exp' hKR]
      have h2 : P {ω | r u ω ∈ Set.Ioc r₀ (R + 2 * Real.log z)} ≤ ENNReal.ofReal (slack α R * z ^ (2 * α)) := by
        have := radius_le hp hα hαR' u (R + 2 * Real.log z)
        rw [e1] at this
        exact (measure_mono fun ω hω => hω.2).trans this
      refine (mul_le_mul h2 le_rfl bot_le bot_le).trans (le_of_eq ?_)
      rw [← ENNReal.ofReal_mul (mul_nonneg (by linarith) (Real.rpow_nonneg hz0.le _))]

end Hyperbolic

/-! ### the bounds at work -/

/-- `C108_all_threshold`: 1000 nodes of weight 1 in dimension 5 and `alpha = infinity`, ideal engines.  The expected degrees are 31.968.  The degrees of all nodes
are between 3 and 71, except with probability 1/500. -/
example (n : ℕ) (hn : n = 1000) : ∃ (P : Measure (ℤ → ℕ → ℝ)) (ν : Measure idealRng.G) (pos : (ℤ → ℕ → ℝ) → List (List XR)),
    IsProbabilityMeasure P ∧
    (∀ ω, GeneratePositions exampleOmp (withSeeds streamEngine fun s => ω s) (fun _ => (fun _ => 0)) n 5 130 true (pos ω)) ∧
    upperMean P (fun ω => graphProb (exampleEnv true) idealRng ν (xw (List.replicate n 1)) (pos ω) .pinf fun out =>
      ∃ u < n, degreeOf u out < 3 ∨ 71 < degreeOf u out) ≤ ENNReal.ofReal (1 / 500) := by
  have hnR : (n : ℝ) = 1000 := by rw [hn]; norm_num
  have hsup : SupportedWeights 5 (List.replicate n 1) := by
    intro x hl hx
    have h1 : ∀ y ∈ List.replicate n (1 : ℝ), y = 1 := fun y hy => List.eq_of_mem_replicate hy
    refine ⟨by norm_num, by norm_num, hl, by rw [List.length_replicate]; omega, by rw [List.length_replicate]; omega, ?_, ?_, hx, ?_, ?_⟩
    · intro y hy; rw [h1 y hy]; norm_num
    · intro y hy; rw [h1 y hy]; exact one_lt_pow₀ (by norm_num) (by norm_num)
    · intro y hy; rw [h1 y hy, List.sum_replicate, nsmul_eq_mul, hnR]; norm_num
    · intro y hy z hz; rw [h1 y hy, h1 z hz]; norm_num
  have hthreads : nodeThreads exampleOmp n true ≤ 2147483518 := by rw [hn]; decide
  have hseed : (0 ≤ (130 : ℤ) ∧ (130 : ℤ) + nodeThreads exampleOmp n true ≤ 2147483648 ∧
      IndependentStates (Measure.infinitePi fun _ : ℤ => seqMeasure) seqMeasure fun (s : ℤ) (ω : ℤ → ℕ → ℝ) => ω s) := ⟨by norm_num, by omega, streamStates⟩
  obtain ⟨X, hX, _⟩ := C92_positions (D := 5) (omp := exampleOmp) (device := fun _ _ => (fun _ => 0 : ℕ → ℝ)) (n := n) (parallel := true)
    streamEngine_ideal (Or.inl hseed)
  have hpos := fun ω => (hX ω _).2 rfl
  have hlen : (List.replicate n (1 : ℝ)).length = n := List.length_replicate
  have hmean : ∀ u : Fin (List.replicate n (1 : ℝ)).length, (31.968 : ℝ) = ∑ v : Fin (List.replicate n (1 : ℝ)).length, if u = v then 0 else
      min 1 (2 ^ 5 * ((List.replicate n (1 : ℝ))[u] * (List.replicate n (1 : ℝ))[v] / (List.replicate n (1 : ℝ)).sum)) := by
    intro u
    have e : ∀ v : Fin (List.replicate n (1 : ℝ)).length, (List.replicate n (1 : ℝ))[v] = 1 := fun v => by simp
    have e2 : min (1 : ℝ) (2 ^ 5 * (1 * 1 / (List.replicate n (1 : ℝ)).sum)) = 0.032 := by
      rw [List.sum_replicate, nsmul_eq_mul, hnR]; norm_num
    simp only [e, e2]
    rw [Finset.sum_ite, Finset.sum_const_zero, zero_add, Finset.sum_const, Finset.filter_ne, Finset.card_erase_of_mem (Finset.mem_univ _), Finset.card_univ,
      Fintype.card_fin, hlen, nsmul_eq_mul, Nat.cast_sub (by omega), hnR]
    norm_num
  have hall := C108_all_threshold (w := List.replicate n 1) streamEngine_ideal (Or.inl hseed) hpos idealRng_ideal (exampleEnv true) hsup hlen
      (mean := fun _ => 31.968) hmean (L := 14) (by norm_num)
  have hs : √(2 * 31.968 * 14) ≤ 29.92 := by
    rw [Real.sqrt_le_left (by norm_num)]; norm_num
  obtain ⟨_, he⟩ := exp_neg_between (k := 14) (a := 0) (b := 1e-6) (by norm_num) (by norm_num) (by norm_num) (by norm_num)
  push_cast at he
  refine ⟨Measure.infinitePi fun _ : ℤ => seqMeasure, seqMeasure, _, inferInstance, hpos, ?_⟩
  refine (upperMean_mono fun ω => measure_mono ?_).trans (hall.trans (ENNReal.ofReal_le_ofReal ?_))
  · rintro g ⟨out, notice, h1, u, hu, h2⟩
    refine ⟨out, notice, h1, ⟨u, by rw [hlen]; exact hu⟩, ?_⟩
    dsimp only
    rcases h2 with h2 | h2
    · left
      have : (degreeOf u out : ℝ) ≤ 2 := by exact_mod_cast Nat.le_of_lt_succ h2
      linarith
    · right
      have : (72 : ℝ) ≤ degreeOf u out := by exact_mod_cast h2
      linarith
  · rw [hnR]; linarith

theorem example_max {d z q e s K : ℝ} (hd : 19.3 ≤ d) (hd2 : d ≤ 160000) (hK : K = 40000) (hz : z = min 1 (d / (4 * K))) (hq : q = z ^ (2 * 1 : ℝ))
    (he : e ≤ 16 / 1000000000000) (hs0 : 1 ≤ s) (hs : s ≤ 1.00001) :
    ENNReal.ofReal (Real.exp (-(1000000000 * (q - e)))) + ENNReal.ofReal (1000000000 * (s * q * Real.exp (-K / 4))) ≤ ENNReal.ofReal (1 / 100000) := by
  obtain ⟨_, h14⟩ := exp_neg_between (k := 14) (a := 0) (b := 1e-6) (by norm_num) (by norm_num) (by norm_num) (by norm_num)
  obtain ⟨_, h36⟩ := exp_neg_between (k := 36) (a := 0) (b := 1e-15) (by norm_num) (by norm_num) (by norm_num) (by norm_num)
  push_cast at h14 h36
  have hz' : z = d / 160000 := by
    rw [hz, hK, min_eq_right (by rw [div_le_one (by norm_num)]; linarith)]
    norm_num
  have hq' : q = z ^ 2 := by rw [hq, show (2 * 1 : ℝ) = ((2 : ℕ) : ℝ) by norm_num, Real.rpow_natCast]
  have hz0 : 0 ≤ z := by rw [hz']; positivity
  have hz1 : z ≤ 1 := by rw [hz', div_le_one (by norm_num)]; exact hd2
  have hzl : 0.00012 ≤ z := by rw [hz', le_div_iff₀ (by norm_num)]; linarith
  have hq0 : 0 ≤ q := by rw [hq']; positivity
  have hq1 : q ≤ 1 := by rw [hq']; nlinarith
  have hql : 0.0000000144 ≤ q := by rw [hq']; nlinarith
  have e1 : Real.exp (-(1000000000 * (q - e))) ≤ 1e-6 := by
    refine le_trans (Real.exp_le_exp.2 ?_) h14
    linarith
  have e2 : Real.exp (-K / 4) ≤ 1e-15 := by
    refine le_trans (Real.exp_le_exp.2 ?_) h36
    rw [hK]; norm_num
  have e3 : s * q * Real.exp (-K / 4) ≤ 1.00001 * 1 * 1e-15 :=
    mul_le_mul (mul_le_mul hs hq1 hq0 (by norm_num)) e2 (Real.exp_pos _).le (by norm_num)
  have e4 : 0 ≤ s * q * Real.exp (-K / 4) := mul_nonneg (mul_nonneg (by linarith) hq0) (Real.exp_pos _).le
  rw [← ENNReal.ofReal_add (Real.exp_pos _).le (by linarith)]
  exact ENNReal.ofReal_le_ofReal (by linarith)

open HypDeg Radius in
/-- `C108_max_threshold`: a billion nodes, `α = 1` (power law exponent 3), `R = 36`, `T = 0`.  The maximum degree is at least 40000 except with probability
1/100000, and less than 20 million except with probability 0.035.  At temperature 1/2 (`C108_max_expected`) the same with 30 million and probability 0.038. -/
example : ∃ (radii angles : (ℤ → ℕ → ℝ) → List XR) (out : (ℤ → ℕ → ℝ) → List (ℕ × ℕ)) (P : Measure (ℤ → ℕ → ℝ)),
    P = (Measure.infinitePi fun _ : ℤ => seqMeasure) ∧
    (∀ ω, HGenerateEdges (exampleHEnv true 1 (by norm_num) (by norm_num)) idealRng (fun _ _ => 0) (radii ω) (angles ω) (fin 0) (fin 36) (out ω)) ∧
    P {ω | ∀ u < 1000000000, degreeOf u (out ω) < 40000} ≤ ENNReal.ofReal (1 / 100000) ∧
    P {ω | ∃ u < 1000000000, 20000000 ≤ degreeOf u (out ω)} ≤ ENNReal.ofReal 0.035 ∧
    upperMean P (fun ω => hypGraphProb (exampleHEnv true 1 (by norm_num) (by norm_num)) idealRng seqMeasure le_rfl (radii ω) (angles ω) (fin (1 / 2)) (fin 36)
      fun out => ∀ u < 1000000000, degreeOf u out < 40000) ≤ ENNReal.ofReal (1 / 100000) ∧
    upperMean P (fun ω => hypGraphProb (exampleHEnv true 1 (by norm_num) (by norm_num)) idealRng seqMeasure le_rfl (radii ω) (angles ω) (fin (1 / 2)) (fin 36)
      fun out => ∃ u < 1000000000, 30000000 ≤ degreeOf u out) ≤ ENNReal.ofReal 0.038 := by
  obtain ⟨radii, angles, hs⟩ := exampleSampled (n := 1000000000) (by norm_num) (α := 1) (R := 36) one_pos (by norm_num)
  obtain ⟨ρ, φ, hp, ho⟩ := sampled_random hs (by norm_num) one_pos (by norm_num) (by norm_num)
  have hex : ∀ ω, ∃ out, HGenerateEdges (exampleHEnv true 1 (by norm_num) (by norm_num)) idealRng (fun _ _ => 0) (radii ω) (angles ω) (fin 0) (fin 36) out := by
    intro ω
    rw [(ho ω).1, (ho ω).2, xw_ofFn, xw_ofFn]
    exact (C44_returns_iff (random_input hp (by norm_num) (by norm_num) le_rfl (Or.inr (by norm_num)) ω) _ _ idealRng_unit _).2 (Or.inl rfl)
  choose out hout using hex
  have hlog : Real.log 99 ≤ 36 := by
    have h2 : Real.log 99 < 5 := by
      rw [Real.log_lt_iff_lt_exp (by norm_num), show (5 : ℝ) = ((5 : ℕ) : ℝ) * 1 by norm_num, Real.exp_nat_mul]
      have h1 := Real.exp_one_gt_d9
      have h4 : (2.7 : ℝ) ^ 5 ≤ Real.exp 1 ^ 5 := pow_le_pow_left₀ (by norm_num) (by linarith) 5
      have h5 : (99 : ℝ) < 2.7 ^ 5 := by norm_num
      exact h5.trans_le h4
    linarith
  obtain ⟨s1, d1, d2, d3, d4, f1, f2, g1, g2⟩ := example_power_terms
  have s0 : 1 ≤ slack 1 36 := one_le_slack (by norm_num)
  have thr := fun (K : ℕ) (hK : 1 ≤ K) => C108_max_threshold (n := 1000000000) (α := 1) hs (by norm_num) (by norm_num) (Or.inr (by norm_num)) (by norm_num) _
    idealRng_unit.geo _ hout (K := K) hK
  have exd := fun (K : ℕ) (hK : 1 ≤ K) => C108_max_expected (n := 1000000000) (α := 1) (T := 1 / 2) hs (by norm_num) (by norm_num) (Or.inr (by norm_num)) (by norm_num)
    (by norm_num) (by norm_num) (by linarith) (exampleHEnv true 1 (by norm_num) (by norm_num)) idealRng_ideal idealRng_unit (Or.inl rfl) le_rfl
    (fun h => absurd rfl h) (K := K) hK
  have up : ∀ (d c b K p : ℝ), 0 < d → d ≤ c → 100 ≤ K → 36.01 * c ^ 2 + 1 ≤ b → 1000000000 * (b / K ^ 2) ≤ p →
      ((1000000000 : ℕ) : ℝ≥0∞) * (ENNReal.ofReal (slack 1 36 * (6 * slack 1 36 * d / K) ^ (2 * 1 : ℝ)) + ENNReal.ofReal (Real.exp (-K / 6))) ≤ ENNReal.ofReal p := by
    intro d c b K p h1 h2 h3 h4 h5
    refine (mul_le_mul le_rfl (example_power_upper s0 s1 h1 h2 h3 h4) bot_le bot_le).trans ?_
    rw [← ENNReal.ofReal_natCast, ← ENNReal.ofReal_mul (Nat.cast_nonneg _)]
    refine ENNReal.ofReal_le_ofReal ?_
    push_cast
    exact h5
  refine ⟨radii, angles, out, _, rfl, hout, ?_, ?_, ?_, ?_⟩
  · refine ((thr 40000 (by norm_num)).2 9 (7 / 4) _ (by norm_num) (by norm_num) (by norm_num) (by norm_num) rfl f1).trans ?_
    have := example_max (K := ((40000 : ℕ) : ℝ)) (e := 3 * Real.exp (-(1 * (36 - 9)))) d1 (d2.trans (by norm_num)) (by norm_num) rfl rfl (g1.trans (by norm_num)) s0 s1
    push_cast at this ⊢
    exact this
  · refine (thr 20000000 (by norm_num)).1.trans (up _ 19.5 14000 _ _ (lt_of_lt_of_le (by norm_num) d1) d2 (by norm_num) (by norm_num) (by norm_num))
  · refine ((exd 40000 (by norm_num)).2 10 (7 / 4) _ (by norm_num) (by norm_num) (by norm_num) (by norm_num) (by norm_num) rfl f2).trans ?_
    have := example_max (K := ((40000 : ℕ) : ℝ)) (e := 3 * Real.exp (-(1 * (36 - 10)))) (le_trans (by norm_num) d3) (d4.trans (by norm_num)) (by norm_num) rfl rfl g2 s0 s1
    push_cast at this ⊢
    exact this
  · refine (exd 30000000 (by norm_num)).1.trans (up _ 30.5 34000 _ _ (lt_of_lt_of_le (by norm_num) d3) d4 (by norm_num) (by norm_num) (by norm_num))

/-- `C108_max_girg`: a million nodes, power law exponent 3, dimension 1, `alpha = infinity`, desired average degree 10, ideal engines.  No node is connected to half
of the others, except with probability 0.02. -/
example (n : ℕ) (hn : n = 1000000) : ∃ (P : Measure (ℤ → ℕ → ℝ)) (ν : Measure idealRng.G) (wts ws : (ℤ → ℕ → ℝ) → List XR) (sc : (ℤ → ℕ → ℝ) → XR)
    (pos : (ℤ → ℕ → ℝ) → List (List XR)), IsProbabilityMeasure P ∧
    (∀ ω, GenerateWeights exampleOmp (withSeeds streamEngine fun s => ω s) (fun _ => (fun _ => 0)) n (fin 3) 12 true (wts ω)) ∧
    (∀ ω, ScaleWeights (mergeAlg XR) true [List.range n] (wts ω) (fin 10) 1 .pinf (.returned (sc ω) (ws ω))) ∧
    (∀ ω, GeneratePositions exampleOmp (withSeeds streamEngine fun s => ω s) (fun _ => (fun _ => 0)) n 1 130 true (pos ω)) ∧
    upperMean P (fun ω => graphProb (exampleEnv true) idealRng ν (ws ω) (pos ω) .pinf fun out => ∃ u < n, 500000 ≤ degreeOf u out) ≤ ENNReal.ofReal 0.02 := by
  have hnR : (n : ℝ) = 1000000 := by rw [hn]; norm_num
  have hthreads : nodeThreads exampleOmp n true ≤ 118 := by rw [hn]; decide
  obtain ⟨W, w1, _, _, w4, _⟩ := C92_weights (P := Measure.infinitePi fun _ : ℤ => seqMeasure) (σ := fun (s : ℤ) (ω : ℤ → ℕ → ℝ) => ω s) (omp := exampleOmp)
    (device := fun _ _ => (fun _ => 0 : ℕ → ℝ)) (n := n) (parallel := true) (seed := 12) (ple := 3)
    streamEngine_ideal (by omega) (by norm_num) (Or.inl ⟨by norm_num, by omega, streamStates⟩)
  obtain ⟨X, x1, _⟩ := C92_positions (P := Measure.infinitePi fun _ : ℤ => seqMeasure) (σ := fun (s : ℤ) (ω : ℤ → ℕ → ℝ) => ω s) (D := 1) (omp := exampleOmp)
    (device := fun _ _ => (fun _ => 0 : ℕ → ℝ)) (n := n) (parallel := true) (seed := 130)
    streamEngine_ideal (Or.inl ⟨by norm_num, by omega, streamStates⟩)
  have hwts := fun ω => (w1 ω _).2 rfl
  have hpos := fun ω => (x1 ω _).2 rfl
  have hret : ∀ ω, ∃ (s : XR) (ws : List XR), ScaleWeights (mergeAlg XR) true [List.range n] (List.ofFn fun i => fin (W i ω)) (fin 10) 1 .pinf (.returned s ws) := by
    intro ω
    have hl : (List.ofFn fun i => W i ω).length = n := List.length_ofFn
    have hN : NormalWeights (List.ofFn fun i => W i ω) := girg_normal (n := n) (by omega) (by
      intro y hy
      obtain ⟨i, rfl⟩ := List.mem_ofFn.1 hy
      exact w4 i ω)
    have := (C59_returns_iff (part := [List.range n]) (d := 1) hN (by omega) (by omega) (by rw [hl]; simp) (mergeAlg XR) le_rfl (by norm_num)
      (alpha := .pinf) (Or.inl rfl) 10).1.2 (by rw [hl, hnR]; norm_num)
    rw [List.map_ofFn] at this
    exact this
  choose sc ws hsc using hret
  refine ⟨Measure.infinitePi fun _ : ℤ => seqMeasure, seqMeasure, _, ws, sc, _, inferInstance, hwts, hsc, hpos, ?_⟩
  have hA : alphaFactor .pinf = 1 := rfl
  refine (C108_max_girg streamEngine_ideal streamStates (by omega) (by omega) le_rfl (by norm_num) (by norm_num)
      ⟨by norm_num, by omega⟩ ⟨by norm_num, by omega⟩ (Or.inl (by omega)) hwts hpos (by simp) (Or.inl rfl) (by norm_num)
      (by rw [hA, hnR]; norm_num) hsc idealRng_ideal (exampleEnv true) (K := 500000) (by omega)).trans ?_
  rw [hA, hnR, ← ENNReal.ofReal_natCast, ← ENNReal.ofReal_add (by positivity) (by positivity), ← ENNReal.ofReal_add (by positivity) (by positivity),
    ← ENNReal.ofReal_mul (Nat.cast_nonneg _), hnR]
  refine ENNReal.ofReal_le_ofReal ?_
  have t1 : Real.exp (3 / 2 * ((3 - 1) / (3 - 2))) * (2 * (3 - 1) * 1 ^ 2 * (10 + 1 / 2) / (Real.exp 1 * (500000 : ℕ))) ^ (3 - 1 : ℝ) ≤ 4796 / 500000 ^ 2 := by
    rw [show (3 - 1 : ℝ) = (2 : ℕ) by norm_num, Real.rpow_natCast, div_pow, mul_pow, show (3 / 2 * ((2 : ℕ) / (3 - 2)) : ℝ) = (3 : ℕ) * 1 by norm_num,
      Real.exp_nat_mul]
    have he := Real.exp_one_lt_d9
    have hp := Real.exp_pos 1
    rw [mul_div_assoc', div_le_div_iff₀ (by positivity) (by norm_num)]
    push_cast
    have : Real.exp 1 ^ 3 * (2 * 2 * 1 ^ 2 * (10 + 1 / 2)) ^ 2 ≤ 4796 * Real.exp 1 ^ 2 := by nlinarith [mul_pos hp hp]
    nlinarith
  obtain ⟨_, h48⟩ := exp_neg_between (k := 48) (a := 0) (b := 1e-14) (by norm_num) (by norm_num) (by norm_num) (by norm_num)
  push_cast at h48
  have t2 : Real.exp (-(500000 : ℕ) / 6) ≤ 1e-14 := le_trans (Real.exp_le_exp.2 (by norm_num)) h48
  have t3 : Real.exp (3 / 2 * ((3 - 1) / (3 - 2)) + 3 / 4 - √(2 ^ 29 * (10 - 2 / 100) / (1 * 2 ^ 1 * 1000000))) ≤ 1e-14 := by
    have hs : (51.75 : ℝ) ≤ √(2 ^ 29 * (10 - 2 / 100) / (1 * 2 ^ 1 * 1000000)) := Real.le_sqrt_of_sq_le (by norm_num)
    exact le_trans (Real.exp_le_exp.2 (by linarith)) h48
  refine (mul_le_mul_of_nonneg_left (add_le_add (add_le_add t1 t2) t3) (by norm_num)).trans ?_
  norm_num

end Girgs.Props
