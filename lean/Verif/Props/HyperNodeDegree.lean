import Verif.Proofs.HypRow
import Verif.Proofs.NodeDegree
import Verif.Props.HyperDegree
/-
C96: the expected degree of a node of a hyperbolic random graph decreases exponentially with its radius.
-/
namespace Girgs.Props
open CFloat Spec MeasureTheory ProbabilityTheory HypDeg Radius
open XR (fin)
open scoped ENNReal

/-! ### fixed points -/

/-- C96, for fixed points and `T > 2^-52`, `2 T ln 99 ≤ R`: there are probabilities `pr u v`, equal to the documented connection probabilities except for
pairs for which these are below `10^-6`, such that for all environments in which the call returns, ideal random numbers and independent generators, as
many as `generate` creates, the expected degree of every node `u` is the sum of the `pr u v` over the other nodes `v`. -/
theorem C96_points {radii angles : List ℝ} {T R : ℝ} (hin : HypInput radii angles T R) (hT : 1 / 4503599627370496 < T) (hfil : 2 * T * Real.log 99 ≤ R) :
    ∃ pr : ℕ → ℕ → ℝ, (∀ u v, pr u v = pr v u) ∧
      (∀ u v, u < radii.length → v < radii.length → u ≠ v →
        pr u v = hypPairProb radii angles R T u v ∨ (pr u v = 0 ∧ hypPairProb radii angles R T u v < 1 / 1000000)) ∧
      ∀ (env : HEnv) (rng : Tree.Rng XR) [MeasurableSpace rng.G] (μ : Measure rng.G), IdealRng rng μ → UnitRng rng →
        (env.threads = 1 ∨ ∃ L, HTree.firstParallelLevel XR env.threads = some L ∧
          Real.cosh R < hypCosh (R - 1) (Real.pi / 2 ^ (L - 1)) (R - 1) 0) →
        ∀ (n : ℕ) (hn : 1 ≤ n), (env.threads ≠ 1 → ∃ L tasks, HTree.firstParallelLevel XR env.threads = some L ∧
          HTree.numTasks L = some tasks ∧ env.threads - 1 + tasks ≤ n) → ∀ u, u < radii.length →
        hypExpectedNodeDegree env rng μ hn (xw radii) (xw angles) (fin T) (fin R) u =
          ENNReal.ofReal (∑ v : Fin radii.length, if u = v.1 then 0 else pr u v) := by
  have hT0 : 0 < T := lt_trans (by norm_num) hT
  obtain ⟨H, hH⟩ := hconstructed_exists true (XR.fin T) (HypInput.inputOK hin) 1 le_rfl (by norm_num)
  have b := hH.builtX hin
  refine ⟨hedgePr H radii angles R T, hedgePr_comm, fun u v hu hv huv => b.edgePr_spec hin hT0 hu hv huv, ?_⟩
  intro env rng _ μ hid ur hret n hn hgens u hu
  have hH' := hH.setDebug env.ndebug
  have b' := hH'.builtX hin
  have epr : hedgePr H radii angles R T = hedgePr { H with ndebug := env.ndebug } radii angles R T := rfl
  have hun : (hUnits env { H with ndebug := env.ndebug } (hpair R) (startLevel env.threads)).length ≤ n := by
    rw [length_hUnits]
    by_cases h1 : env.threads = 1
    · rw [if_pos h1]; exact hn
    · rw [if_neg h1]
      have st := hstartOK_XR env
      obtain ⟨L, nt, e1, e2, e3⟩ := hgens h1
      have e8 := st.eq h1
      rw [e1, Option.some.injEq] at e8
      subst e8
      obtain ⟨nt', k1, _, k2, _⟩ := length_hTasks (H := { H with ndebug := env.ndebug }) env st.two st.le
      rw [e2, Option.some.injEq] at k1
      omega
  have hex : ∀ g : Fin n → rng.G, ∃ out, HGenerateEdges env rng (gensOf hn g) (xw radii) (xw angles) (XR.fin T) (XR.fin R) out :=
    fun g => (C44_returns_iff hin env rng ur (gensOf hn g)).2 hret
  choose result hres using hex
  obtain ⟨L, hL, hev⟩ := hresult_event hid ur b' hH' hin hT hfil hn hun result hres
  have honce : EachPairOnce radii.length (L.map Prod.fst) := eachPairOnce_perm (hL.map _) (b'.allCoins_once (List.Perm.refl _))
  have hunit : ∀ u v, u < radii.length → v < radii.length → u ≠ v → 0 ≤ hedgePr H radii angles R T u v ∧ hedgePr H radii angles R T u v ≤ 1 := by
    intro u v hu hv huv
    rcases b.edgePr_spec hin hT0 hu hv huv with h | h
    · rw [h]; exact hypPairProb_bounds u v
    · rw [h.1]; norm_num
  have hset : ∀ k : ℕ, {g | ∃ out, HGenerateEdges env rng (gensOf hn g) (xw radii) (xw angles) (XR.fin T) (XR.fin R) out ∧ degreeOf u out = k} =
      {g | degreeOf u (result g) = k} := by
    intro k
    ext g
    simp only [Set.mem_setOf_eq]
    constructor
    · rintro ⟨out, h1, h2⟩
      rw [← h2]; exact (degreeOf_perm (same_gens_perm hin ur h1 (hres g))).symm
    · intro h
      exact ⟨_, hres g, h⟩
  unfold hypExpectedNodeDegree
  rw [tsum_congr fun k => by rw [hset, hev (fun es => degreeOf u es = k) (fun es fs h => by rw [degreeOf_perm h])],
    degree_coins hu honce (p := hedgePr H radii angles R T) hedgePr_comm]
  · rw [ENNReal.ofReal_sum_of_nonneg]
    · refine Finset.sum_congr rfl fun v _ => ?_
      split_ifs <;> simp
    · intro v _
      split_ifs with h
      · exact le_rfl
      · exact (hunit u v hu v.2 h).1
  · rintro ⟨⟨c, d⟩, q⟩ hm
    have hi := honce.1 _ (List.mem_map.2 ⟨_, hm, rfl⟩)
    simp only at hi
    have e1 := b'.edgePr_eq (hL.mem_iff.1 hm)
    rw [← epr] at e1
    have hb := hunit c d hi.1 hi.2.1 hi.2.2
    rw [e1] at hb
    simp only [e1, unit_eq hb.1 hb.2]

/-! ### random points -/

section Random
variable {Ω : Type} [MeasurableSpace Ω] {P : Measure Ω} {omp : Omp} {eng : Engine XR} [MeasurableSpace eng.G] {μ : Measure eng.G}
  {σ : ℤ → Ω → eng.G} {device : ℕ → Ω → eng.G} {n : ℕ} {α R T γ : ℝ} {radii angles : Ω → List XR} {rng : Tree.Rng XR}

theorem hrgNode_eq (T r : ℝ) : hrgNodeDegree ((n : ℝ) - 1) α T r = (n - 1) * (2 / Real.pi * xi α * Real.exp (-r / 2) * connC T) := by
  unfold hrgNodeDegree connC
  ring

theorem nodeError_meas : Measurable fun r => nodeError α γ r := by
  unfold nodeError
  fun_prop

/-- the mean connection probability with a point of radius `r`, from above -/
theorem node_upper' (hT0 : 0 ≤ T) (hT1 : T < 1) (hγ0 : 1 ≤ γ) (hγ : γ ≤ 2) (hTγ : T * γ ≤ 1) (hγα : γ < 2 * α) (hR : 0 < R) (hαR : 1 ≤ α * R) (p : ℝ × ℝ) :
    ∫⁻ q, ENNReal.ofReal (conn T (Real.exp ((hypDist p.1 p.2 q.1 q.2 - R) / 2))) ∂pointLaw α R ≤
      ENNReal.ofReal (2 / Real.pi * xi α * Real.exp (-p.1 / 2) * connC T * ((1 + 2 * nodeError α γ p.1) * slack α R)) := by
  have hC := one_le_connC hT0 hT1
  refine (node_upper (c := connC T) (fun v hv => conn_nonneg' hv.le) (fun v w hv h => conn_anti hT0 hv h) hγ0 hγ (by linarith)
    (fun v hv => conn_le_rpow hT0 (by linarith) hTγ hv) (conn_integral hT0 hT1).le (conn_measurable T) hγα hR hαR p).trans (ENNReal.ofReal_le_ofReal ?_)
  have a1 : 0 < α - 1 / 2 := by linarith
  have a2 : 0 < α - γ / 2 := by linarith
  have hX : 0 < xi α := by unfold xi; exact div_pos (by linarith) a1
  have hK : 0 < nodeError α γ p.1 := by unfold nodeError kappa; positivity
  have hq := slack_pos hαR
  have := Real.pi_pos
  calc 2 / Real.pi * xi α * Real.exp (-p.1 / 2) * ((connC T + 2 * nodeError α γ p.1) * slack α R) =
      2 / Real.pi * xi α * Real.exp (-p.1 / 2) * ((connC T + 1 * (2 * nodeError α γ p.1)) * slack α R) := by ring
    _ ≤ 2 / Real.pi * xi α * Real.exp (-p.1 / 2) * ((connC T + connC T * (2 * nodeError α γ p.1)) * slack α R) := by gcongr
    _ = _ := by ring

/-- the part of the mean connection probability that comes from probabilities below `ε` -/
theorem node_small (hT0 : 0 < T) (hT1 : T < 1) (hγ0 : 1 ≤ γ) (hγ : γ ≤ 2) (hTγ : T * γ ≤ 1) (hγα : γ < 2 * α) (hR : 0 < R) (hαR : 1 ≤ α * R)
    {ε : ℝ} (hε : 0 < ε) (p : ℝ × ℝ) :
    ∫⁻ q, ENNReal.ofReal (min (conn T (Real.exp ((hypDist p.1 p.2 q.1 q.2 - R) / 2))) ε) ∂pointLaw α R ≤
      ENNReal.ofReal (2 / Real.pi * xi α * Real.exp (-p.1 / 2) * connC T * ((ε ^ (1 - T) / (1 - T) + 2 * nodeError α γ p.1) * slack α R)) := by
  have hC := one_le_connC hT0.le hT1
  have hc0 : 0 ≤ ε ^ (1 - T) / (1 - T) := div_nonneg (Real.rpow_nonneg hε.le _) (by linarith)
  have hint : ∫⁻ v in Set.Ioi 0, ENNReal.ofReal (min (conn T v) ε) ≤ ENNReal.ofReal (ε ^ (1 - T) / (1 - T)) := by
    refine le_trans (setLIntegral_mono' measurableSet_Ioi fun v hv => ?_) (small_integral hT0 hT1 hε)
    refine ENNReal.ofReal_le_ofReal (min_le_min_right _ (conn_le_rpow hT0.le (by positivity) ?_ hv))
    rw [mul_one_div, div_self hT0.ne']
  refine (node_upper (h := fun v => min (conn T v) ε) (c := ε ^ (1 - T) / (1 - T)) (fun v hv => le_min (conn_nonneg' hv.le) hε.le)
    (fun v w hv h => min_le_min_right _ (conn_anti hT0.le hv h)) hγ0 hγ hc0
    (fun v hv => (min_le_left _ _).trans (conn_le_rpow hT0.le (by linarith) hTγ hv)) hint ((conn_measurable T).min measurable_const) hγα hR hαR p).trans
    (ENNReal.ofReal_le_ofReal ?_)
  have a1 : 0 < α - 1 / 2 := by linarith
  have a2 : 0 < α - γ / 2 := by linarith
  have hX : 0 < xi α := by unfold xi; exact div_pos (by linarith) a1
  have hK : 0 < nodeError α γ p.1 := by unfold nodeError kappa; positivity
  have hq := slack_pos hαR
  have := Real.pi_pos
  calc _ = 2 / Real.pi * xi α * Real.exp (-p.1 / 2) * 1 * ((ε ^ (1 - T) / (1 - T) + 2 * nodeError α γ p.1) * slack α R) := by ring
    _ ≤ _ := by gcongr

/-- the mean connection probability with a point of radius `r`, from below -/
theorem node_lower' (hT0 : 0 ≤ T) (hT1 : T < 1) (hγ0 : 1 ≤ γ) (hγ : γ ≤ 2) (hTγ : T * γ ≤ 1)
    (hγα : γ < 2 * α) (hR : 0 < R) (hαR : 1 ≤ (α - 1 / 2) * R) (p : ℝ × ℝ) (hp0 : 0 ≤ p.1) (hp1 : p.1 ≤ R) :
    ENNReal.ofReal (2 / Real.pi * xi α * Real.exp (-p.1 / 2) * connC T * (1 - 2.1 * Real.exp (-((α - 1 / 2) * R)) - 3 * nodeError α γ p.1 * slack α R)) ≤
      ∫⁻ q, ENNReal.ofReal (conn T (Real.exp ((hypDist p.1 p.2 q.1 q.2 - R) / 2))) ∂pointLaw α R := by
  have h := node_lower hT0 hT1 hγ0 hγ hTγ hγα hR hαR p hp0 hp1
  have hC := one_le_connC hT0 hT1
  have a1 : 0 < α - 1 / 2 := by linarith
  have a2 : 0 < α - γ / 2 := by linarith
  have hX : 0 < xi α := by unfold xi; exact div_pos (by linarith) a1
  have hK : 0 < nodeError α γ p.1 := by unfold nodeError kappa; positivity
  have hq := slack_pos (α := α) (R := R) (by nlinarith)
  have := Real.pi_pos
  refine le_trans (le_of_eq ?_) (tsub_le_iff_right.2 h)
  rw [← ENNReal.ofReal_sub _ (by positivity)]
  congr 1
  ring

/-- the same without the probabilities below `ε` -/
theorem node_trunc (hT0 : 0 < T) (hT1 : T < 1) (hγ0 : 1 ≤ γ) (hγ : γ ≤ 2) (hTγ : T * γ ≤ 1)
    (hγα : γ < 2 * α) (hR : 0 < R) (hαR : 1 ≤ (α - 1 / 2) * R) {ε : ℝ} (hε0 : 0 < ε) (p : ℝ × ℝ) (h0 : 0 ≤ p.1) (h1 : p.1 ≤ R) :
    ENNReal.ofReal (2 / Real.pi * xi α * Real.exp (-p.1 / 2) * connC T * (1 - 2.1 * Real.exp (-((α - 1 / 2) * R)) -
        (ε ^ (1 - T) / (1 - T) + 5 * nodeError α γ p.1) * slack α R)) ≤
      ∫⁻ q, ENNReal.ofReal (conn T (Real.exp ((hypDist p.1 p.2 q.1 q.2 - R) / 2)) - min (conn T (Real.exp ((hypDist p.1 p.2 q.1 q.2 - R) / 2))) ε) ∂pointLaw α R := by
  have hαR' : 1 ≤ α * R := by nlinarith
  have mC := conn_measurable T
  have q1 := node_lower' hT0.le hT1 hγ0 hγ hTγ hγα hR hαR p h0 h1
  have q2 := node_small hT0 hT1 hγ0 hγ hTγ hγα hR hαR' hε0 p
  have hmm : Measurable fun q : ℝ × ℝ => ENNReal.ofReal (min (conn T (Real.exp ((hypDist p.1 p.2 q.1 q.2 - R) / 2))) ε) := by
    have h1 : Measurable fun q : ℝ × ℝ => (p, q) := measurable_const.prodMk measurable_id
    exact ((mC.comp ((((measurable_hypDist.comp h1).sub_const R).div_const 2).exp)).min measurable_const).ennreal_ofReal
  have q3 : ∫⁻ q, ENNReal.ofReal (conn T (Real.exp ((hypDist p.1 p.2 q.1 q.2 - R) / 2))) ∂pointLaw α R =
      (∫⁻ q, ENNReal.ofReal (conn T (Real.exp ((hypDist p.1 p.2 q.1 q.2 - R) / 2)) - min (conn T (Real.exp ((hypDist p.1 p.2 q.1 q.2 - R) / 2))) ε) ∂pointLaw α R) +
      ∫⁻ q, ENNReal.ofReal (min (conn T (Real.exp ((hypDist p.1 p.2 q.1 q.2 - R) / 2))) ε) ∂pointLaw α R := by
    rw [← lintegral_add_right _ hmm]
    refine lintegral_congr fun q => ?_
    rw [← ENNReal.ofReal_add (sub_nonneg.2 (min_le_left _ _)) (le_min (conn_nonneg' (Real.exp_pos _).le) hε0.le)]
    congr 1
    ring
  rw [q3] at q1
  have q4 := tsub_le_iff_right.2 (q1.trans (add_le_add le_rfl q2))
  refine le_trans (le_of_eq ?_) q4
  have hC := one_le_connC hT0.le hT1
  have a1 : 0 < α - 1 / 2 := by linarith
  have a2 : 0 < α - γ / 2 := by linarith
  have hX : 0 < xi α := by unfold xi; exact div_pos (by linarith) a1
  have hK : 0 < nodeError α γ p.1 := by unfold nodeError kappa; positivity
  have hq := slack_pos hαR'
  have hpi := Real.pi_pos
  have hT1' : 0 < 1 - T := by linarith
  rw [← ENNReal.ofReal_sub _ (by positivity)]
  congr 1
  ring

/-- C96, `T = 0`.  `n` points of the disk are drawn (ideal engines, independently started), then `generateEdges` is run with temperature 0, in any environment
and with any random numbers.  Let `ρ` be the radius of node `u`.  The expected degree of `u`, given `ρ`, is the leading term `(n-1) (2/π) ξ exp(-ρ/2)`, up to
the relative errors given: for every `γ ≤ 2` with `1 ≤ γ < 2α`, of order `exp(-(γ-1)ρ/2)` and `exp(-(α-1/2)R)`.  (That is: for every measurable set `A`, over
the outcomes with `ρ` in `A` the degree has at least and at most the mean of the bounds.) -/
theorem C96_threshold (hs : SampledPoints P omp eng μ σ device n α R radii angles) (h31 : n < 2147483648)
    (hdisk : (2 / 3 ≤ R ∧ R ≤ 1) ∨ (4 / 3 ≤ R ∧ R ≤ 165 / 4)) (hγ0 : 1 ≤ γ) (hγ : γ ≤ 2) (hγα : γ < 2 * α) (hαR : 1 ≤ (α - 1 / 2) * R)
    (env : Ω → HEnv) (hgeo : GeoBounded rng) (gens : Ω → ℕ → rng.G) {out : Ω → List (ℕ × ℕ)}
    (h : ∀ ω, HGenerateEdges (env ω) rng (gens ω) (radii ω) (angles ω) (fin 0) (fin R) (out ω))
    {u : ℕ} (hu : u < n) {ρ : Ω → ℝ} (hρ : ∀ ω, (radii ω)[u]? = some (fin (ρ ω))) {A : Set ℝ} (hA : MeasurableSet A) :
    ∫⁻ ω in {ω | ρ ω ∈ A}, ENNReal.ofReal (hrgNodeDegree (n - 1) α 0 (ρ ω) *
        (1 - 2.1 * Real.exp (-((α - 1 / 2) * R)) - 3 * nodeError α γ (ρ ω) * slack α R)) ∂P ≤
      ∫⁻ ω in {ω | ρ ω ∈ A}, (degreeOf u (out ω) : ℝ≥0∞) ∂P ∧
    ∫⁻ ω in {ω | ρ ω ∈ A}, (degreeOf u (out ω) : ℝ≥0∞) ∂P ≤
      ∫⁻ ω in {ω | ρ ω ∈ A}, ENNReal.ofReal (hrgNodeDegree (n - 1) α 0 (ρ ω) * ((1 + 2 * nodeError α γ (ρ ω)) * slack α R)) ∂P := by
  classical
  have hn : 1 ≤ n := by omega
  have hR : 0 < R := by rcases hdisk with h | h <;> linarith
  have hα : 0 < α := by linarith
  have hαR' : 1 ≤ α * R := by nlinarith
  obtain ⟨r, φ, hp, ho⟩ := sampled_random hs hn hα hR hαR'
  obtain rfl : ρ = r ⟨u, hu⟩ := by
    funext ω
    have := hρ ω
    rw [(ho ω).1, List.getElem?_ofFn, dif_pos hu, Option.some.injEq] at this
    exact (XR.fin.inj this).symm
  have e : ∀ ω, (degreeOf u (out ω) : ℝ≥0∞) = ENNReal.ofReal (rowSum r φ R (conn 0) ⟨u, hu⟩ ω) := by
    intro ω
    have h1 := h ω
    rw [(ho ω).1, (ho ω).2, xw_ofFn, xw_ofFn] at h1
    have hin := random_input hp hn h31 le_rfl hdisk ω
    have hlen : (List.ofFn fun i => r i ω).length = n := List.length_ofFn
    have h2 := degreeOf_graph (by rw [hlen]; exact hu) (C45_threshold_exact hin _ rng hgeo _ _ h1)
    rw [h2, ← (finCongr hlen.symm).sum_comp, ← ENNReal.ofReal_natCast, Nat.cast_sum]
    congr 1
    unfold rowSum
    refine Finset.sum_congr rfl fun v _ => ?_
    simp only [finCongr_apply, Fin.val_cast, Fin.ext_iff]
    split_ifs with h3 h4
    · simp
    · have := (rule_gap (R := R) (ρ := r) (φ := φ) ω ⟨u, hu⟩ v).1 h4
      unfold conn
      simp [this]
    · have := mt (rule_gap (R := R) (ρ := r) (φ := φ) ω ⟨u, hu⟩ v).2 h4
      unfold conn
      simp [this]
  simp only [e]
  have mE := nodeError_meas (α := α) (γ := γ)
  constructor
  · refine le_trans (le_of_eq ?_) (le_row hp hαR' ⟨u, hu⟩ hA (fun v hv => conn_nonneg' hv.le) (conn_measurable 0)
      (k := fun x => 2 / Real.pi * xi α * Real.exp (-x / 2) * connC 0 * (1 - 2.1 * Real.exp (-((α - 1 / 2) * R)) - 3 * nodeError α γ x * slack α R))
      (by fun_prop) fun p h0 h1 => node_lower' le_rfl one_pos hγ0 hγ (by norm_num) hγα hR hαR p h0 h1)
    refine lintegral_congr fun ω => ?_
    rw [hrgNode_eq]
    congr 1
    ring
  · refine (row_le hp hαR' ⟨u, hu⟩ hA (fun v hv => conn_nonneg' hv.le) (conn_measurable 0)
      (k := fun x => 2 / Real.pi * xi α * Real.exp (-x / 2) * connC 0 * ((1 + 2 * nodeError α γ x) * slack α R))
      (by fun_prop) fun p => node_upper' le_rfl one_pos hγ0 hγ (by norm_num) hγα hR hαR' p).trans (le_of_eq ?_)
    refine lintegral_congr fun ω => ?_
    rw [hrgNode_eq]
    congr 1
    ring

/-- C96, `2^-52 < T < 1`, same setting, but in an environment in which the call returns (C44), with ideal random numbers that are independent of the points.  The
expected degree of `u`, given its radius `ρ`, is the leading term `(n-1) (2/π) ξ exp(-ρ/2) πT/sin(πT)`, up to the relative errors given: for every `γ ≤ 2`
with `1 ≤ γ < 2α` and `γ ≤ 1/T`, of order `exp(-(γ-1)ρ/2)`, `exp(-(α-1/2)R)` and `10^(-6(1-T))`. -/
theorem C96_expected (hs : SampledPoints P omp eng μ σ device n α R radii angles) (h31 : n < 2147483648)
    (hdisk : (2 / 3 ≤ R ∧ R ≤ 1) ∨ (4 / 3 ≤ R ∧ R ≤ 165 / 4)) (hγ0 : 1 ≤ γ) (hγ : γ ≤ 2) (hγα : γ < 2 * α) (hαR : 1 ≤ (α - 1 / 2) * R)
    (hT : 1 / 4503599627370496 < T) (hT1 : T < 1) (hTγ : T * γ ≤ 1) (hfil : 2 * T * Real.log 99 ≤ R) (env : HEnv) [MeasurableSpace rng.G]
    {ν : Measure rng.G} (hr : IdealRng rng ν) (hur : UnitRng rng)
    (hret : env.threads = 1 ∨ ∃ L, HTree.firstParallelLevel XR env.threads = some L ∧
      Real.cosh R < hypCosh (R - 1) (Real.pi / 2 ^ (L - 1)) (R - 1) 0) {m : ℕ} (hm : 1 ≤ m)
    (hgens : env.threads ≠ 1 → ∃ L tasks, HTree.firstParallelLevel XR env.threads = some L ∧
      HTree.numTasks L = some tasks ∧ env.threads - 1 + tasks ≤ m)
    {u : ℕ} (hu : u < n) {ρ : Ω → ℝ} (hρ : ∀ ω, (radii ω)[u]? = some (fin (ρ ω))) {A : Set ℝ} (hA : MeasurableSet A) :
    ∫⁻ ω in {ω | ρ ω ∈ A}, ENNReal.ofReal (hrgNodeDegree (n - 1) α T (ρ ω) *
        (1 - 2.1 * Real.exp (-((α - 1 / 2) * R)) - ((1 / 1000000) ^ (1 - T) / (1 - T) + 5 * nodeError α γ (ρ ω)) * slack α R)) ∂P ≤
      ∫⁻ ω in {ω | ρ ω ∈ A}, hypExpectedNodeDegree env rng ν hm (radii ω) (angles ω) (fin T) (fin R) u ∂P ∧
    ∫⁻ ω in {ω | ρ ω ∈ A}, hypExpectedNodeDegree env rng ν hm (radii ω) (angles ω) (fin T) (fin R) u ∂P ≤
      ∫⁻ ω in {ω | ρ ω ∈ A}, ENNReal.ofReal (hrgNodeDegree (n - 1) α T (ρ ω) * ((1 + 2 * nodeError α γ (ρ ω)) * slack α R)) ∂P := by
  have hn : 1 ≤ n := by omega
  have hR : 0 < R := by rcases hdisk with h | h <;> linarith
  have hT0 : 0 < T := lt_trans (by norm_num) hT
  have hα : 0 < α := by linarith
  have hαR' : 1 ≤ α * R := by nlinarith
  obtain ⟨r, φ, hp, ho⟩ := sampled_random hs hn hα hR hαR'
  obtain rfl : ρ = r ⟨u, hu⟩ := by
    funext ω
    have := hρ ω
    rw [(ho ω).1, List.getElem?_ofFn, dif_pos hu, Option.some.injEq] at this
    exact (XR.fin.inj this).symm
  obtain ⟨ε, hε⟩ : ∃ ε : ℝ, ε = 1 / 1000000 := ⟨_, rfl⟩
  have hε0 : 0 < ε := by rw [hε]; norm_num
  have key : ∀ ω, hypExpectedNodeDegree env rng ν hm (radii ω) (angles ω) (fin T) (fin R) u ≤ ENNReal.ofReal (rowSum r φ R (conn T) ⟨u, hu⟩ ω) ∧
      ENNReal.ofReal (rowSum r φ R (fun v => conn T v - min (conn T v) ε) ⟨u, hu⟩ ω) ≤
        hypExpectedNodeDegree env rng ν hm (radii ω) (angles ω) (fin T) (fin R) u := by
    intro ω
    have hin := random_input hp hn h31 hT0.le hdisk ω
    obtain ⟨pr, _, h2, h3⟩ := C96_points hin hT hfil
    have hlen : (List.ofFn fun i => r i ω).length = n := List.length_ofFn
    have e := h3 env rng ν hr hur hret m hm hgens u (by rw [hlen]; exact hu)
    rw [← xw_ofFn, ← xw_ofFn, ← (ho ω).1, ← (ho ω).2] at e
    rw [e]
    have h2' : ∀ v : Fin n, u ≠ v.1 → pr u v = conn T (gap r φ R ω ⟨u, hu⟩ v) ∨ (pr u v = 0 ∧ conn T (gap r φ R ω ⟨u, hu⟩ v) < ε) := by
      intro v huv
      have := h2 u v (by rw [hlen]; exact hu) (by rw [hlen]; exact v.2) huv
      rwa [show hypPairProb (List.ofFn fun i => r i ω) (List.ofFn fun i => φ i ω) R T u v = conn T (gap r φ R ω ⟨u, hu⟩ v) from prob_gap hT0 ω ⟨u, hu⟩ v,
        ← hε] at this
    rw [← (finCongr hlen.symm).sum_comp]
    simp only [finCongr_apply, Fin.val_cast]
    unfold rowSum
    simp only [Fin.ext_iff]
    constructor
    · refine ENNReal.ofReal_le_ofReal (Finset.sum_le_sum fun v _ => ?_)
      split_ifs with huv
      · rfl
      · rcases h2' v huv with h | h
        · rw [h]
        · rw [h.1]; exact conn_nonneg' (gap_pos ω _ v).le
    · refine ENNReal.ofReal_le_ofReal (Finset.sum_le_sum fun v _ => ?_)
      split_ifs with huv
      · rfl
      · have h5 : 0 ≤ min (conn T (gap r φ R ω ⟨u, hu⟩ v)) ε := le_min (conn_nonneg' (gap_pos ω _ v).le) hε0.le
        rcases h2' v huv with h | h
        · rw [h]; linarith
        · rw [h.1, min_eq_left h.2.le]; simp
  have mE := nodeError_meas (α := α) (γ := γ)
  have mC := conn_measurable T
  constructor
  · refine le_trans ?_ (lintegral_mono fun ω => (key ω).2)
    refine le_trans (le_of_eq ?_) (le_row hp hαR' ⟨u, hu⟩ hA (h := fun v => conn T v - min (conn T v) ε) (fun v hv => sub_nonneg.2 (min_le_left _ _))
      (mC.sub (mC.min measurable_const))
      (k := fun x => 2 / Real.pi * xi α * Real.exp (-x / 2) * connC T * (1 - 2.1 * Real.exp (-((α - 1 / 2) * R)) -
        (ε ^ (1 - T) / (1 - T) + 5 * nodeError α γ x) * slack α R))
      (by fun_prop) fun p h0 h1 => ?_)
    · refine lintegral_congr fun ω => ?_
      rw [hrgNode_eq, hε]
      congr 1
      ring
    · exact node_trunc hT0 hT1 hγ0 hγ hTγ hγα hR hαR hε0 p h0 h1
  · refine (lintegral_mono fun ω => (key ω).1).trans ?_
    refine (row_le hp hαR' ⟨u, hu⟩ hA (fun v hv => conn_nonneg' hv.le) mC
      (k := fun x => 2 / Real.pi * xi α * Real.exp (-x / 2) * connC T * ((1 + 2 * nodeError α γ x) * slack α R))
      (by fun_prop) fun p => node_upper' hT0.le hT1 hγ0 hγ hTγ hγα hR hαR' p).trans (le_of_eq ?_)
    refine lintegral_congr fun ω => ?_
    rw [hrgNode_eq]
    congr 1
    ring

end Random

/-- `C96_threshold`: 100000 nodes, `α = 1`, `R = 20`, `T = 0`, and the outcomes in which node 7 has radius at least 16: the mean degree is at least 0.96 times the mean
of the leading term -/
example : ∃ (radii angles : (ℤ → ℕ → ℝ) → List XR) (out : (ℤ → ℕ → ℝ) → List (ℕ × ℕ)) (ρ : (ℤ → ℕ → ℝ) → ℝ),
    (∀ ω, (radii ω)[7]? = some (fin (ρ ω))) ∧
    (∀ ω, HGenerateEdges (exampleHEnv true 1 (by norm_num) (by norm_num)) idealRng (fun _ _ => 0) (radii ω) (angles ω) (fin 0) (fin 20) (out ω)) ∧
    ∫⁻ ω in {ω | ρ ω ∈ Set.Ici 16}, ENNReal.ofReal (hrgNodeDegree 99999 1 0 (ρ ω) * 0.96) ∂(Measure.infinitePi fun _ : ℤ => seqMeasure) ≤
      ∫⁻ ω in {ω | ρ ω ∈ Set.Ici 16}, (degreeOf 7 (out ω) : ℝ≥0∞) ∂(Measure.infinitePi fun _ : ℤ => seqMeasure) := by
  obtain ⟨radii, angles, hs⟩ := exampleSampled (n := 100000) (by norm_num) (α := 1) (R := 20) one_pos (by norm_num)
  obtain ⟨ρ, φ, hp, ho⟩ := sampled_random hs (by norm_num) one_pos (by norm_num) (by norm_num)
  have hex : ∀ ω, ∃ out, HGenerateEdges (exampleHEnv true 1 (by norm_num) (by norm_num)) idealRng (fun _ _ => 0) (radii ω) (angles ω) (fin 0) (fin 20) out := by
    intro ω
    rw [(ho ω).1, (ho ω).2, xw_ofFn, xw_ofFn]
    exact (C44_returns_iff (random_input hp (by norm_num) (by norm_num) le_rfl (Or.inr (by norm_num)) ω) _ _ idealRng_unit _).2 (Or.inl rfl)
  choose out hout using hex
  have hρ : ∀ ω, (radii ω)[7]? = some (fin (ρ ⟨7, by norm_num⟩ ω)) := by
    intro ω
    rw [(ho ω).1, List.getElem?_ofFn, dif_pos (by norm_num)]
  refine ⟨radii, angles, out, _, hρ, hout, ?_⟩
  refine le_trans ?_ (C96_threshold (n := 100000) (γ := 7 / 4) hs (by norm_num) (Or.inr (by norm_num)) (by norm_num) (by norm_num) (by norm_num) (by norm_num) _
    idealRng_unit.geo _ hout (u := 7) (by norm_num) hρ measurableSet_Ici).1
  refine setLIntegral_mono' (row_sets hp ⟨7, by norm_num⟩ measurableSet_Ici) fun ω hω => ENNReal.ofReal_le_ofReal ?_
  have e : (((100000 : ℕ) : ℝ) - 1) = 99999 := by norm_num
  rw [e]
  have hr : 16 ≤ ρ ⟨7, by norm_num⟩ ω := hω
  generalize ρ ⟨7, by norm_num⟩ ω = r at hr
  have h1 := Real.exp_one_gt_d9
  have h6 : Real.exp (-6) ≤ 0.0026 := by
    have h2 : Real.exp 6 * Real.exp (-6) = 1 := by rw [← Real.exp_add]; norm_num
    have h3 : Real.exp 6 = Real.exp 1 ^ 6 := by rw [← Real.exp_nat_mul]; norm_num
    have h4 : (2.71 : ℝ) ^ 6 ≤ Real.exp 1 ^ 6 := pow_le_pow_left₀ (by norm_num) (by linarith) 6
    have h5 := Real.exp_pos (-6)
    rw [h3] at h2
    nlinarith
  have h10 : Real.exp (-10) ≤ 0.0026 := le_trans (Real.exp_le_exp.2 (by norm_num)) h6
  have h20 : Real.exp (-20) ≤ 0.0026 := le_trans (Real.exp_le_exp.2 (by norm_num)) h6
  have hne : nodeError 1 (7 / 4) r ≤ 0.0104 := by
    unfold nodeError kappa
    have : Real.exp (-((7 / 4 - 1) * r / 2)) ≤ Real.exp (-6) := Real.exp_le_exp.2 (by linarith)
    rw [show ((1 : ℝ) - 1 / 2) / (1 - 7 / 4 / 2) = 4 by norm_num]
    linarith
  have hne0 : 0 ≤ nodeError 1 (7 / 4) r := by
    unfold nodeError kappa
    have := Real.exp_pos (-((7 / 4 - 1) * r / 2))
    norm_num
    positivity
  have hsl : slack 1 20 ≤ 1.01 ∧ 0 ≤ slack 1 20 := by
    unfold slack
    rw [show -(1 * 20 : ℝ) = -20 by norm_num]
    constructor
    · rw [div_le_iff₀ (by linarith)]
      linarith
    · exact div_nonneg zero_le_one (by linarith)
  have hd : 0 ≤ hrgNodeDegree 99999 1 0 r := by
    unfold hrgNodeDegree xi
    have := Real.pi_pos
    have := Real.exp_pos (-r / 2)
    norm_num
    positivity
  refine mul_le_mul_of_nonneg_left ?_ hd
  rw [show (-(((1 : ℝ) - 1 / 2) * 20)) = -10 by norm_num]
  have : nodeError 1 (7 / 4) r * slack 1 20 ≤ 0.0104 * 1.01 := mul_le_mul hne hsl.1 hsl.2 (by norm_num)
  nlinarith

/-- `C96_expected`: the same points at temperature 1/2 -/
example : ∃ (radii angles : (ℤ → ℕ → ℝ) → List XR) (ρ : (ℤ → ℕ → ℝ) → ℝ), (∀ ω, (radii ω)[7]? = some (fin (ρ ω))) ∧
    ∫⁻ ω in {ω | ρ ω ∈ Set.Ici 16}, hypExpectedNodeDegree (exampleHEnv true 1 (by norm_num) (by norm_num)) idealRng seqMeasure le_rfl (radii ω) (angles ω)
      (fin (1 / 2)) (fin 20) 7 ∂(Measure.infinitePi fun _ : ℤ => seqMeasure) ≤
    ∫⁻ ω in {ω | ρ ω ∈ Set.Ici 16}, ENNReal.ofReal (hrgNodeDegree ((100000 : ℕ) - 1) 1 (1 / 2) (ρ ω) * ((1 + 2 * nodeError 1 (7 / 4) (ρ ω)) * slack 1 20))
      ∂(Measure.infinitePi fun _ : ℤ => seqMeasure) := by
  obtain ⟨radii, angles, hs⟩ := exampleSampled (n := 100000) (by norm_num) (α := 1) (R := 20) one_pos (by norm_num)
  obtain ⟨ρ, φ, hp, ho⟩ := sampled_random hs (by norm_num) one_pos (by norm_num) (by norm_num)
  have hρ : ∀ ω, (radii ω)[7]? = some (fin (ρ ⟨7, by norm_num⟩ ω)) := by
    intro ω
    rw [(ho ω).1, List.getElem?_ofFn, dif_pos (by norm_num)]
  have hlog : Real.log 99 ≤ 20 := by
    have : Real.log 99 < 5 := by
      rw [Real.log_lt_iff_lt_exp (by norm_num), show (5 : ℝ) = ((5 : ℕ) : ℝ) * 1 by norm_num, Real.exp_nat_mul]
      have h1 := Real.exp_one_gt_d9
      have h4 : (2.7 : ℝ) ^ 5 ≤ Real.exp 1 ^ 5 := pow_le_pow_left₀ (by norm_num) (by linarith) 5
      have h5 : (99 : ℝ) < 2.7 ^ 5 := by norm_num
      exact h5.trans_le h4
    linarith
  exact ⟨radii, angles, _, hρ, (C96_expected (n := 100000) (γ := 7 / 4) (T := 1 / 2) hs (by norm_num) (Or.inr (by norm_num)) (by norm_num) (by norm_num)
    (by norm_num) (by norm_num) (by norm_num) (by norm_num) (by norm_num) (by linarith) _ idealRng_ideal idealRng_unit (Or.inl rfl) le_rfl (fun h => absurd rfl h)
    (by norm_num) hρ measurableSet_Ici).2⟩

end Girgs.Props
