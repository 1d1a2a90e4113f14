import Verif.Proofs.HypPairs
import Verif.Proofs.DegreeLaw
import Verif.Props.HyperExact
import Verif.Props.HyperLaw
import Verif.Props.Degree
import Verif.Props.Radius
/-
C94: the hyperbolic random graph has the requested expected average degree.
-/
namespace Girgs.Props
open CFloat Spec MeasureTheory ProbabilityTheory HypDeg Radius
open XR (fin)
open scoped ENNReal

/-! ### fixed points -/

section Points
variable {radii angles : List ℝ} {T R : ℝ}

/-- C94, for fixed points and `T > 2^-52`, `2 T ln 99 ≤ R`: there are probabilities `pr u v`, equal to the documented connection probabilities except for
pairs for which these are below `10^-6`, such that for all environments in which the call returns, ideal random numbers and independent generators, as
many as `generate` creates, the expected number of edges of the result is the sum of the `pr u v`. -/
theorem C94_points (hin : HypInput radii angles T R) (hT : 1 / 4503599627370496 < T) (hfil : 2 * T * Real.log 99 ≤ R) :
    ∃ pr : ℕ → ℕ → ℝ, (∀ u v, pr u v = pr v u) ∧
      (∀ u v, u < radii.length → v < radii.length → u ≠ v →
        pr u v = hypPairProb radii angles R T u v ∨ (pr u v = 0 ∧ hypPairProb radii angles R T u v < 1 / 1000000)) ∧
      ∀ (env : HEnv) (rng : Tree.Rng XR) [MeasurableSpace rng.G] (μ : Measure rng.G), IdealRng rng μ → UnitRng rng →
        (env.threads = 1 ∨ ∃ L, HTree.firstParallelLevel XR env.threads = some L ∧
          Real.cosh R < hypCosh (R - 1) (Real.pi / 2 ^ (L - 1)) (R - 1) 0) →
        ∀ (n : ℕ) (hn : 1 ≤ n), (env.threads ≠ 1 → ∃ L tasks, HTree.firstParallelLevel XR env.threads = some L ∧
          HTree.numTasks L = some tasks ∧ env.threads - 1 + tasks ≤ n) →
        2 * hypExpectedEdges env rng μ hn (xw radii) (xw angles) (fin T) (fin R) =
          ENNReal.ofReal (∑ u : Fin radii.length, ∑ v : Fin radii.length, if u = v then 0 else pr u v) := by
  have hT0 : 0 < T := lt_trans (by norm_num) hT
  obtain ⟨H, hH⟩ := hconstructed_exists true (XR.fin T) (HypInput.inputOK hin) 1 le_rfl (by norm_num)
  have b := hH.builtX hin
  refine ⟨hedgePr H radii angles R T, hedgePr_comm, fun u v hu hv huv => b.edgePr_spec hin hT0 hu hv huv, ?_⟩
  intro env rng _ μ hid ur hret n hn hgens
  have hH' := hH.setDebug env.ndebug
  have b' := hH'.builtX hin
  have epr : hedgePr H radii angles R T = hedgePr { H with ndebug := env.ndebug } radii angles R T := rfl
  have hun : (hUnits env { H with ndebug := env.ndebug } (hpair R) (startLevel env.threads)).length ≤ n := by
    rw [length_hUnits]
    by_cases h1 : env.threads = 1
    · rw [if_pos h1]; exact hn
    · rw [if_neg h1]
      have st := hstartOK_XR env
      obtain ⟨L, nt, e1, e2, e3⟩ := hgens h1
      have e8 := st.eq h1
      rw [e1, Option.some.injEq] at e8
      subst e8
      obtain ⟨nt', k1, _, k2, _⟩ := length_hTasks (H := { H with ndebug := env.ndebug }) env st.two st.le
      rw [e2, Option.some.injEq] at k1
      omega
  have hex : ∀ g : Fin n → rng.G, ∃ out, HGenerateEdges env rng (gensOf hn g) (xw radii) (xw angles) (XR.fin T) (XR.fin R) out :=
    fun g => (C44_returns_iff hin env rng ur (gensOf hn g)).2 hret
  choose result hres using hex
  obtain ⟨L, hL, hev⟩ := hresult_event hid ur b' hH' hin hT hfil hn hun result hres
  have honce : EachPairOnce radii.length (L.map Prod.fst) := eachPairOnce_perm (hL.map _) (b'.allCoins_once (List.Perm.refl _))
  have hsim := EachPairOnce.simple honce (List.Subperm.refl _)
  have hunit : ∀ u v, u < radii.length → v < radii.length → u ≠ v → 0 ≤ hedgePr H radii angles R T u v ∧ hedgePr H radii angles R T u v ≤ 1 := by
    intro u v hu hv huv
    rcases b.edgePr_spec hin hT0 hu hv huv with h | h
    · rw [h]; exact hypPairProb_bounds u v
    · rw [h.1]; norm_num
  have hset : ∀ k : ℕ, {g | ∃ out, HGenerateEdges env rng (gensOf hn g) (xw radii) (xw angles) (XR.fin T) (XR.fin R) out ∧ out.length = k} =
      {g | (result g).length = k} := by
    intro k
    ext g
    simp only [Set.mem_setOf_eq]
    constructor
    · rintro ⟨out, h1, h2⟩
      rw [← h2]; exact ((same_gens_perm hin ur h1 (hres g)).length_eq).symm
    · intro h
      exact ⟨_, hres g, h⟩
  have e1 : ∀ k : ℕ, (k : ℝ≥0∞) * (Measure.pi fun _ : Fin n => μ)
      {g | ∃ out, HGenerateEdges env rng (gensOf hn g) (xw radii) (xw angles) (XR.fin T) (XR.fin R) out ∧ out.length = k} =
      ∑' es, flips L es * (if es.length = k then (k : ℝ≥0∞) else 0) := by
    intro k
    rw [hset, hev (fun es => es.length = k) (fun es fs h => by rw [h.length_eq]), ← ENNReal.tsum_mul_left]
    refine tsum_congr fun es => ?_
    by_cases h : es.length = k
    · rw [Set.indicator_of_mem (by exact h), if_pos h, Pi.one_apply, mul_one, mul_comm]
    · rw [Set.indicator_of_notMem (by exact h), if_neg h, mul_zero, mul_zero]
  have e2 : ∀ es : List (ℕ × ℕ), ∑' k : ℕ, flips L es * (if es.length = k then (k : ℝ≥0∞) else 0) = flips L es * es.length := by
    intro es
    rw [tsum_eq_single es.length]
    · rw [if_pos rfl]
    · intro k hk
      rw [if_neg (Ne.symm hk), mul_zero]
  have e3 : hypExpectedEdges env rng μ hn (xw radii) (xw angles) (fin T) (fin R) =
      ENNReal.ofReal (∑ e ∈ upairs radii.length, hedgePr H radii angles R T e.1 e.2) := by
    unfold hypExpectedEdges
    rw [tsum_congr e1, ENNReal.tsum_comm, tsum_congr e2, flips_length, ENNReal.ofReal_sum_of_nonneg]
    · rw [← sum_eachPair honce hsim (fun u v => ENNReal.ofReal (hedgePr H radii angles R T u v)) (fun u v => by rw [hedgePr_comm]), List.map_map]
      congr 1
      apply List.map_congr_left
      rintro ⟨⟨u, v⟩, q⟩ hm
      have hi := honce.1 _ (List.mem_map.2 ⟨_, hm, rfl⟩)
      simp only at hi
      have e1 := b'.edgePr_eq (hL.mem_iff.1 hm)
      rw [← epr] at e1
      have hb := hunit u v hi.1 hi.2.1 hi.2.2
      rw [e1] at hb
      simp only [Function.comp, e1, unit_eq hb.1 hb.2]
    · intro e he
      have := mem_upairs.1 he
      exact (hunit _ _ (by omega) this.2 (by omega)).1
  rw [e3, sum_upairs (f := hedgePr H radii angles R T) hedgePr_comm, ENNReal.ofReal_mul (by norm_num)]
  simp

end Points

/-! ### random points -/

section Random
variable {Ω : Type} [MeasurableSpace Ω] {P : Measure Ω} {omp : Omp} {eng : Engine XR} [MeasurableSpace eng.G] {μ : Measure eng.G}
  {σ : ℤ → Ω → eng.G} {device : ℕ → Ω → eng.G} {n : ℕ} {α R T γ : ℝ} {radii angles : Ω → List XR} {rng : Tree.Rng XR}

theorem xw_ofFn {n : ℕ} (f : Fin n → ℝ) : (List.ofFn fun i => fin (f i)) = xw (List.ofFn f) := by
  unfold xw
  rw [List.map_ofFn]
  rfl

theorem random_input {ρ φ : Fin n → Ω → ℝ} (hp : RandomPoints P n α R ρ φ) (hn : 1 ≤ n) (h31 : n < 2147483648) (hT : 0 ≤ T)
    (hdisk : (2 / 3 ≤ R ∧ R ≤ 1) ∨ (4 / 3 ≤ R ∧ R ≤ 165 / 4)) (ω : Ω) : HypInput (List.ofFn fun i => ρ i ω) (List.ofFn fun i => φ i ω) T R where
  len := by simp
  pos := by simpa using hn
  small := by simpa using h31
  radius r hr := by
    obtain ⟨i, rfl⟩ := List.mem_ofFn.1 hr
    exact ⟨(hp.rangeR i ω).1, (hp.rangeR i ω).2.le⟩
  angle a ha := by
    obtain ⟨i, rfl⟩ := List.mem_ofFn.1 ha
    exact hp.rangeA i ω
  temp := hT
  disk := hdisk

theorem rule_gap {ρ φ : Fin n → Ω → ℝ} (ω : Ω) (u v : Fin n) :
    HypRule (List.ofFn fun i => ρ i ω) (List.ofFn fun i => φ i ω) R u v ↔ gap ρ φ R ω u v < 1 := by
  unfold HypRule gap
  rw [Real.exp_lt_one_iff]
  simp only [List.getElem?_ofFn, u.2, v.2, dif_pos, Fin.eta, Option.some.injEq]
  constructor
  · rintro ⟨r, s, a, b, rfl, rfl, rfl, rfl, h⟩
    linarith
  · intro h
    exact ⟨_, _, _, _, rfl, rfl, rfl, rfl, by linarith⟩

theorem prob_gap {ρ φ : Fin n → Ω → ℝ} (hT : 0 < T) (ω : Ω) (u v : Fin n) :
    hypPairProb (List.ofFn fun i => ρ i ω) (List.ofFn fun i => φ i ω) R T u v = conn T (gap ρ φ R ω u v) := by
  unfold hypPairProb gap conn
  rw [if_neg hT.ne']
  simp only [List.getElem?_ofFn, u.2, v.2, dif_pos, Fin.eta]
  unfold hypProb
  rw [← Real.exp_mul]
  congr 3
  field_simp

open Classical in
/-- C94, `T = 0`.  `n` points of the disk are drawn (ideal engines, independently started), then `generateEdges` is run with temperature 0, in any environment
and with any random numbers.  The expected average degree of the result is the published leading term for `n-1` other nodes, up to the relative errors
given: for every `γ ≤ 2` with `1 ≤ γ < 2α`, of order `exp(-(γ-1)R/2)` and `exp(-(α-1/2)R)`. -/
theorem C94_threshold (hs : SampledPoints P omp eng μ σ device n α R radii angles) (hn : 1 ≤ n) (h31 : n < 2147483648)
    (hdisk : (2 / 3 ≤ R ∧ R ≤ 1) ∨ (4 / 3 ≤ R ∧ R ≤ 165 / 4)) (hγ0 : 1 ≤ γ) (hγ : γ ≤ 2) (hγα : γ < 2 * α) (hαR : 1 ≤ (α - 1 / 2) * R)
    (env : Ω → HEnv) (hgeo : GeoBounded rng) (gens : Ω → ℕ → rng.G) {out : Ω → List (ℕ × ℕ)}
    (h : ∀ ω, HGenerateEdges (env ω) rng (gens ω) (radii ω) (angles ω) (fin 0) (fin R) (out ω)) :
    ENNReal.ofReal (hrgDegree (n - 1) α 0 R * ((1 - 2.1 * Real.exp (-((α - 1 / 2) * R))) ^ 2 - 3 * degreeError α γ R * slack α R ^ 2)) ≤
      resultDegree P n (fun ω => ((out ω).length : ℝ≥0∞)) ∧
    resultDegree P n (fun ω => ((out ω).length : ℝ≥0∞)) ≤
      ENNReal.ofReal (hrgDegree (n - 1) α 0 R * ((1 + 2 * degreeError α γ R) * slack α R ^ 2)) := by
  have hR : 0 < R := by rcases hdisk with h | h <;> linarith
  have hα : 0 < α := by linarith
  have hαR' : 1 ≤ α * R := by nlinarith
  obtain ⟨ρ, φ, hp, ho⟩ := sampled_random hs hn hα hR hαR'
  have e : ∀ ω, 2 * ((out ω).length : ℝ≥0∞) = ENNReal.ofReal (allPairs ρ φ R (conn 0) ω) := by
    intro ω
    have h1 := h ω
    rw [(ho ω).1, (ho ω).2, xw_ofFn, xw_ofFn] at h1
    have hin := random_input hp hn h31 le_rfl hdisk ω
    have h2 := graph_count (fun _ _ h => hypRule_symm h) (C45_threshold_exact hin _ rng hgeo _ _ h1)
    rw [List.length_ofFn] at h2
    have h3 := pairCount_sum n (HypRule (List.ofFn fun i => ρ i ω) (List.ofFn fun i => φ i ω) R)
    have h4 : allPairs ρ φ R (conn 0) ω = 2 * (pairCount n (HypRule (List.ofFn fun i => ρ i ω) (List.ofFn fun i => φ i ω) R) : ℝ) := by
      rw [h3, ← sum_upairs (f := fun u v => if HypRule (List.ofFn fun i => ρ i ω) (List.ofFn fun i => φ i ω) R u v then 1 else 0)]
      · unfold allPairs
        refine Finset.sum_congr rfl fun u _ => Finset.sum_congr rfl fun v _ => ?_
        congr 1
        unfold conn
        simp only [if_true, rule_gap]
      · intro u v
        simp only [show HypRule (List.ofFn fun i => ρ i ω) (List.ofFn fun i => φ i ω) R u v ↔ HypRule (List.ofFn fun i => ρ i ω) (List.ofFn fun i => φ i ω) R v u
          from ⟨hypRule_symm, hypRule_symm⟩]
    rw [h4, ← h2, ENNReal.ofReal_mul (by norm_num), ENNReal.ofReal_natCast]
    simp
  have hn0 : (n : ℝ) ≠ 0 := by exact_mod_cast (by omega : n ≠ 0)
  constructor
  · have := pairs_lower hp hn hγ0 hγ hγα hR (T := 0) le_rfl one_pos (by norm_num) hαR
    simp only [← e] at this
    have := degree_of_pairs' this hn
    rwa [mul_div_assoc, div_self hn0, mul_one] at this
  · have := pairs_upper hp hn hγ0 hγ hγα hR (T := 0) le_rfl one_pos (by norm_num) hαR'
    simp only [← e] at this
    have := degree_of_pairs this hn
    rwa [mul_div_assoc, div_self hn0, mul_one] at this

/-- C94, `2^-52 < T < 1`.  `n` points of the disk are drawn (ideal engines, independently started), then `generateEdges` is run in an environment in which it
returns (C44), with ideal random numbers that are independent of the points.  The expected average degree of the result is the published leading term for
`n-1` other nodes, up to the relative errors given: for every `γ ≤ 2` with `1 ≤ γ < 2α` and `γ ≤ 1/T`, of order `exp(-(γ-1)R/2)`, `exp(-(α-1/2)R)` and
`10^(-6(1-T))`. -/
theorem C94_expected (hs : SampledPoints P omp eng μ σ device n α R radii angles) (hn : 1 ≤ n) (h31 : n < 2147483648)
    (hdisk : (2 / 3 ≤ R ∧ R ≤ 1) ∨ (4 / 3 ≤ R ∧ R ≤ 165 / 4)) (hγ0 : 1 ≤ γ) (hγ : γ ≤ 2) (hγα : γ < 2 * α) (hαR : 1 ≤ (α - 1 / 2) * R)
    (hT : 1 / 4503599627370496 < T) (hT1 : T < 1) (hTγ : T * γ ≤ 1) (hfil : 2 * T * Real.log 99 ≤ R) (env : HEnv) [MeasurableSpace rng.G]
    {ν : Measure rng.G} (hr : IdealRng rng ν) (hu : UnitRng rng)
    (hret : env.threads = 1 ∨ ∃ L, HTree.firstParallelLevel XR env.threads = some L ∧
      Real.cosh R < hypCosh (R - 1) (Real.pi / 2 ^ (L - 1)) (R - 1) 0) {m : ℕ} (hm : 1 ≤ m)
    (hgens : env.threads ≠ 1 → ∃ L tasks, HTree.firstParallelLevel XR env.threads = some L ∧
      HTree.numTasks L = some tasks ∧ env.threads - 1 + tasks ≤ m) :
    ENNReal.ofReal (hrgDegree (n - 1) α T R * ((1 - 2.1 * Real.exp (-((α - 1 / 2) * R))) ^ 2 -
        ((1 / 1000000) ^ (1 - T) / (1 - T) + 5 * degreeError α γ R) * slack α R ^ 2)) ≤
      resultDegree P n (fun ω => hypExpectedEdges env rng ν hm (radii ω) (angles ω) (fin T) (fin R)) ∧
    resultDegree P n (fun ω => hypExpectedEdges env rng ν hm (radii ω) (angles ω) (fin T) (fin R)) ≤
      ENNReal.ofReal (hrgDegree (n - 1) α T R * ((1 + 2 * degreeError α γ R) * slack α R ^ 2)) := by
  have hR : 0 < R := by rcases hdisk with h | h <;> linarith
  have hT0 : 0 < T := lt_trans (by norm_num) hT
  have hα : 0 < α := by linarith
  have hαR' : 1 ≤ α * R := by nlinarith
  obtain ⟨ρ, φ, hp, ho⟩ := sampled_random hs hn hα hR hαR'
  set ε : ℝ := 1 / 1000000 with hε
  have key : ∀ ω, 2 * hypExpectedEdges env rng ν hm (radii ω) (angles ω) (fin T) (fin R) ≤ ENNReal.ofReal (allPairs ρ φ R (conn T) ω) ∧
      ENNReal.ofReal (allPairs ρ φ R (conn T) ω) ≤ 2 * hypExpectedEdges env rng ν hm (radii ω) (angles ω) (fin T) (fin R) +
        ENNReal.ofReal (allPairs ρ φ R (fun v => min (conn T v) ε) ω) := by
    intro ω
    have hin := random_input hp hn h31 hT0.le hdisk ω
    obtain ⟨pr, _, h2, h3⟩ := C94_points hin hT hfil
    have e := h3 env rng ν hr hu hret m hm hgens
    rw [← xw_ofFn, ← xw_ofFn, ← (ho ω).1, ← (ho ω).2] at e
    have hlen : (List.ofFn fun i => ρ i ω).length = n := List.length_ofFn
    rw [e]
    have h2' : ∀ u v : Fin n, u ≠ v → pr u v = conn T (gap ρ φ R ω u v) ∨ (pr u v = 0 ∧ conn T (gap ρ φ R ω u v) < ε) := by
      intro u v huv
      have := h2 u v (by rw [hlen]; exact u.2) (by rw [hlen]; exact v.2) (fun h => huv (Fin.ext h))
      rwa [prob_gap hT0] at this
    have e2 : (∑ u : Fin (List.ofFn fun i => ρ i ω).length, ∑ v : Fin (List.ofFn fun i => ρ i ω).length, if u = v then 0 else pr u v) =
        ∑ u : Fin n, ∑ v : Fin n, if u = v then 0 else pr u v := by
      rw [← (finCongr hlen).sum_comp]
      refine Finset.sum_congr rfl fun u _ => ?_
      rw [← (finCongr hlen).sum_comp]
      refine Finset.sum_congr rfl fun v _ => ?_
      simp [Fin.ext_iff]
    rw [e2]
    constructor
    · refine ENNReal.ofReal_le_ofReal ?_
      unfold allPairs
      refine Finset.sum_le_sum fun u _ => Finset.sum_le_sum fun v _ => ?_
      split
      · rfl
      · rename_i huv
        rcases h2' u v huv with h | h
        · rw [h]
        · rw [h.1]; exact conn_nonneg' (gap_pos ω u v).le
    · have h0 : 0 ≤ ∑ u : Fin n, ∑ v : Fin n, if u = v then 0 else pr u v := by
        refine Finset.sum_nonneg fun u _ => Finset.sum_nonneg fun v _ => ?_
        split
        · rfl
        · rename_i huv
          rcases h2' u v huv with h | h
          · rw [h]; exact conn_nonneg' (gap_pos ω u v).le
          · rw [h.1]
      rw [← ENNReal.ofReal_add h0 (allPairs_nonneg (fun v hv => le_min (conn_nonneg' hv.le) (by norm_num [hε])) ω)]
      refine ENNReal.ofReal_le_ofReal ?_
      unfold allPairs
      rw [← Finset.sum_add_distrib]
      refine Finset.sum_le_sum fun u _ => ?_
      rw [← Finset.sum_add_distrib]
      refine Finset.sum_le_sum fun v _ => ?_
      split
      · simp
      · rename_i huv
        have h5 : 0 ≤ min (conn T (gap ρ φ R ω u v)) ε := le_min (conn_nonneg' (gap_pos ω u v).le) (by norm_num [hε])
        beta_reduce
        rcases h2' u v huv with h | h
        · rw [h]; linarith
        · rw [h.1, min_eq_left h.2.le]; simp
  have hn0 : (n : ℝ) ≠ 0 := by exact_mod_cast (by omega : n ≠ 0)
  constructor
  · have q1 := pairs_lower hp hn hγ0 hγ hγα hR (T := T) hT0.le hT1 hTγ hαR
    have q2 := pairs_small hp hn hγ0 hγ hγα hR (T := T) hT0 hT1 hTγ hαR' (ε := ε) (by norm_num [hε])
    have q3 : ∫⁻ ω, ENNReal.ofReal (allPairs ρ φ R (conn T) ω) ∂P ≤
        (∫⁻ ω, 2 * hypExpectedEdges env rng ν hm (radii ω) (angles ω) (fin T) (fin R) ∂P) +
          ∫⁻ ω, ENNReal.ofReal (allPairs ρ φ R (fun v => min (conn T v) ε) ω) ∂P := by
      refine (lintegral_mono fun ω => (key ω).2).trans (le_of_eq ?_)
      refine lintegral_add_right _ ?_
      exact allPairs_measurable hp ((conn_measurable T).min measurable_const)
    have h1n := one_le_n hn
    have hd0 : 0 ≤ hrgDegree ((n : ℝ) - 1) α T R := by
      rw [hrg_eq]
      have := one_le_connC hT0.le hT1
      exact mul_nonneg (mul_nonneg (by linarith) lead_nonneg) (by linarith)
    set A := hrgDegree ((n : ℝ) - 1) α T R * ((1 - 2.1 * Real.exp (-((α - 1 / 2) * R))) ^ 2 - 3 * degreeError α γ R * slack α R ^ 2) * n with hA
    set B := hrgDegree ((n : ℝ) - 1) α T R * ((ε ^ (1 - T) / (1 - T) + 2 * degreeError α γ R) * slack α R ^ 2) * n with hB
    have hB0 : 0 ≤ B := by
      have h1 : 0 ≤ ε ^ (1 - T) / (1 - T) := div_nonneg (Real.rpow_nonneg (by norm_num [hε]) _) (by linarith)
      have h2 := degreeError_nonneg (α := α) (γ := γ) (R := R)
      exact mul_nonneg (mul_nonneg hd0 (mul_nonneg (by linarith) (sq_nonneg _))) (by linarith)
    have q4 : ENNReal.ofReal (A - B) ≤ ∫⁻ ω, 2 * hypExpectedEdges env rng ν hm (radii ω) (angles ω) (fin T) (fin R) ∂P := by
      rw [ENNReal.ofReal_sub _ hB0]
      exact tsub_le_iff_right.2 (q1.trans (q3.trans (add_le_add le_rfl q2)))
    have := degree_of_pairs' q4 hn
    refine le_trans (ENNReal.ofReal_le_ofReal (le_of_eq ?_)) this
    rw [hA, hB]
    field_simp
    ring
  · have q1 := pairs_upper hp hn hγ0 hγ hγα hR (T := T) hT0.le hT1 hTγ hαR'
    have := degree_of_pairs ((lintegral_mono fun ω => (key ω).1).trans q1) hn
    rwa [mul_div_assoc, div_self hn0, mul_one] at this

/-- the leading term for the radius that `calculateRadius` returns -/
theorem hrg_requested {deg : ℝ} (hn : 1 ≤ n) (h30 : n < 2 ^ 30) (hα : 1 / 2 < α) (h0 : 0 ≤ T) (h1 : T < 1) (hd : 0 < deg)
    (hc : calculateRadius n (fin α) (fin T) (fin deg) = some (fin R)) : hrgDegree (n - 1) α T R = deg * (1 - 1 / n) := by
  obtain ⟨R', h2, h3⟩ := C51_inverts (n := n) (by exact_mod_cast hn) (by exact_mod_cast h30) hα h0 h1 hd
  rw [h2, Option.some.injEq] at hc
  have h4 := (h3 R).2 (XR.fin.inj hc).symm
  have hn0 : (n : ℝ) ≠ 0 := by exact_mod_cast (by omega : n ≠ 0)
  rw [← h4]
  unfold hrgDegree
  push_cast
  field_simp

theorem exp_neg_bounds {R : ℝ} (hR : 20 ≤ R) : Real.exp (-(3 * R / 8)) ≤ 0.00056 ∧ ∀ β : ℝ, 1 / 2 ≤ β → Real.exp (-(β * R)) ≤ 0.0001 := by
  have h1 := Real.exp_one_gt_d9
  have h2 : Real.exp (-1) ≤ 0.3679 := by
    rw [Real.exp_neg, inv_le_comm₀ (Real.exp_pos _) (by norm_num)]
    refine le_trans ?_ h1.le
    norm_num
  have h3 : Real.exp (-(1 / 2)) ≤ 0.6066 := by
    have : Real.exp (-(1 / 2)) ^ 2 = Real.exp (-1) := by rw [← Real.exp_nat_mul]; norm_num
    by_contra h
    push Not at h
    have := Real.exp_pos (-1 / 2)
    nlinarith
  have h4 := (Real.exp_pos (-(1 / 2))).le
  constructor
  · calc Real.exp (-(3 * R / 8)) ≤ Real.exp (-(1 / 2)) ^ 15 := by
          rw [← Real.exp_nat_mul]
          refine Real.exp_le_exp.2 ?_
          push_cast; linarith
      _ ≤ 0.6066 ^ 15 := pow_le_pow_left₀ h4 h3 15
      _ ≤ _ := by norm_num
  · intro β hβ
    calc Real.exp (-(β * R)) ≤ Real.exp (-(1 / 2)) ^ 20 := by
          rw [← Real.exp_nat_mul]
          refine Real.exp_le_exp.2 ?_
          push_cast; nlinarith
      _ ≤ 0.6066 ^ 20 := pow_le_pow_left₀ h4 h3 20
      _ ≤ _ := by norm_num

/-- the error terms for `α ≥ 1`, `R ≥ 20`, `γ = 7/4` -/
theorem error_small (hα : 1 ≤ α) (hR : 20 ≤ R) :
    0.9995 ≤ (1 - 2.1 * Real.exp (-((α - 1 / 2) * R))) ^ 2 ∧ 0 ≤ degreeError α (7 / 4) R ∧ degreeError α (7 / 4) R ≤ 0.00896 ∧ 1 ≤ slack α R ^ 2 ∧
      slack α R ^ 2 ≤ 1.001 := by
  obtain ⟨h1, h2⟩ := exp_neg_bounds hR
  have h3 := h2 (α - 1 / 2) (by linarith)
  have h4 := h2 α (by linarith)
  have p3 := Real.exp_pos (-((α - 1 / 2) * R))
  have p4 := Real.exp_pos (-(α * R))
  have hk : kappa α (7 / 4) ≤ 4 := by
    unfold kappa
    rw [div_le_iff₀ (by linarith)]; linarith
  have hk0 : 0 ≤ kappa α (7 / 4) := by
    unfold kappa
    exact div_nonneg (by linarith) (by linarith)
  refine ⟨by nlinarith, degreeError_nonneg, ?_, ?_, ?_⟩
  · unfold degreeError
    have e : (7 / 4 - 1) * R / 2 = 3 * R / 8 := by ring
    rw [e]
    have : kappa α (7 / 4) ^ 2 ≤ 16 := by nlinarith
    have := Real.exp_pos (-(3 * R / 8))
    nlinarith
  · have : 1 ≤ slack α R := by
      unfold slack
      rw [le_div_iff₀ (by linarith)]; linarith
    nlinarith
  · have h5 : slack α R ≤ 1.0004 := by
      unfold slack
      rw [div_le_iff₀ (by linarith)]; linarith
    have : 0 ≤ slack α R := by
      unfold slack
      exact div_nonneg one_pos.le (by linarith)
    nlinarith

/-- C94.  The whole pipeline for `T = 0`, `α ≥ 1`: `calculateRadius` for an average degree `deg` gives a radius `R`, `20 ≤ R ≤ 41.25`; `n` points are drawn in that
disk, `generateEdges` is run with temperature 0.  Then the expected average degree of the result is between 97% and 102% of `deg * (n-1)/n`. -/
theorem C94_requested_threshold {deg : ℝ} (h30 : n < 2 ^ 30) (hα : 1 ≤ α) (hd : 0 < deg)
    (hc : calculateRadius n (fin α) (fin 0) (fin deg) = some (fin R)) (hR : 20 ≤ R) (hR' : R ≤ 165 / 4) (hn : 1 ≤ n)
    (hs : SampledPoints P omp eng μ σ device n α R radii angles)
    (env : Ω → HEnv) (hgeo : GeoBounded rng) (gens : Ω → ℕ → rng.G) {out : Ω → List (ℕ × ℕ)}
    (h : ∀ ω, HGenerateEdges (env ω) rng (gens ω) (radii ω) (angles ω) (fin 0) (fin R) (out ω)) :
    ENNReal.ofReal (0.97 * (deg * (1 - 1 / n))) ≤ resultDegree P n (fun ω => ((out ω).length : ℝ≥0∞)) ∧
    resultDegree P n (fun ω => ((out ω).length : ℝ≥0∞)) ≤ ENNReal.ofReal (1.02 * (deg * (1 - 1 / n))) := by
  obtain ⟨h1, h2⟩ := C94_threshold (γ := 7 / 4) hs hn (by omega) (Or.inr ⟨by linarith, hR'⟩) (by norm_num) (by norm_num) (by linarith) (by nlinarith) env hgeo gens h
  rw [hrg_requested hn h30 (by linarith) le_rfl one_pos hd hc] at h1 h2
  obtain ⟨e1, e2, e3, e4, e5⟩ := error_small hα hR
  have hx : 0 ≤ deg * (1 - 1 / n) := by
    refine mul_nonneg hd.le ?_
    rw [sub_nonneg, div_le_one (by exact_mod_cast hn)]
    exact_mod_cast hn
  refine ⟨le_trans (ENNReal.ofReal_le_ofReal ?_) h1, h2.trans (ENNReal.ofReal_le_ofReal ?_)⟩
  · rw [mul_comm]
    refine mul_le_mul_of_nonneg_left ?_ hx
    nlinarith
  · rw [mul_comm (1.02 : ℝ)]
    refine mul_le_mul_of_nonneg_left ?_ hx
    nlinarith

theorem log_99 : Real.log 99 ≤ 20 := by
  rw [Real.log_le_iff_le_exp (by norm_num)]
  have h1 : (2 : ℝ) ≤ Real.exp 1 := by linarith [Real.add_one_le_exp (1 : ℝ)]
  have h2 : Real.exp 1 ^ 20 = Real.exp 20 := by rw [← Real.exp_nat_mul]; norm_num
  rw [← h2]
  refine le_trans ?_ (pow_le_pow_left₀ (by norm_num) h1 20)
  norm_num

/-- C94.  The whole pipeline for `2^-52 < T ≤ 1/2`, `α ≥ 1`: `calculateRadius` for an average degree `deg` gives a radius `R`, `20 ≤ R ≤ 41.25`; `n` points are
drawn in that disk, `generateEdges` is run with independent ideal random numbers in an environment in which it returns.  Then the expected average degree of
the result is between 95% and 102% of `deg * (n-1)/n`. -/
theorem C94_requested {deg : ℝ} (h30 : n < 2 ^ 30) (hα : 1 ≤ α) (hT : 1 / 4503599627370496 < T) (hT1 : T ≤ 1 / 2) (hd : 0 < deg)
    (hc : calculateRadius n (fin α) (fin T) (fin deg) = some (fin R)) (hR : 20 ≤ R) (hR' : R ≤ 165 / 4) (hn : 1 ≤ n)
    (hs : SampledPoints P omp eng μ σ device n α R radii angles) (env : HEnv) [MeasurableSpace rng.G]
    {ν : Measure rng.G} (hr : IdealRng rng ν) (hu : UnitRng rng)
    (hret : env.threads = 1 ∨ ∃ L, HTree.firstParallelLevel XR env.threads = some L ∧
      Real.cosh R < hypCosh (R - 1) (Real.pi / 2 ^ (L - 1)) (R - 1) 0) {m : ℕ} (hm : 1 ≤ m)
    (hgens : env.threads ≠ 1 → ∃ L tasks, HTree.firstParallelLevel XR env.threads = some L ∧
      HTree.numTasks L = some tasks ∧ env.threads - 1 + tasks ≤ m) :
    ENNReal.ofReal (0.95 * (deg * (1 - 1 / n))) ≤ resultDegree P n (fun ω => hypExpectedEdges env rng ν hm (radii ω) (angles ω) (fin T) (fin R)) ∧
    resultDegree P n (fun ω => hypExpectedEdges env rng ν hm (radii ω) (angles ω) (fin T) (fin R)) ≤ ENNReal.ofReal (1.02 * (deg * (1 - 1 / n))) := by
  have hT0 : 0 < T := lt_trans (by norm_num) hT
  have h99 := log_99
  have hfil : 2 * T * Real.log 99 ≤ R := by
    have : 0 ≤ Real.log 99 := Real.log_nonneg (by norm_num)
    nlinarith
  obtain ⟨h1, h2⟩ := C94_expected (γ := 7 / 4) hs hn (by omega) (Or.inr ⟨by linarith, hR'⟩) (by norm_num) (by norm_num) (by linarith) (by nlinarith) hT
    (by linarith) (by linarith) hfil env hr hu hret hm hgens
  rw [hrg_requested hn h30 (by linarith) hT0.le (by linarith) hd hc] at h1 h2
  obtain ⟨e1, e2, e3, e4, e5⟩ := error_small hα hR
  have hx : 0 ≤ deg * (1 - 1 / n) := by
    refine mul_nonneg hd.le ?_
    rw [sub_nonneg, div_le_one (by exact_mod_cast hn)]
    exact_mod_cast hn
  have e6 : (1 / 1000000 : ℝ) ^ (1 - T) / (1 - T) ≤ 0.002 := by
    rw [div_le_iff₀ (by linarith)]
    calc (1 / 1000000 : ℝ) ^ (1 - T) ≤ (1 / 1000000 : ℝ) ^ (1 / 2 : ℝ) := Real.rpow_le_rpow_of_exponent_ge (by norm_num) (by norm_num) (by linarith)
      _ = 1 / 1000 := by
        rw [show (1 / 1000000 : ℝ) = (1 / 1000) ^ (2 : ℝ) by norm_num, ← Real.rpow_mul (by norm_num)]
        norm_num
      _ ≤ 0.002 * (1 - T) := by linarith
  refine ⟨le_trans (ENNReal.ofReal_le_ofReal ?_) h1, h2.trans (ENNReal.ofReal_le_ofReal ?_)⟩
  · rw [mul_comm]
    refine mul_le_mul_of_nonneg_left ?_ hx
    nlinarith
  · rw [mul_comm (1.02 : ℝ)]
    refine mul_le_mul_of_nonneg_left ?_ hx
    nlinarith

end Random

/-! ### the hypotheses can be met -/

/-- points drawn with the streams of `streamEngine`, one thread -/
theorem exampleSampled {n : ℕ} (hn : 1 ≤ n) {α R : ℝ} (hα : 0 < α) (hαR : 1 ≤ α * R) :
    ∃ radii angles : (ℤ → ℕ → ℝ) → List XR, SampledPoints (Measure.infinitePi fun _ : ℤ => seqMeasure) exampleOmp streamEngine seqMeasure
      (fun s ω => ω s) (fun _ _ => (fun _ => 0 : ℕ → ℝ)) n α R radii angles := by
  have ht : hyperThreads exampleOmp n false = some 1 := rfl
  obtain ⟨ρ, φ, h1, _⟩ := C92_points (P := Measure.infinitePi fun _ : ℤ => seqMeasure) (omp := exampleOmp) (σ := fun s ω => ω s)
    (device := fun _ _ => (fun _ => 0 : ℕ → ℝ)) (n := n) (seed := 12) (parallel := false) streamEngine_ideal hn hα (cosh_gap hαR) ht
    (Or.inl ⟨by norm_num, by norm_num, streamStates⟩)
  exact ⟨fun ω => List.ofFn fun i => fin (ρ i ω), fun ω => List.ofFn fun i => fin (φ i ω), streamEngine_ideal,
    Or.inl ⟨12, false, 1, ht, Or.inl ⟨by norm_num, by norm_num, streamStates⟩, fun ω => (h1 ω _ _).2 ⟨rfl, rfl⟩⟩⟩

/-- `C94_requested_threshold`: 100000 nodes, `α = 1`, and the average degree (about 11.6) for which `calculateRadius` returns 20 -/
example : ∃ (deg : ℝ) (radii angles : (ℤ → ℕ → ℝ) → List XR) (out : (ℤ → ℕ → ℝ) → List (ℕ × ℕ)), 0 < deg ∧
    calculateRadius (100000 : ℕ) (fin 1) (fin 0) (fin deg) = some (fin 20) ∧
    (∀ ω, HGenerateEdges (exampleHEnv true 1 (by norm_num) (by norm_num)) idealRng (fun _ _ => 0) (radii ω) (angles ω) (fin 0) (fin 20) (out ω)) ∧
    ENNReal.ofReal (0.97 * (deg * (1 - 1 / (100000 : ℕ)))) ≤
      resultDegree (Measure.infinitePi fun _ : ℤ => seqMeasure) 100000 (fun ω => ((out ω).length : ℝ≥0∞)) := by
  have hd : 0 < hrgDegree ((100000 : ℕ) : ℤ) 1 0 20 := by
    unfold hrgDegree xi
    have := Real.pi_pos
    have := Real.exp_pos (-20 / 2)
    norm_num
    positivity
  obtain ⟨R, h1, h2⟩ := C51_inverts (n := ((100000 : ℕ) : ℤ)) (α := 1) (T := 0) (by norm_num) (by norm_num) (by norm_num) le_rfl one_pos hd
  rw [← (h2 20).1 rfl] at h1
  obtain ⟨radii, angles, hs⟩ := exampleSampled (n := 100000) (by norm_num) (α := 1) (R := 20) one_pos (by norm_num)
  obtain ⟨ρ, φ, hp, ho⟩ := sampled_random hs (by norm_num) one_pos (by norm_num) (by norm_num)
  have hex : ∀ ω, ∃ out, HGenerateEdges (exampleHEnv true 1 (by norm_num) (by norm_num)) idealRng (fun _ _ => 0) (radii ω) (angles ω) (fin 0) (fin 20) out := by
    intro ω
    rw [(ho ω).1, (ho ω).2, xw_ofFn, xw_ofFn]
    exact (C44_returns_iff (random_input hp (by norm_num) (by norm_num) le_rfl (Or.inr (by norm_num)) ω) _ _ idealRng_unit _).2 (Or.inl rfl)
  choose out hout using hex
  exact ⟨_, radii, angles, out, hd, h1, hout, (C94_requested_threshold (n := 100000) (by norm_num) le_rfl hd h1 (by norm_num) (by norm_num) (by norm_num) hs _
    idealRng_unit.geo _ hout).1⟩

/-- `C94_requested`: 100000 nodes, `α = 1`, `T = 1/2` -/
example : ∃ (deg : ℝ) (radii angles : (ℤ → ℕ → ℝ) → List XR), 0 < deg ∧
    calculateRadius (100000 : ℕ) (fin 1) (fin (1 / 2)) (fin deg) = some (fin 20) ∧
    ENNReal.ofReal (0.95 * (deg * (1 - 1 / (100000 : ℕ)))) ≤ resultDegree (Measure.infinitePi fun _ : ℤ => seqMeasure) 100000
      (fun ω => hypExpectedEdges (exampleHEnv true 1 (by norm_num) (by norm_num)) idealRng seqMeasure le_rfl (radii ω) (angles ω) (fin (1 / 2)) (fin 20)) := by
  have hd : 0 < hrgDegree ((100000 : ℕ) : ℤ) 1 (1 / 2) 20 := by
    unfold hrgDegree xi
    have := Real.pi_pos
    have := Real.exp_pos (-20 / 2)
    have : Real.sin (Real.pi * (1 / 2)) = 1 := by rw [mul_one_div, Real.sin_pi_div_two]
    rw [this]
    norm_num
    positivity
  obtain ⟨R, h1, h2⟩ := C51_inverts (n := ((100000 : ℕ) : ℤ)) (α := 1) (T := 1 / 2) (by norm_num) (by norm_num) (by norm_num) (by norm_num) (by norm_num) hd
  rw [← (h2 20).1 rfl] at h1
  obtain ⟨radii, angles, hs⟩ := exampleSampled (n := 100000) (by norm_num) (α := 1) (R := 20) one_pos (by norm_num)
  exact ⟨_, radii, angles, hd, h1, (C94_requested (n := 100000) (by norm_num) le_rfl (by norm_num) le_rfl hd h1 (by norm_num) (by norm_num) (by norm_num) hs _
    idealRng_ideal idealRng_unit (Or.inl rfl) le_rfl (fun h => absurd rfl h)).1⟩

end Girgs.Props
