import Verif.Props.HyperNeighbourLaw
import Verif.Proofs.AllNodes
import Verif.Props.Relabel
/-
C112: the expected number of nodes of a given degree.
-/
namespace Girgs.Props
open CFloat Spec MeasureTheory ProbabilityTheory Tree Scaling
open XR (fin)
open scoped ENNReal

/-- the mean of a number of events is the sum of their probabilities -/
theorem mean_count {Ω : Type} [MeasurableSpace Ω] {P : Measure Ω} {n : ℕ} {Q : Fin n → Ω → Prop} [∀ u ω, Decidable (Q u ω)]
    (hQ : ∀ u, MeasurableSet {ω | Q u ω}) :
    ∫⁻ ω, ((Finset.univ.filter fun u => Q u ω).card : ℝ≥0∞) ∂P = ∑ u, P {ω | Q u ω} := by
  have h1 : ∀ ω, ((Finset.univ.filter fun u => Q u ω).card : ℝ≥0∞) = ∑ u, ({ω | Q u ω} : Set Ω).indicator (fun _ => 1) ω := by
    intro ω
    rw [Finset.card_filter, Nat.cast_sum]
    refine Finset.sum_congr rfl fun u _ => ?_
    by_cases h : Q u ω <;> simp [h]
  rw [lintegral_congr h1, lintegral_finset_sum _ fun u _ => measurable_const.indicator (hQ u)]
  exact Finset.sum_congr rfl fun u _ => by rw [lintegral_indicator_const (hQ u), one_mul]

/-- the integrals of finitely many functions are at most the integral of their sum -/
theorem sum_lintegral_le {Ω ι : Type} [MeasurableSpace Ω] {P : Measure Ω} (s : Finset ι) (f : ι → Ω → ℝ≥0∞) : ∑ i ∈ s, ∫⁻ ω, f i ω ∂P ≤ ∫⁻ ω, (∑ i ∈ s, f i ω) ∂P := by
  classical
  induction s using Finset.induction_on with
  | empty => simp
  | insert i s hi ih =>
    simp only [Finset.sum_insert hi]
    exact (add_le_add le_rfl ih).trans (le_lintegral_add _ _)

/-- the event that a node has degree `d` is measurable when its connections depend on measurable sets of points -/
theorem degree_measurable {Ω E : Type} [MeasurableSpace Ω] [MeasurableSpace E] {n : ℕ} {X : Ω → Fin n → E} (hX : Measurable X) (u : Fin n)
    {K : Fin n → Set (E × E)} (hK : ∀ v, MeasurableSet (K v)) {rel : Ω → ℕ → ℕ → Prop} {out : Ω → List (ℕ × ℕ)}
    (hg : ∀ ω, IsGraphOf n (rel ω) (out ω) ∧ ∀ v : Fin n, rel ω u v ↔ (X ω u, X ω v) ∈ K v) (d : ℕ) :
    MeasurableSet {ω | degreeOf u (out ω) = d} := by
  classical
  have he : {ω | degreeOf u (out ω) = d} = ⋃ S ∈ (Finset.univ.erase u).powersetCard d,
      ((⋂ v ∈ S, {ω | (X ω u, X ω v) ∈ K v}) ∩ ⋂ v ∈ (Finset.univ.erase u) \ S, {ω | (X ω u, X ω v) ∉ K v}) := by
    ext ω
    simp only [Set.mem_setOf_eq, Set.mem_iUnion, Set.mem_inter_iff, Set.mem_iInter, exists_prop]
    rw [degree_iff (hg ω).1]
    refine exists_congr fun S => and_congr_right fun hS => ?_
    have hS' := (Finset.mem_powersetCard.1 hS).1
    rw [neighbours_rel (hg ω).1 (fun h => Finset.notMem_erase u _ (hS' h)) (fun h => Finset.notMem_erase u _ (Finset.mem_sdiff.1 h).1)]
    simp only [(hg ω).2]
  have hp : ∀ v, MeasurableSet {ω | (X ω u, X ω v) ∈ K v} := fun v =>
    (((measurable_pi_apply u).comp hX).prodMk ((measurable_pi_apply v).comp hX)) (hK v)
  rw [he]
  exact Finset.measurableSet_biUnion _ fun S _ => (Finset.measurableSet_biInter _ fun v _ => hp v).inter
    (Finset.measurableSet_biInter _ fun v _ => (hp v).compl)

section Positions
variable {Ω : Type} [MeasurableSpace Ω] {P : Measure Ω} {omp : Omp} {eng : Engine XR} [MeasurableSpace eng.G] {μ : Measure eng.G}
  {σ : ℤ → Ω → eng.G} {device : ℕ → Ω → eng.G} {n : ℕ} {seed : ℤ} {parallel : Bool} {D : ℕ} {w : List ℝ} {pos : Ω → List (List XR)}
  {rng : Rng XR} [MeasurableSpace rng.G] {ν : Measure rng.G}

/-- C112, `alpha = infinity`.  The positions are drawn with a supported seed (ideal engines, independently started) for supported weights, then `generateEdges` is run in
any environment.  The expected number of nodes of degree `d` is the sum over the nodes `u` of the probability that exactly `d` of independent events with the
probabilities `k u v = min(1, 2^D w_u w_v / W)`, one for each other node `v`, happen. -/
theorem C112_threshold (he : IdealEngine eng μ)
    (hs : (0 ≤ seed ∧ seed + nodeThreads omp n parallel ≤ 2147483648 ∧ IndependentStates P μ σ) ∨ (seed < 0 ∧ IndependentStates P μ device))
    (hpos : ∀ ω, GeneratePositions omp (withSeeds eng fun s => σ s ω) (fun k => device k ω) n D seed parallel (pos ω))
    (env : Ω → Env) (hgeo : GeoBounded rng) (gens : Ω → ℕ → rng.G) {out : Ω → List (ℕ × ℕ)} {notice : Ω → Notice} (hw : SupportedWeights D w) (hn : w.length = n)
    (h : ∀ ω, GenerateEdges (env ω) rng (gens ω) (xw w) (pos ω) .pinf (out ω) (notice ω))
    {k : Fin w.length → Fin w.length → ℝ} (hk : ∀ u v, k u v = min 1 (2 ^ D * (w[u] * w[v] / w.sum))) (d : ℕ) :
    ∫⁻ ω, ((Finset.univ.filter fun u : Fin w.length => degreeOf u (out ω) = d).card : ℝ≥0∞) ∂P =
      ∑ u, ENNReal.ofReal (∑ S ∈ (Finset.univ.erase u).powersetCard d, (∏ v ∈ S, k u v) * ∏ v ∈ (Finset.univ.erase u) \ S, (1 - k u v)) := by
  rw [mean_count (Q := fun (u : Fin w.length) ω => degreeOf u (out ω) = d) fun u => ?_]
  · exact Finset.sum_congr rfl fun u _ => C109_degree_threshold he hs hpos env hgeo gens hw hn h u (hk u) d
  · obtain ⟨X, K, hX, _, hK, _, _, hg⟩ := threshold_rows he hs hpos env hgeo gens hw hn h u
    exact degree_measurable hX u hK hg d

/-- C112, finite `alpha = a > 0`, same setting, with ideal random numbers that are independent of the positions: the expected number of nodes of degree `d`, which is the
mean over the positions of the sum of the probabilities of the nodes to have degree `d`, is given by the mean connection probabilities `m u v`, up to errors of `10^-6`
in each factor. -/
theorem C112_alpha (he : IdealEngine eng μ)
    (hs : (0 ≤ seed ∧ seed + nodeThreads omp n parallel ≤ 2147483648 ∧ IndependentStates P μ σ) ∨ (seed < 0 ∧ IndependentStates P μ device))
    (hpos : ∀ ω, GeneratePositions omp (withSeeds eng fun s => σ s ω) (fun k => device k ω) n D seed parallel (pos ω))
    (hr : IdealRng rng ν) (env : Env) (hw : SupportedWeights D w) (hn : w.length = n) {a : ℝ} (ha : 0 < a)
    {m : Fin w.length → Fin w.length → ℝ} (hm : ∀ u v, m u v = meanConnection a (2 ^ D * (w[u] * w[v] / w.sum))) (d : ℕ) :
    upperMean P (fun ω => ∑ u : Fin w.length, graphProb env rng ν (xw w) (pos ω) (fin a) fun out => degreeOf u out = d) ≤
      ∑ u, ENNReal.ofReal (∑ S ∈ (Finset.univ.erase u).powersetCard d, (∏ v ∈ S, m u v) * ∏ v ∈ (Finset.univ.erase u) \ S, (1 - m u v + 1 / 1000000)) ∧
    ∑ u, ENNReal.ofReal (∑ S ∈ (Finset.univ.erase u).powersetCard d, (∏ v ∈ S, max 0 (m u v - 1 / 1000000)) * ∏ v ∈ (Finset.univ.erase u) \ S, (1 - m u v)) ≤
      ∫⁻ ω, (∑ u : Fin w.length, graphProb env rng ν (xw w) (pos ω) (fin a) fun out => degreeOf u out = d) ∂P := by
  have key := fun u : Fin w.length => (C109_alpha he hs hpos hr env hw hn ha u (hm u)).2 d
  exact ⟨(upperMean_sum _ _).trans (Finset.sum_le_sum fun u _ => (key u).1), (Finset.sum_le_sum fun u _ => (key u).2).trans (sum_lintegral_le _ _)⟩

end Positions

section Hyperbolic
open HypDeg Radius
variable {Ω : Type} [MeasurableSpace Ω] {P : Measure Ω} {omp : Omp} {eng : Engine XR} [MeasurableSpace eng.G] {μ : Measure eng.G}
  {σ : ℤ → Ω → eng.G} {device : ℕ → Ω → eng.G} {n : ℕ} {α R T : ℝ} {radii angles : Ω → List XR} {rng : Tree.Rng XR}

/-- the degree of a node has the law given by any random point of the disk -/
theorem hyper_degree_law (hs : SampledPoints P omp eng μ σ device n α R radii angles) (h31 : n < 2147483648)
    (hdisk : (2 / 3 ≤ R ∧ R ≤ 1) ∨ (4 / 3 ≤ R ∧ R ≤ 165 / 4)) (hα : 0 < α) (hαR : 1 ≤ α * R)
    (env : Ω → HEnv) (hgeo : GeoBounded rng) (gens : Ω → ℕ → rng.G) {out : Ω → List (ℕ × ℕ)}
    (h : ∀ ω, HGenerateEdges (env ω) rng (gens ω) (radii ω) (angles ω) (fin 0) (fin R) (out ω)) (u : Fin n)
    {ρ φ : Ω → ℝ} (hρ : ∀ ω, (radii ω)[u.1]? = some (fin (ρ ω))) (hφ : ∀ ω, (angles ω)[u.1]? = some (fin (φ ω)))
    {m : Ω → ℝ≥0∞} (hm : ∀ ω, m ω = P {ω' | hypDist (ρ ω) (φ ω) (ρ ω') (φ ω') < R}) {A : Set ℝ} (hA : MeasurableSet A) (d : ℕ) :
    ∫⁻ ω in {ω | ρ ω ∈ A}, (n - 1).choose d * (m ω ^ d * (1 - m ω) ^ (n - 1 - d)) ∂P =
      ∫⁻ q in {q : ℝ × ℝ | q.1 ∈ A}, (n - 1).choose d * ((∫⁻ p, ENNReal.ofReal (conn 0 (Real.exp ((hypDist q.1 q.2 p.1 p.2 - R) / 2))) ∂pointLaw α R) ^ d *
        (1 - ∫⁻ p, ENNReal.ofReal (conn 0 (Real.exp ((hypDist q.1 q.2 p.1 p.2 - R) / 2))) ∂pointLaw α R) ^ (n - 1 - d)) ∂pointLaw α R ∧
    MeasurableSet {ω | ρ ω ∈ A ∧ degreeOf u (out ω) = d} := by
  obtain ⟨X, K, hX, hlaw, hK, hXu, _, hmK, hKc, hmap, hg⟩ := hyper_rows hs h31 hdisk hα hαR env hgeo gens h u hρ hφ hm
  haveI := radialLaw_prob hαR
  haveI : IsProbabilityMeasure (pointLaw α R) := by unfold pointLaw; infer_instance
  have hC : MeasurableSet {p : ℝ × ℝ | p.1 ∈ A} := measurable_fst hA
  constructor
  · simp only [← hKc]
    rw [hmap _ (fun q => (n - 1).choose d * (pointLaw α R {p | (q, p) ∈ K} ^ d * (1 - pointLaw α R {p | (q, p) ∈ K}) ^ (n - 1 - d))) hC
      ((((measurable_measure_prodMk_left hK).pow_const _).mul ((measurable_const.sub (measurable_measure_prodMk_left hK)).pow_const _)).const_mul _)]
    simp only [← hmK, Set.mem_setOf_eq]
  · choose rel hrel hrelK using hg
    have h1 := degree_measurable hX u (K := fun _ => K) (fun _ => hK) (fun ω => ⟨hrel ω, hrelK ω⟩) d
    have h2 : MeasurableSet {ω | ρ ω ∈ A} := by
      have h3 : MeasurableSet {ω | X ω u ∈ {p : ℝ × ℝ | p.1 ∈ A}} := ((measurable_pi_apply u).comp hX) hC
      simpa only [hXu, Set.mem_setOf_eq] using h3
    exact h2.inter h1

/-- C112, hyperbolic random graphs, `T = 0`.  `n` points of the disk are drawn (ideal engines, independently started), then `generateEdges` is run with temperature 0,
in any environment and with any random numbers.  `m ω` is the probability that a random point is nearer than `R` to the point of the chosen node `u`.  The expected number
of nodes with radius in `A` and degree `d` is `n` times the mean, over the outcomes with radius of `u` in `A`, of the binomial probability
`binom(n-1,d) m^d (1-m)^(n-1-d)`. -/
theorem C112_hyper (hs : SampledPoints P omp eng μ σ device n α R radii angles) (h31 : n < 2147483648)
    (hdisk : (2 / 3 ≤ R ∧ R ≤ 1) ∨ (4 / 3 ≤ R ∧ R ≤ 165 / 4)) (hα : 0 < α) (hαR : 1 ≤ α * R)
    (env : Ω → HEnv) (hgeo : GeoBounded rng) (gens : Ω → ℕ → rng.G) {out : Ω → List (ℕ × ℕ)}
    (h : ∀ ω, HGenerateEdges (env ω) rng (gens ω) (radii ω) (angles ω) (fin 0) (fin R) (out ω))
    {ρ φ : Fin n → Ω → ℝ} (hρ : ∀ v ω, (radii ω)[v.1]? = some (fin (ρ v ω))) (hφ : ∀ v ω, (angles ω)[v.1]? = some (fin (φ v ω))) (u : Fin n)
    {m : Ω → ℝ≥0∞} (hm : ∀ ω, m ω = P {ω' | hypDist (ρ u ω) (φ u ω) (ρ u ω') (φ u ω') < R}) {A : Set ℝ} [DecidablePred (· ∈ A)] (hA : MeasurableSet A) (d : ℕ) :
    ∫⁻ ω, ((Finset.univ.filter fun v => ρ v ω ∈ A ∧ degreeOf v (out ω) = d).card : ℝ≥0∞) ∂P =
      n * ∫⁻ ω in {ω | ρ u ω ∈ A}, (n - 1).choose d * (m ω ^ d * (1 - m ω) ^ (n - 1 - d)) ∂P := by
  rw [mean_count (Q := fun (v : Fin n) ω => ρ v ω ∈ A ∧ degreeOf v (out ω) = d) fun v =>
    (hyper_degree_law hs h31 hdisk hα hαR env hgeo gens h v (hρ v) (hφ v) (fun _ => rfl) hA d).2,
    (hyper_degree_law hs h31 hdisk hα hαR env hgeo gens h u (hρ u) (hφ u) hm hA d).1,
    Finset.sum_congr rfl fun v _ => ((C109_hyper_threshold hs h31 hdisk hα hαR env hgeo gens h v (hρ v) (hφ v) (fun _ => rfl) hA).2 d).trans
      (hyper_degree_law hs h31 hdisk hα hαR env hgeo gens h v (hρ v) (hφ v) (fun _ => rfl) hA d).1,
    Finset.sum_const, Finset.card_univ, Fintype.card_fin, nsmul_eq_mul]

/-- C112, hyperbolic random graphs, `T > 2^-52` with `2 T ln 99 ≤ R`, in an environment in which `generateEdges` returns (C44), with ideal random numbers that are
independent of the points.  `m v ω` is the probability that a random point is connected with the point of node `v`, by the documented connection probabilities.  The
expected number of nodes with radius in `A` and degree `d` is given by the binomial probabilities, up to errors of `10^-6` in each factor. -/
theorem C112_hyper_expected (hs : SampledPoints P omp eng μ σ device n α R radii angles) (h31 : n < 2147483648)
    (hdisk : (2 / 3 ≤ R ∧ R ≤ 1) ∨ (4 / 3 ≤ R ∧ R ≤ 165 / 4)) (hα : 0 < α) (hαR : 1 ≤ α * R)
    (hT : 1 / 4503599627370496 < T) (hfil : 2 * T * Real.log 99 ≤ R) (env : HEnv) [MeasurableSpace rng.G]
    {ν : Measure rng.G} (hr : IdealRng rng ν) (hur : UnitRng rng)
    (hret : env.threads = 1 ∨ ∃ L, HTree.firstParallelLevel XR env.threads = some L ∧
      Real.cosh R < hypCosh (R - 1) (Real.pi / 2 ^ (L - 1)) (R - 1) 0) {g : ℕ} (hg : 1 ≤ g)
    (hgens : env.threads ≠ 1 → ∃ L tasks, HTree.firstParallelLevel XR env.threads = some L ∧
      HTree.numTasks L = some tasks ∧ env.threads - 1 + tasks ≤ g)
    {ρ φ : Fin n → Ω → ℝ} (hρ : ∀ v ω, (radii ω)[v.1]? = some (fin (ρ v ω))) (hφ : ∀ v ω, (angles ω)[v.1]? = some (fin (φ v ω)))
    {m : Fin n → Ω → ℝ≥0∞} (hm : ∀ v ω, m v ω = ∫⁻ ω', ENNReal.ofReal (hypProb (hypDist (ρ v ω) (φ v ω) (ρ v ω') (φ v ω')) R T) ∂P)
    {ε : ℝ≥0∞} (hε : ε = ENNReal.ofReal (1 / 1000000)) (d : ℕ) :
    upperMean P (fun ω => ∑ v : Fin n, hypGraphProb env rng ν hg (radii ω) (angles ω) (fin T) (fin R) fun es => degreeOf v es = d) ≤
      ∑ v, ∫⁻ ω, (n - 1).choose d * (m v ω ^ d * (1 - m v ω + ε) ^ (n - 1 - d)) ∂P ∧
    ∑ v, ∫⁻ ω, (n - 1).choose d * ((m v ω - ε) ^ d * (1 - m v ω) ^ (n - 1 - d)) ∂P ≤
      ∫⁻ ω, (∑ v : Fin n, hypGraphProb env rng ν hg (radii ω) (angles ω) (fin T) (fin R) fun es => degreeOf v es = d) ∂P := by
  have key := fun v : Fin n => (C109_hyper_expected hs h31 hdisk hα hαR hT hfil env hr hur hret hg hgens v (hρ v) (hφ v) (hm v) MeasurableSet.univ hε).2 d
  simp only [Set.mem_univ, Set.setOf_true, Measure.restrict_univ] at key
  exact ⟨(upperMean_sum _ _).trans (Finset.sum_le_sum fun v _ => (key v).1), (Finset.sum_le_sum fun v _ => (key v).2).trans (sum_lintegral_le _ _)⟩

end Hyperbolic

/-! ### examples -/

/-- equal weights 1 for 1000 nodes in dimension 5 -/
theorem ones_supported {n : ℕ} (hn : n = 1000) : SupportedWeights 5 (List.replicate n 1) := by
  have hnR : (n : ℝ) = 1000 := by rw [hn]; norm_num
  intro x hl hx
  have h1 : ∀ y ∈ List.replicate n (1 : ℝ), y = 1 := fun y hy => List.eq_of_mem_replicate hy
  refine ⟨by norm_num, by norm_num, hl, by rw [List.length_replicate]; omega, by rw [List.length_replicate]; omega, ?_, ?_, hx, ?_, ?_⟩
  · intro y hy; rw [h1 y hy]; norm_num
  · intro y hy; rw [h1 y hy]; exact one_lt_pow₀ (by norm_num) (by norm_num)
  · intro y hy; rw [h1 y hy, List.sum_replicate, nsmul_eq_mul, hnR]; norm_num
  · intro y hy z hz; rw [h1 y hy, h1 z hz]; norm_num

/-- C112 at work: 1000 nodes of weight 1 in dimension 5, `alpha = infinity`, ideal engines: the expected number of nodes of degree `d` is
`1000 binom(999,d) 0.032^d 0.968^(999-d)`.  With `alpha = 2` the expected number of isolated nodes is between `1000 (1-m)^999` and `1000 (1-m+10^-6)^999` for the mean
connection probability `m`. -/
example (n : ℕ) (hn : n = 1000) : ∃ (P : Measure (ℤ → ℕ → ℝ)) (pos : (ℤ → ℕ → ℝ) → List (List XR))
    (out : (ℤ → ℕ → ℝ) → List (ℕ × ℕ)) (notice : (ℤ → ℕ → ℝ) → Notice),
    IsProbabilityMeasure P ∧
    (∀ ω, GeneratePositions exampleOmp (withSeeds streamEngine fun s => ω s) (fun _ => (fun _ => 0)) n 5 12 true (pos ω)) ∧
    (∀ ω, GenerateEdges (exampleEnv true) idealRng (fun _ _ => 0) (xw (List.replicate n 1)) (pos ω) .pinf (out ω) (notice ω)) ∧
    (∀ d : ℕ, ∫⁻ ω, ((Finset.univ.filter fun u : Fin (List.replicate n (1 : ℝ)).length => degreeOf u (out ω) = d).card : ℝ≥0∞) ∂P =
      n * ENNReal.ofReal ((n - 1).choose d * (0.032 ^ d * 0.968 ^ (n - 1 - d)))) ∧
    upperMean P (fun ω => ∑ u : Fin (List.replicate n (1 : ℝ)).length,
      graphProb (exampleEnv true) idealRng seqMeasure (xw (List.replicate n 1)) (pos ω) (fin 2) fun out => degreeOf u out = 0) ≤
      n * ENNReal.ofReal ((1 - meanConnection 2 0.032 + 1 / 1000000) ^ (n - 1)) ∧
    n * ENNReal.ofReal ((1 - meanConnection 2 0.032) ^ (n - 1)) ≤ ∫⁻ ω, (∑ u : Fin (List.replicate n (1 : ℝ)).length,
      graphProb (exampleEnv true) idealRng seqMeasure (xw (List.replicate n 1)) (pos ω) (fin 2) fun out => degreeOf u out = 0) ∂P := by
  classical
  have hnR : (n : ℝ) = 1000 := by rw [hn]; norm_num
  have hsup := ones_supported hn
  have hlen : (List.replicate n (1 : ℝ)).length = n := List.length_replicate
  obtain ⟨ht, pos, out, notice, hpos, hout⟩ := example_run hsup hn hlen (seed := 12) (by norm_num) (by norm_num) true
  have hseed : (0 ≤ (12 : ℤ) ∧ (12 : ℤ) + nodeThreads exampleOmp n true ≤ 2147483648 ∧
      IndependentStates (Measure.infinitePi fun _ : ℤ => seqMeasure) seqMeasure fun (s : ℤ) (ω : ℤ → ℕ → ℝ) => ω s) := ⟨by norm_num, ht, streamStates⟩
  have hq : ∀ u v : Fin (List.replicate n (1 : ℝ)).length,
      2 ^ 5 * ((List.replicate n (1 : ℝ))[u] * (List.replicate n (1 : ℝ))[v] / (List.replicate n (1 : ℝ)).sum) = (0.032 : ℝ) := by
    intro u v
    rw [List.sum_replicate, nsmul_eq_mul, hnR]
    simp only [Fin.getElem_fin, List.getElem_replicate]
    norm_num
  have hk : ∀ u v : Fin (List.replicate n (1 : ℝ)).length,
      (0.032 : ℝ) = min 1 (2 ^ 5 * ((List.replicate n (1 : ℝ))[u] * (List.replicate n (1 : ℝ))[v] / (List.replicate n (1 : ℝ)).sum)) := by
    intro u v
    rw [hq, min_eq_right (by norm_num)]
  have hcard : ∀ u : Fin (List.replicate n (1 : ℝ)).length, ((Finset.univ : Finset (Fin (List.replicate n (1 : ℝ)).length)).erase u).card = n - 1 := by
    intro u
    rw [Finset.card_erase_of_mem (Finset.mem_univ u), Finset.card_univ, Fintype.card_fin, hlen]
  have hc : ((Finset.univ : Finset (Fin (List.replicate n (1 : ℝ)).length)).card : ℝ≥0∞) = n := by
    rw [Finset.card_univ, Fintype.card_fin, hlen]
  have h1 := fun d => C112_threshold (w := List.replicate n 1) streamEngine_ideal (Or.inl hseed) hpos (fun _ => exampleEnv true) idealRng_ideal.bounded _ hsup hlen hout hk d
  have h2 := C112_alpha (w := List.replicate n 1) streamEngine_ideal (Or.inl hseed) hpos idealRng_ideal (exampleEnv true) hsup hlen (a := 2) (by norm_num)
    (m := fun _ _ => meanConnection 2 0.032) (fun u v => by rw [hq]) 0
  refine ⟨Measure.infinitePi fun _ : ℤ => seqMeasure, pos, out, notice, inferInstance, hpos, hout, fun d => ?_, ?_, ?_⟩
  · rw [h1 d, ← hc, ← nsmul_eq_mul, ← Finset.sum_const]
    refine Finset.sum_congr rfl fun u _ => ?_
    congr 1
    have h3 : ∀ S ∈ ((Finset.univ : Finset (Fin (List.replicate n (1 : ℝ)).length)).erase u).powersetCard d,
        (∏ _v ∈ S, (0.032 : ℝ)) * ∏ _v ∈ (Finset.univ.erase u) \ S, (1 - (0.032 : ℝ)) = 0.032 ^ d * 0.968 ^ (n - 1 - d) := by
      intro S hS
      obtain ⟨h4, h5⟩ := Finset.mem_powersetCard.1 hS
      rw [Finset.prod_const, Finset.prod_const, Finset.card_sdiff_of_subset h4, hcard, h5]
      norm_num
    rw [Finset.sum_congr rfl h3, Finset.sum_const, Finset.card_powersetCard, hcard, nsmul_eq_mul]
  · refine h2.1.trans (le_of_eq ?_)
    rw [← hc, ← nsmul_eq_mul, ← Finset.sum_const]
    refine Finset.sum_congr rfl fun u _ => ?_
    simp [Finset.powersetCard_zero, hcard]
  · refine le_trans (le_of_eq ?_) h2.2
    rw [← hc, ← nsmul_eq_mul, ← Finset.sum_const]
    refine Finset.sum_congr rfl fun u _ => ?_
    simp [Finset.powersetCard_zero, hcard]

open HypDeg Radius in
/-- `C112_hyper` and `C112_hyper_expected`: 100000 points with `α = 1` in the disk of radius 20.  With temperature 0 the expected number of nodes with radius at least 16
that are isolated is 100000 times the mean of `(1-m)^99999` over the outcomes with radius of node 7 at least 16; with temperature 1/2 the expected number of isolated nodes
is at most the sum of the means of `(1-m+10^-6)^99999`. -/
example (n : ℕ) (hn : n = 100000) : ∃ (radii angles : (ℤ → ℕ → ℝ) → List XR) (out : (ℤ → ℕ → ℝ) → List (ℕ × ℕ)) (ρ φ : Fin n → (ℤ → ℕ → ℝ) → ℝ)
    (m m' : Fin n → (ℤ → ℕ → ℝ) → ℝ≥0∞) (u : Fin n) (P : Measure (ℤ → ℕ → ℝ)), u.1 = 7 ∧ P = (Measure.infinitePi fun _ : ℤ => seqMeasure) ∧
    (∀ v ω, (radii ω)[v.1]? = some (fin (ρ v ω))) ∧ (∀ v ω, (angles ω)[v.1]? = some (fin (φ v ω))) ∧
    (∀ ω, HGenerateEdges (exampleHEnv true 1 (by norm_num) (by norm_num)) idealRng (fun _ _ => 0) (radii ω) (angles ω) (fin 0) (fin 20) (out ω)) ∧
    (∀ v ω, m v ω = P {ω' | hypDist (ρ v ω) (φ v ω) (ρ v ω') (φ v ω') < 20}) ∧
    (∀ v ω, m' v ω = ∫⁻ ω', ENNReal.ofReal (hypProb (hypDist (ρ v ω) (φ v ω) (ρ v ω') (φ v ω')) 20 (1 / 2)) ∂P) ∧
    ∫⁻ ω, ((Finset.univ.filter fun v : Fin n => 16 ≤ ρ v ω ∧ degreeOf v (out ω) = 0).card : ℝ≥0∞) ∂P =
      n * ∫⁻ ω in {ω | 16 ≤ ρ u ω}, (1 - m u ω) ^ (n - 1) ∂P ∧
    upperMean P (fun ω => ∑ v : Fin n, hypGraphProb (exampleHEnv true 1 (by norm_num) (by norm_num)) idealRng seqMeasure le_rfl
      (radii ω) (angles ω) (fin (1 / 2)) (fin 20) fun es => degreeOf v es = 0) ≤
        ∑ v, ∫⁻ ω, (1 - m' v ω + ENNReal.ofReal (1 / 1000000)) ^ (n - 1) ∂P := by
  classical
  obtain ⟨radii, angles, hs⟩ := exampleSampled (n := n) (by omega) (α := 1) (R := 20) one_pos (by norm_num)
  obtain ⟨ρ, φ, hp, ho⟩ := sampled_random hs (by omega) one_pos (by norm_num) (by norm_num)
  have hex : ∀ ω, ∃ out, HGenerateEdges (exampleHEnv true 1 (by norm_num) (by norm_num)) idealRng (fun _ _ => 0) (radii ω) (angles ω) (fin 0) (fin 20) out := by
    intro ω
    rw [(ho ω).1, (ho ω).2, xw_ofFn, xw_ofFn]
    exact (C44_returns_iff (random_input hp (by omega) (by omega) le_rfl (Or.inr (by norm_num)) ω) _ _ idealRng_unit _).2 (Or.inl rfl)
  choose out hout using hex
  obtain ⟨u, hu⟩ : ∃ u : Fin n, u.1 = 7 := ⟨⟨7, by omega⟩, rfl⟩
  have hρ : ∀ (v : Fin n) ω, (radii ω)[v.1]? = some (fin (ρ v ω)) := by
    intro v ω
    rw [(ho ω).1, List.getElem?_ofFn, dif_pos v.2]
  have hφ : ∀ (v : Fin n) ω, (angles ω)[v.1]? = some (fin (φ v ω)) := by
    intro v ω
    rw [(ho ω).2, List.getElem?_ofFn, dif_pos v.2]
  have hlog : Real.log 99 ≤ 20 := by
    have := Real.log_le_sub_one_of_pos (x := 99 / 6 ^ 3) (by norm_num)
    rw [Real.log_div (by norm_num) (by norm_num), Real.log_pow] at this
    have h6 := Real.log_le_sub_one_of_pos (x := 6) (by norm_num)
    push_cast at this
    linarith
  have h1 := C112_hyper (α := 1) hs (by omega) (Or.inr (by norm_num)) one_pos (by norm_num) (fun _ => exampleHEnv true 1 (by norm_num) (by norm_num))
    idealRng_unit.geo _ hout hρ hφ u (fun ω => rfl) (measurableSet_Ici (a := (16 : ℝ))) 0
  have h2 := (C112_hyper_expected (T := 1 / 2) hs (by omega) (Or.inr (by norm_num)) one_pos (by norm_num) (by norm_num) (by linarith)
    (exampleHEnv true 1 (by norm_num) (by norm_num)) idealRng_ideal idealRng_unit (Or.inl rfl) le_rfl (fun h => absurd rfl h) hρ hφ (fun v ω => rfl) rfl 0).1
  simp only [Nat.choose_zero_right, Nat.cast_one, pow_zero, one_mul, Nat.sub_zero] at h1 h2
  refine ⟨radii, angles, out, ρ, φ, _, _, u, _, hu, rfl, hρ, hφ, hout, fun v ω => rfl, fun v ω => rfl, ?_, h2⟩
  simpa only [Set.mem_Ici] using h1

end Girgs.Props
