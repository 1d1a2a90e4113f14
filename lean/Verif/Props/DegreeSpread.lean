import Verif.Proofs.DegreeSpread
import Verif.Props.DegreeCounts
/-
C113: the number of nodes with a property of their degrees is concentrated around its expectation.
-/
namespace Girgs.Props
open CFloat Spec MeasureTheory ProbabilityTheory Tree Scaling
open XR (fin)
open scoped ENNReal

/-- from the variance over the independent points to the deviation of the graphs -/
theorem count_spread {Ω E : Type} [MeasurableSpace Ω] [MeasurableSpace E] {P : Measure Ω} {κ : Measure E} [IsProbabilityMeasure κ] {n : ℕ} {X : Ω → Fin n → E}
    (hX : Measurable X) (hlaw : P.map X = Measure.pi fun _ => κ) {K : Fin n → Fin n → Set (E × E)} (hK : ∀ u v, MeasurableSet (K u v))
    (hsym : ∀ u v p q, (p, q) ∈ K u v ↔ (q, p) ∈ K v u) {rel : Ω → ℕ → ℕ → Prop} {out : Ω → List (ℕ × ℕ)} (hg : ∀ ω, IsGraphOf n (rel ω) (out ω))
    (hrel : ∀ ω (u v : Fin n), rel ω u v ↔ (X ω u, X ω v) ∈ K u v) (Q : Fin n → ℕ → Prop) [∀ u d, Decidable (Q u d)]
    {N : Ω → ℝ} (hN : ∀ ω, N ω = ((Finset.univ.filter fun u : Fin n => Q u (degreeOf u (out ω))).card : ℝ)) {c : Fin n → ℝ}
    (hc : ∀ u, ∫ x, (1 + ∑ v ∈ Finset.univ.erase u, (link K x u v : ℝ)) ^ 2 ∂(Measure.pi fun _ : Fin n => κ) ≤ c u) :
    Integrable N P ∧ ∫ ω, (N ω - ∫ ω', N ω' ∂P) ^ 2 ∂P ≤ ∑ u, c u ∧
    ∀ t > 0, P {ω | t ≤ |N ω - ∫ ω', N ω' ∂P|} ≤ ENNReal.ofReal ((∑ u, c u) / t ^ 2) := by
  classical
  haveI : IsProbabilityMeasure P := by
    have h1 : P.map X Set.univ = 1 := by rw [hlaw]; simp
    rw [Measure.map_apply hX MeasurableSet.univ] at h1
    exact ⟨h1⟩
  obtain ⟨φ, hφ⟩ : ∃ φ : Fin n → ℕ → ℝ, ∀ u d, φ u d = if Q u d then 1 else 0 := ⟨_, fun _ _ => rfl⟩
  obtain ⟨f, hf⟩ : ∃ f : (Fin n → E) → ℝ, ∀ x, f x = ∑ u, φ u (∑ v ∈ Finset.univ.erase u, link K x u v) := ⟨_, fun _ => rfl⟩
  obtain ⟨hfm, hv⟩ := degree_spread κ hK hsym (φ := φ) (fun u d => by rw [hφ]; split_ifs <;> norm_num) hf
  have hNf : ∀ ω, N ω = f (X ω) := by
    intro ω
    rw [hN, hf, Finset.card_filter, Nat.cast_sum]
    refine Finset.sum_congr rfl fun u _ => ?_
    have hdeg : degreeOf u (out ω) = ∑ v ∈ Finset.univ.erase u, link K (X ω) u v := by
      rw [degreeOf_graph u.2 (hg ω), ← Finset.sum_erase_add _ _ (Finset.mem_univ u)]
      simp only [if_true, add_zero]
      refine Finset.sum_congr rfl fun v hv => ?_
      have hne : u.1 ≠ v.1 := fun h => (Finset.mem_erase.1 hv).1 (Fin.ext h).symm
      rw [if_neg hne]
      unfold link
      exact if_congr (hrel ω u v) rfl rfl
    rw [hφ, hdeg, Nat.cast_ite, Nat.cast_one, Nat.cast_zero]
  obtain rfl : N = fun ω => f (X ω) := funext hNf
  have tr : ∀ g : (Fin n → E) → ℝ, Measurable g → ∫ ω, g (X ω) ∂P = ∫ x, g x ∂(Measure.pi fun _ : Fin n => κ) := fun g hgm => by
    rw [← hlaw, integral_map hX.aemeasurable hgm.aestronglyMeasurable]
  have hi : BM fun ω => f (X ω) := hfm.comp hX
  have hvar : ∫ ω, (f (X ω) - ∫ ω', f (X ω') ∂P) ^ 2 ∂P ≤ ∑ u, c u := by
    rw [tr f hfm.1, tr (fun x => (f x - ∫ y, f y ∂(Measure.pi fun _ : Fin n => κ)) ^ 2) ((hfm.1.sub_const _).pow_const 2)]
    exact hv.trans (Finset.sum_le_sum fun u _ => hc u)
  refine ⟨hi.int P, hvar, fun t ht => ?_⟩
  have h1 := mul_meas_ge_le_integral_of_nonneg (μ := P) (f := fun ω => (f (X ω) - ∫ ω', f (X ω') ∂P) ^ 2) (Filter.Eventually.of_forall fun ω => sq_nonneg _)
    ((hi.sub (BM.const _)).sq.int P) (t ^ 2)
  have h2 : {ω | t ≤ |f (X ω) - ∫ ω', f (X ω') ∂P|} = {ω | t ^ 2 ≤ (f (X ω) - ∫ ω', f (X ω') ∂P) ^ 2} := by
    ext ω
    simp only [Set.mem_setOf_eq]
    rw [sq_le_sq, abs_of_pos ht]
  rw [h2, ← ofReal_measureReal]
  refine ENNReal.ofReal_le_ofReal ?_
  rw [le_div_iff₀ (by positivity), mul_comm]
  exact h1.trans hvar

section Positions
variable {Ω : Type} [MeasurableSpace Ω] {P : Measure Ω} {omp : Omp} {eng : Engine XR} [MeasurableSpace eng.G] {μ : Measure eng.G}
  {σ : ℤ → Ω → eng.G} {device : ℕ → Ω → eng.G} {n : ℕ} {seed : ℤ} {parallel : Bool} {D : ℕ} {w : List ℝ} {pos : Ω → List (List XR)}
  {rng : Rng XR} [MeasurableSpace rng.G] {ν : Measure rng.G}

/-- C113, `alpha = infinity`.  The positions are drawn with a supported seed (ideal engines, independently started) for supported weights, then `generateEdges` is run in
any environment.  `N` is the number of nodes with a property `Q` of their degrees.  The variance of `N` is at most the sum over the nodes `u` of `1 + 3 λ + λ²`, `λ u` being
the expected degree of `u`; so `N` deviates from its expectation by `t` with probability at most this sum divided by `t²`. -/
theorem C113_threshold (he : IdealEngine eng μ)
    (hs : (0 ≤ seed ∧ seed + nodeThreads omp n parallel ≤ 2147483648 ∧ IndependentStates P μ σ) ∨ (seed < 0 ∧ IndependentStates P μ device))
    (hpos : ∀ ω, GeneratePositions omp (withSeeds eng fun s => σ s ω) (fun k => device k ω) n D seed parallel (pos ω))
    (env : Ω → Env) (hgeo : GeoBounded rng) (gens : Ω → ℕ → rng.G) {out : Ω → List (ℕ × ℕ)} {notice : Ω → Notice} (hw : SupportedWeights D w) (hn : w.length = n)
    (h : ∀ ω, GenerateEdges (env ω) rng (gens ω) (xw w) (pos ω) .pinf (out ω) (notice ω))
    {mean : Fin w.length → ℝ} (hmean : ∀ u, mean u = ∑ v ∈ Finset.univ.erase u, min 1 (2 ^ D * (w[u] * w[v] / w.sum)))
    (Q : Fin w.length → ℕ → Prop) [∀ u d, Decidable (Q u d)]
    {N : Ω → ℝ} (hN : ∀ ω, N ω = ((Finset.univ.filter fun u : Fin w.length => Q u (degreeOf u (out ω))).card : ℝ)) :
    Integrable N P ∧ ∫ ω, (N ω - ∫ ω', N ω' ∂P) ^ 2 ∂P ≤ ∑ u, (1 + 3 * mean u + mean u ^ 2) ∧
    ∀ t > 0, P {ω | t ≤ |N ω - ∫ ω', N ω' ∂P|} ≤ ENNReal.ofReal ((∑ u, (1 + 3 * mean u + mean u ^ 2)) / t ^ 2) := by
  classical
  subst hn
  obtain ⟨X, hX, hlaw, hXp⟩ := positions_random he hs hpos
  have sup : ∀ ω, SupportedInput D w (List.ofFn (X ω)) := fun ω => hw _ (by simp) (by
    intro p hp
    obtain ⟨i, rfl⟩ := List.mem_ofFn.1 hp
    exact (hXp ω).2 i)
  have s0 : SupportedInput D w (List.replicate w.length fun _ => 0) := hw _ (by simp) (by
    intro p hp d
    rw [List.eq_of_mem_replicate hp]; norm_num)
  have hpos' : ∀ u v : Fin w.length, 0 < w[u.1] * w[v.1] / w.sum := fun u v =>
    div_pos (mul_pos (s0.wpos _ (List.getElem_mem _)) (s0.wpos _ (List.getElem_mem _)))
      (List.sum_pos w s0.wpos (by rintro rfl; exact absurd u.2 (by simp)))
  obtain ⟨k, hk⟩ : ∃ k : Fin w.length → Fin w.length → ℝ, ∀ u v, k u v = min 1 (2 ^ D * (w[u] * w[v] / w.sum)) := ⟨_, fun _ _ => rfl⟩
  have k0 : ∀ u v, 0 ≤ k u v := fun u v => by
    rw [hk]
    exact le_min zero_le_one (mul_nonneg (by positivity) (hpos' u v).le)
  obtain ⟨K, hKd⟩ : ∃ K : Fin w.length → Fin w.length → Set ((Fin D → ℝ) × (Fin D → ℝ)), ∀ u v, K u v = {z | torusDist z.1 z.2 ^ D < w[u.1] * w[v.1] / w.sum} :=
    ⟨_, fun _ _ => rfl⟩
  have hK : ∀ u v, MeasurableSet (K u v) := fun u v => by
    rw [hKd]
    exact measurableSet_lt (torusDist_measurable.pow_const D) measurable_const
  have hvol : ∀ (u v : Fin w.length) (q : Fin D → ℝ), (∀ d, q d ∈ Set.Ico (0 : ℝ) 1) → unitCube D {p | (q, p) ∈ K u v} = ENNReal.ofReal (k u v) := by
    intro u v q hq
    have h1 := torus_pow_volume s0.D1 hq (hpos' u v)
    have h2 : {p | (q, p) ∈ K u v} = {p | torusDist p q ^ D < w[u.1] * w[v.1] / w.sum} := by
      ext p
      rw [hKd]
      simp only [Set.mem_setOf_eq, torusDist_comm q p]
    rw [h2, hk]
    simp only [Fin.getElem_fin]
    rw [← h1, ofReal_measureReal]
  have hprod : ∀ (u : Fin w.length) (S : Finset (Fin w.length)), u ∉ S →
      ∫ x, (∏ v ∈ S, (link K x u v : ℝ)) ∂(Measure.pi fun _ : Fin w.length => unitCube D) = ∏ v ∈ S, k u v := by
    intro u S hS
    rw [link_mean hK u hS]
    have e : ∫⁻ q, ∏ v ∈ S, unitCube D {p | (q, p) ∈ K u v} ∂unitCube D = ENNReal.ofReal (∏ v ∈ S, k u v) := by
      refine (lintegral_congr_ae (g := fun _ => ENNReal.ofReal (∏ v ∈ S, k u v)) ?_).trans (by simp)
      filter_upwards [unitCube_ae D] with q hq
      rw [ENNReal.ofReal_prod_of_nonneg fun v _ => k0 u v]
      exact Finset.prod_congr rfl fun v _ => hvol u v q hq
    rw [e, ENNReal.toReal_ofReal (Finset.prod_nonneg fun v _ => k0 u v)]
  refine count_spread hX hlaw hK (fun u v p q => ?_) (rel := fun ω => ThresholdRule w (List.ofFn (X ω))) (fun ω => ?_) (fun ω u v => ?_) Q hN (fun u => ?_)
  · rw [hKd, hKd]
    simp only [Set.mem_setOf_eq]
    rw [torusDist_comm p q, mul_comm w[u.1]]
  · have h1 := h ω
    rw [(hXp ω).1] at h1
    exact (C18_threshold_exact (sup ω) (env ω) rng hgeo _ _ _ h1).1
  · rw [hKd]
    exact rule_ofFn u v
  · refine (degree_second hK u (a := fun v => k u v) (b := fun v v' => k u v * k u v') (fun v hv => ?_) (fun v v' hv hv' hne => ?_)).trans ?_
    · have := hprod u {v} (by simpa using hv.symm)
      simp only [Finset.prod_singleton] at this
      exact this.le
    · have := hprod u {v, v'} (by simpa using ⟨hv.symm, hv'.symm⟩)
      rw [Finset.prod_pair hne.symm] at this
      simp only [Finset.prod_pair hne.symm] at this
      exact this.le
    · have h1 : ∑ v ∈ Finset.univ.erase u, k u v = mean u := by
        rw [hmean]
        exact Finset.sum_congr rfl fun v _ => hk u v
      have h2 : ∑ v ∈ Finset.univ.erase u, ∑ v' ∈ (Finset.univ.erase u).erase v, k u v * k u v' ≤ mean u ^ 2 := by
        rw [← h1, pow_two, Finset.sum_mul_sum]
        exact Finset.sum_le_sum fun v _ => Finset.sum_le_sum_of_subset_of_nonneg (Finset.erase_subset _ _) fun v' _ _ => mul_nonneg (k0 u v) (k0 u v')
      rw [h1]
      linarith

end Positions

section Hyperbolic
open HypDeg Radius
variable {Ω : Type} [MeasurableSpace Ω] {P : Measure Ω} {omp : Omp} {eng : Engine XR} [MeasurableSpace eng.G] {μ : Measure eng.G}
  {σ : ℤ → Ω → eng.G} {device : ℕ → Ω → eng.G} {n : ℕ} {α R T : ℝ} {radii angles : Ω → List XR} {rng : Tree.Rng XR}

/-- C113, hyperbolic random graphs, `T = 0`.  `n` points of the disk are drawn (ideal engines, independently started), then `generateEdges` is run with temperature 0,
in any environment and with any random numbers.  `m ω` is the probability that a random point is nearer than `R` to the point of the chosen node `u`, and `m1`, `m2` are the
means of `m` and `m²`.  The variance of the number `N` of nodes with a property `Q` of their degrees is at most `n (1 + 3 (n-1) m1 + (n-1)(n-2) m2)`, and `N` deviates
from its expectation by `t` with probability at most this bound divided by `t²`. -/
theorem C113_hyper (hs : SampledPoints P omp eng μ σ device n α R radii angles) (h31 : n < 2147483648)
    (hdisk : (2 / 3 ≤ R ∧ R ≤ 1) ∨ (4 / 3 ≤ R ∧ R ≤ 165 / 4)) (hα : 0 < α) (hαR : 1 ≤ α * R)
    (env : Ω → HEnv) (hgeo : GeoBounded rng) (gens : Ω → ℕ → rng.G) {out : Ω → List (ℕ × ℕ)}
    (h : ∀ ω, HGenerateEdges (env ω) rng (gens ω) (radii ω) (angles ω) (fin 0) (fin R) (out ω)) (u : Fin n)
    {ρ φ : Ω → ℝ} (hρ : ∀ ω, (radii ω)[u.1]? = some (fin (ρ ω))) (hφ : ∀ ω, (angles ω)[u.1]? = some (fin (φ ω)))
    {m : Ω → ℝ≥0∞} (hm : ∀ ω, m ω = P {ω' | hypDist (ρ ω) (φ ω) (ρ ω') (φ ω') < R})
    {m1 m2 : ℝ} (hm1 : m1 = (∫⁻ ω, m ω ∂P).toReal) (hm2 : m2 = (∫⁻ ω, m ω ^ 2 ∂P).toReal)
    (Q : Fin n → ℕ → Prop) [∀ u d, Decidable (Q u d)]
    {N : Ω → ℝ} (hN : ∀ ω, N ω = ((Finset.univ.filter fun u : Fin n => Q u (degreeOf u (out ω))).card : ℝ)) :
    Integrable N P ∧ ∫ ω, (N ω - ∫ ω', N ω' ∂P) ^ 2 ∂P ≤ n * (1 + 3 * ((n - 1 : ℕ) * m1) + (n - 1 : ℕ) * ((n - 2 : ℕ) * m2)) ∧
    ∀ t > 0, P {ω | t ≤ |N ω - ∫ ω', N ω' ∂P|} ≤ ENNReal.ofReal (n * (1 + 3 * ((n - 1 : ℕ) * m1) + (n - 1 : ℕ) * ((n - 2 : ℕ) * m2)) / t ^ 2) := by
  classical
  have hR : 0 < R := by rcases hdisk with h | h <;> linarith
  have hn : 1 ≤ n := by have := u.2; omega
  obtain ⟨r, a, hp, ho⟩ := sampled_random hs hn hα hR hαR
  haveI := radialLaw_prob hαR
  haveI : IsProbabilityMeasure (pointLaw α R) := by unfold pointLaw; infer_instance
  obtain rfl : ρ = r u := by
    funext ω
    have := hρ ω
    rw [(ho ω).1, List.getElem?_ofFn, dif_pos u.2, Option.some.injEq] at this
    exact (XR.fin.inj this).symm
  obtain rfl : φ = a u := by
    funext ω
    have := hφ ω
    rw [(ho ω).2, List.getElem?_ofFn, dif_pos u.2, Option.some.injEq] at this
    exact (XR.fin.inj this).symm
  have hX : Measurable fun ω i => (r i ω, a i ω) := measurable_pi_lambda _ fun i => (hp.measR i).prodMk (hp.measA i)
  obtain ⟨K, hKd⟩ : ∃ K : Set ((ℝ × ℝ) × ℝ × ℝ), K = {z : (ℝ × ℝ) × ℝ × ℝ | hypDist z.1.1 z.1.2 z.2.1 z.2.2 < R} := ⟨_, rfl⟩
  have hK : MeasurableSet K := by
    rw [hKd]
    exact measurableSet_lt measurable_hypDist measurable_const
  have hmu : Measurable fun ω => (r u ω, a u ω) := (hp.measR u).prodMk (hp.measA u)
  have hone : P.map (fun ω => (r u ω, a u ω)) = pointLaw α R := by
    have h1 : (fun ω => (r u ω, a u ω)) = (fun x : Fin n → ℝ × ℝ => x u) ∘ fun ω i => (r i ω, a i ω) := rfl
    rw [h1, ← Measure.map_map (measurable_pi_apply u) hX, hp.joint]
    exact (measurePreserving_eval (fun _ : Fin n => pointLaw α R) u).map_eq
  have hmK : ∀ ω, m ω = pointLaw α R {p | ((r u ω, a u ω), p) ∈ K} := by
    intro ω
    have hKq : MeasurableSet {p : ℝ × ℝ | ((r u ω, a u ω), p) ∈ K} := measurable_prodMk_left hK
    rw [hm, ← hone, Measure.map_apply hmu hKq, hKd]
    rfl
  have hpow : ∀ i : ℕ, ∫⁻ q, pointLaw α R {p | (q, p) ∈ K} ^ i ∂pointLaw α R = ∫⁻ ω, m ω ^ i ∂P := by
    intro i
    have hgm : Measurable fun q : ℝ × ℝ => pointLaw α R {p | (q, p) ∈ K} ^ i := (measurable_measure_prodMk_left hK).pow_const i
    have h1 : ∫⁻ q, pointLaw α R {p | (q, p) ∈ K} ^ i ∂P.map (fun ω => (r u ω, a u ω)) = ∫⁻ ω, m ω ^ i ∂P := by
      rw [lintegral_map hgm hmu]
      simp only [hmK]
    rw [hone] at h1
    exact h1
  have hcount := count_spread hX hp.joint (K := fun _ _ => K) (fun _ _ => hK) (fun i j p q => ?_) (rel := fun ω i j => ∃ (hi : i < n) (hj : j < n), ((r ⟨i, hi⟩ ω, a ⟨i, hi⟩ ω), (r ⟨j, hj⟩ ω, a ⟨j, hj⟩ ω)) ∈ K)
    (out := out) (fun ω => ?_) (fun ω i j => ?_) Q hN (c := fun _ => 1 + 3 * ((n - 1 : ℕ) * m1) + (n - 1 : ℕ) * ((n - 2 : ℕ) * m2)) (fun i => ?_)
  · simpa only [Finset.sum_const, Finset.card_univ, Fintype.card_fin, nsmul_eq_mul] using hcount
  · rw [hKd]
    simp only [Set.mem_setOf_eq]
    rw [hypDist_comm]
  · have h1 := h ω
    rw [(ho ω).1, (ho ω).2, xw_ofFn, xw_ofFn] at h1
    have hin := random_input hp hn h31 le_rfl hdisk ω
    have h2 := C45_threshold_exact hin _ rng hgeo _ _ h1
    rw [List.length_ofFn] at h2
    refine ⟨h2.1, h2.2.1, fun i j hi hj hij => (h2.2.2 i j hi hj hij).trans ?_⟩
    rw [rule_gap (u := ⟨i, hi⟩) (v := ⟨j, hj⟩)]
    unfold gap
    rw [Real.exp_lt_one_iff, hKd]
    constructor
    · intro h3
      exact ⟨hi, hj, by show hypDist _ _ _ _ < R; linarith⟩
    · rintro ⟨_, _, h3⟩
      have h4 : hypDist (r ⟨i, hi⟩ ω) (a ⟨i, hi⟩ ω) (r ⟨j, hj⟩ ω) (a ⟨j, hj⟩ ω) < R := h3
      linarith
  · exact ⟨fun ⟨_, _, h3⟩ => h3, fun h3 => ⟨i.2, j.2, h3⟩⟩
  · have hprod : ∀ S : Finset (Fin n), i ∉ S →
        ∫ x, (∏ v ∈ S, (link (fun _ _ => K) x i v : ℝ)) ∂(Measure.pi fun _ : Fin n => pointLaw α R) = (∫⁻ ω, m ω ^ S.card ∂P).toReal := by
      intro S hS
      rw [link_mean (fun _ _ => hK) i hS, ← hpow]
      simp only [Finset.prod_const]
    refine (degree_second (fun _ _ => hK) i (a := fun _ => m1) (b := fun _ _ => m2) (fun v hv => ?_) (fun v v' hv hv' hne => ?_)).trans (le_of_eq ?_)
    · have := hprod {v} (by simpa using hv.symm)
      simp only [Finset.prod_singleton, Finset.card_singleton, pow_one] at this
      rw [this, hm1]
    · have := hprod {v, v'} (by simpa using ⟨hv.symm, hv'.symm⟩)
      simp only [Finset.prod_pair hne.symm, Finset.card_pair hne.symm] at this
      rw [this, hm2]
    · have c1 : (Finset.univ.erase i).card = n - 1 := by rw [Finset.card_erase_of_mem (Finset.mem_univ i), Finset.card_univ, Fintype.card_fin]
      have c2 : ∀ v ∈ Finset.univ.erase i, ((Finset.univ.erase i).erase v).card = n - 2 := fun v hv => by
        rw [Finset.card_erase_of_mem hv, c1]; omega
      have c3 : ∀ v ∈ Finset.univ.erase i, ∑ _v' ∈ (Finset.univ.erase i).erase v, m2 = (n - 2 : ℕ) * m2 := fun v hv => by
        rw [Finset.sum_const, c2 v hv, nsmul_eq_mul]
      rw [Finset.sum_congr rfl c3, Finset.sum_const, Finset.sum_const, c1, nsmul_eq_mul, nsmul_eq_mul]

end Hyperbolic

/-! ### examples -/

/-- C113 at work: 1000 nodes of weight 1 in dimension 1, `alpha = infinity`, ideal engines: the number of isolated nodes differs by 300 or more from its expectation with
probability at most 0.123 -/
example (n : ℕ) (hn : n = 1000) : ∃ (P : Measure (ℤ → ℕ → ℝ)) (pos : (ℤ → ℕ → ℝ) → List (List XR))
    (out : (ℤ → ℕ → ℝ) → List (ℕ × ℕ)) (notice : (ℤ → ℕ → ℝ) → Notice) (N : (ℤ → ℕ → ℝ) → ℝ),
    IsProbabilityMeasure P ∧
    (∀ ω, GeneratePositions exampleOmp (withSeeds streamEngine fun s => ω s) (fun _ => (fun _ => 0)) n 1 12 true (pos ω)) ∧
    (∀ ω, GenerateEdges (exampleEnv true) idealRng (fun _ _ => 0) (xw (List.replicate n 1)) (pos ω) .pinf (out ω) (notice ω)) ∧
    (∀ ω, N ω = ((Finset.univ.filter fun u : Fin (List.replicate n (1 : ℝ)).length => degreeOf u (out ω) = 0).card : ℝ)) ∧
    P {ω | 300 ≤ |N ω - ∫ ω', N ω' ∂P|} ≤ ENNReal.ofReal 0.123 := by
  classical
  have hnR : (n : ℝ) = 1000 := by rw [hn]; norm_num
  have hsup : SupportedWeights 1 (List.replicate n 1) := by
    intro x hl hx
    have h1 : ∀ y ∈ List.replicate n (1 : ℝ), y = 1 := fun y hy => List.eq_of_mem_replicate hy
    refine ⟨by norm_num, by norm_num, hl, by rw [List.length_replicate]; omega, by rw [List.length_replicate]; omega, ?_, ?_, hx, ?_, ?_⟩
    · intro y hy; rw [h1 y hy]; norm_num
    · intro y hy; rw [h1 y hy]; exact one_lt_pow₀ (by norm_num) (by norm_num)
    · intro y hy; rw [h1 y hy, List.sum_replicate, nsmul_eq_mul, hnR]; norm_num
    · intro y hy z hz; rw [h1 y hy, h1 z hz]; norm_num
  have hlen : (List.replicate n (1 : ℝ)).length = n := List.length_replicate
  obtain ⟨ht, pos, out, notice, hpos, hout⟩ := example_run hsup hn hlen (seed := 12) (by norm_num) (by norm_num) true
  have hseed : (0 ≤ (12 : ℤ) ∧ (12 : ℤ) + nodeThreads exampleOmp n true ≤ 2147483648 ∧
      IndependentStates (Measure.infinitePi fun _ : ℤ => seqMeasure) seqMeasure fun (s : ℤ) (ω : ℤ → ℕ → ℝ) => ω s) := ⟨by norm_num, ht, streamStates⟩
  have hmean : ∀ u : Fin (List.replicate n (1 : ℝ)).length, (1.998 : ℝ) = ∑ v ∈ Finset.univ.erase u,
      min 1 (2 ^ 1 * ((List.replicate n (1 : ℝ))[u] * (List.replicate n (1 : ℝ))[v] / (List.replicate n (1 : ℝ)).sum)) := by
    intro u
    have e : ∀ v ∈ Finset.univ.erase u,
        min 1 (2 ^ 1 * ((List.replicate n (1 : ℝ))[u] * (List.replicate n (1 : ℝ))[v] / (List.replicate n (1 : ℝ)).sum)) = (0.002 : ℝ) := by
      intro v _
      rw [List.sum_replicate, nsmul_eq_mul, hnR]
      simp only [Fin.getElem_fin, List.getElem_replicate]
      rw [min_eq_right (by norm_num)]
      norm_num
    rw [Finset.sum_congr rfl e, Finset.sum_const, Finset.card_erase_of_mem (Finset.mem_univ u), Finset.card_univ, Fintype.card_fin, hlen, hn]
    norm_num
  refine ⟨Measure.infinitePi fun _ : ℤ => seqMeasure, pos, out, notice, _, inferInstance, hpos, hout, fun ω => rfl, ?_⟩
  refine ((C113_threshold (w := List.replicate n 1) streamEngine_ideal (Or.inl hseed) hpos (fun _ => exampleEnv true) idealRng_ideal.bounded _ hsup hlen hout hmean
    (fun _ d => d = 0) fun ω => rfl).2.2 300 (by norm_num)).trans (ENNReal.ofReal_le_ofReal ?_)
  rw [Finset.sum_const, Finset.card_univ, Fintype.card_fin, hlen, nsmul_eq_mul, hnR]
  norm_num

open HypDeg Radius in
/-- `C113_hyper`: 100000 points with `α = 1` in the disk of radius 20, temperature 0: the deviation of the number of isolated nodes -/
example (n : ℕ) (hn : n = 100000) : ∃ (radii angles : (ℤ → ℕ → ℝ) → List XR) (out : (ℤ → ℕ → ℝ) → List (ℕ × ℕ)) (ρ φ : (ℤ → ℕ → ℝ) → ℝ) (m : (ℤ → ℕ → ℝ) → ℝ≥0∞)
    (N : (ℤ → ℕ → ℝ) → ℝ) (P : Measure (ℤ → ℕ → ℝ)), P = (Measure.infinitePi fun _ : ℤ => seqMeasure) ∧
    (∀ ω, (radii ω)[7]? = some (fin (ρ ω))) ∧ (∀ ω, (angles ω)[7]? = some (fin (φ ω))) ∧
    (∀ ω, HGenerateEdges (exampleHEnv true 1 (by norm_num) (by norm_num)) idealRng (fun _ _ => 0) (radii ω) (angles ω) (fin 0) (fin 20) (out ω)) ∧
    (∀ ω, m ω = P {ω' | hypDist (ρ ω) (φ ω) (ρ ω') (φ ω') < 20}) ∧
    (∀ ω, N ω = ((Finset.univ.filter fun u : Fin n => degreeOf u (out ω) = 0).card : ℝ)) ∧
    P {ω | 10000 ≤ |N ω - ∫ ω', N ω' ∂P|} ≤
      ENNReal.ofReal (100000 * (1 + 3 * (99999 * (∫⁻ ω, m ω ∂P).toReal) + 99999 * (99998 * (∫⁻ ω, m ω ^ 2 ∂P).toReal)) / 10000 ^ 2) := by
  classical
  obtain ⟨radii, angles, hs⟩ := exampleSampled (n := n) (by omega) (α := 1) (R := 20) one_pos (by norm_num)
  obtain ⟨ρ, φ, hp, ho⟩ := sampled_random hs (by omega) one_pos (by norm_num) (by norm_num)
  have hex : ∀ ω, ∃ out, HGenerateEdges (exampleHEnv true 1 (by norm_num) (by norm_num)) idealRng (fun _ _ => 0) (radii ω) (angles ω) (fin 0) (fin 20) out := by
    intro ω
    rw [(ho ω).1, (ho ω).2, xw_ofFn, xw_ofFn]
    exact (C44_returns_iff (random_input hp (by omega) (by omega) le_rfl (Or.inr (by norm_num)) ω) _ _ idealRng_unit _).2 (Or.inl rfl)
  choose out hout using hex
  obtain ⟨u, hu⟩ : ∃ u : Fin n, u.1 = 7 := ⟨⟨7, by omega⟩, rfl⟩
  have hρ : ∀ ω, (radii ω)[u.1]? = some (fin (ρ u ω)) := by
    intro ω
    rw [(ho ω).1, List.getElem?_ofFn, dif_pos u.2]
  have hφ : ∀ ω, (angles ω)[u.1]? = some (fin (φ u ω)) := by
    intro ω
    rw [(ho ω).2, List.getElem?_ofFn, dif_pos u.2]
  have h1 := (C113_hyper (α := 1) hs (by omega) (Or.inr (by norm_num)) one_pos (by norm_num) (fun _ => exampleHEnv true 1 (by norm_num) (by norm_num))
    idealRng_unit.geo _ hout u hρ hφ (fun ω => rfl) rfl rfl (fun _ d => d = 0) fun ω => rfl).2.2 10000 (by norm_num)
  refine ⟨radii, angles, out, ρ u, φ u, _, _, _, rfl, hu ▸ hρ, hu ▸ hφ, hout, fun ω => rfl, fun ω => rfl, h1.trans (le_of_eq ?_)⟩
  have c0 : (n : ℝ) = 100000 := by rw [hn]; norm_num
  have c1 : ((n - 1 : ℕ) : ℝ) = 99999 := by rw [hn]; norm_num
  have c2 : ((n - 2 : ℕ) : ℝ) = 99998 := by rw [hn]; norm_num
  rw [c0, c1, c2]

end Girgs.Props
