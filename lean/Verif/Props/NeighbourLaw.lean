import Verif.Proofs.NeighbourCoins
/-
C109: the law of the neighbourhood and of the degree of a node.
-/
namespace Girgs.Props
open CFloat Spec MeasureTheory ProbabilityTheory Tree Scaling
open XR (fin)
open scoped ENNReal

section Positions
variable {Ω : Type} [MeasurableSpace Ω] {P : Measure Ω} {omp : Omp} {eng : Engine XR} [MeasurableSpace eng.G] {μ : Measure eng.G}
  {σ : ℤ → Ω → eng.G} {device : ℕ → Ω → eng.G} {n : ℕ} {seed : ℤ} {parallel : Bool} {D : ℕ} {w : List ℝ} {pos : Ω → List (List XR)}
  {rng : Rng XR} [MeasurableSpace rng.G] {ν : Measure rng.G}

theorem rule_ofFn {x : Fin w.length → Fin D → ℝ} (u v : Fin w.length) : ThresholdRule w (List.ofFn x) u v ↔ torusDist (x u) (x v) ^ D < w[u.1] * w[v.1] / w.sum := by
  unfold ThresholdRule
  constructor
  · rintro ⟨a, b, p, q, h1, h2, h3, h4, h5⟩
    rw [List.getElem?_eq_getElem u.2] at h1
    rw [List.getElem?_eq_getElem v.2] at h2
    rw [List.getElem?_eq_getElem (by simp)] at h3 h4
    simp only [List.getElem_ofFn, Option.some.injEq] at h1 h2 h3 h4
    subst h1 h2 h3 h4
    exact h5
  · intro h
    refine ⟨w[u.1], w[v.1], x u, x v, List.getElem?_eq_getElem u.2, List.getElem?_eq_getElem v.2, ?_, ?_, h⟩ <;>
      (rw [List.getElem?_eq_getElem (by simp)]; simp)

theorem row_law {D n : ℕ} {k : Fin n → ℝ} (hk : ∀ v, 0 ≤ k v ∧ k v ≤ 1) {K : Fin n → Set ((Fin D → ℝ) × (Fin D → ℝ))}
    (hv : ∀ v, ∀ q : Fin D → ℝ, (∀ d, q d ∈ Set.Ico (0 : ℝ) 1) → unitCube D {p | (q, p) ∈ K v} = ENNReal.ofReal (k v)) (S B : Finset (Fin n)) :
    ∫⁻ q in Set.univ, (∏ v ∈ S, unitCube D {p | (q, p) ∈ K v}) * ∏ v ∈ B, (1 - unitCube D {p | (q, p) ∈ K v}) ∂unitCube D =
      ENNReal.ofReal ((∏ v ∈ S, k v) * ∏ v ∈ B, (1 - k v)) := by
  rw [Measure.restrict_univ]
  refine (lintegral_congr_ae (g := fun _ => ENNReal.ofReal ((∏ v ∈ S, k v) * ∏ v ∈ B, (1 - k v))) ?_).trans (by simp)
  filter_upwards [unitCube_ae D] with q hq
  rw [ENNReal.ofReal_mul (Finset.prod_nonneg fun v _ => (hk v).1), ENNReal.ofReal_prod_of_nonneg fun v _ => (hk v).1,
    ENNReal.ofReal_prod_of_nonneg fun v _ => sub_nonneg.2 (hk v).2]
  congr 1
  · exact Finset.prod_congr rfl fun v _ => hv v q hq
  · refine Finset.prod_congr rfl fun v _ => ?_
    rw [hv v q hq, ENNReal.ofReal_sub _ (hk v).1, ENNReal.ofReal_one]

/-- the positions, the sets of connected pairs and their probabilities -/
theorem threshold_rows (he : IdealEngine eng μ)
    (hs : (0 ≤ seed ∧ seed + nodeThreads omp n parallel ≤ 2147483648 ∧ IndependentStates P μ σ) ∨ (seed < 0 ∧ IndependentStates P μ device))
    (hpos : ∀ ω, GeneratePositions omp (withSeeds eng fun s => σ s ω) (fun k => device k ω) n D seed parallel (pos ω))
    (env : Ω → Env) (hgeo : GeoBounded rng) (gens : Ω → ℕ → rng.G) {out : Ω → List (ℕ × ℕ)} {notice : Ω → Notice} (hw : SupportedWeights D w) (hn : w.length = n)
    (h : ∀ ω, GenerateEdges (env ω) rng (gens ω) (xw w) (pos ω) .pinf (out ω) (notice ω)) (u : Fin w.length) :
    ∃ (X : Ω → Fin w.length → Fin D → ℝ) (K : Fin w.length → Set ((Fin D → ℝ) × (Fin D → ℝ))), Measurable X ∧ P.map X = Measure.pi (fun _ => unitCube D) ∧
      (∀ v, MeasurableSet (K v)) ∧ (∀ v : Fin w.length, 0 ≤ min (1 : ℝ) (2 ^ D * (w[u] * w[v] / w.sum)) ∧ min (1 : ℝ) (2 ^ D * (w[u] * w[v] / w.sum)) ≤ 1) ∧
      (∀ v, ∀ q : Fin D → ℝ, (∀ d, q d ∈ Set.Ico (0 : ℝ) 1) → unitCube D {p | (q, p) ∈ K v} = ENNReal.ofReal (min 1 (2 ^ D * (w[u] * w[v] / w.sum)))) ∧
      ∀ ω, IsGraphOf w.length (ThresholdRule w (List.ofFn (X ω))) (out ω) ∧ ∀ v : Fin w.length, ThresholdRule w (List.ofFn (X ω)) u v ↔ (X ω u, X ω v) ∈ K v := by
  subst hn
  obtain ⟨X, hX, hlaw, hXp⟩ := positions_random he hs hpos
  have sup : ∀ ω, SupportedInput D w (List.ofFn (X ω)) := fun ω => hw _ (by simp) (by
    intro p hp
    obtain ⟨i, rfl⟩ := List.mem_ofFn.1 hp
    exact (hXp ω).2 i)
  have s0 : SupportedInput D w (List.replicate w.length fun _ => 0) := hw _ (by simp) (by
    intro p hp d
    rw [List.eq_of_mem_replicate hp]; norm_num)
  have hpos' : ∀ v : Fin w.length, 0 < w[u.1] * w[v.1] / w.sum := fun v =>
    div_pos (mul_pos (s0.wpos _ (List.getElem_mem _)) (s0.wpos _ (List.getElem_mem _)))
      (List.sum_pos w s0.wpos (by rintro rfl; exact absurd u.2 (by simp)))
  refine ⟨X, fun v => {z | torusDist z.1 z.2 ^ D < w[u.1] * w[v.1] / w.sum}, hX, hlaw, fun v => measurableSet_lt (torusDist_measurable.pow_const D) measurable_const,
    fun v => ⟨le_min zero_le_one (mul_nonneg (by positivity) (hpos' v).le), min_le_left _ _⟩, fun v q hq => ?_, fun ω => ⟨?_, fun v => rule_ofFn u v⟩⟩
  · have h1 := torus_pow_volume s0.D1 hq (hpos' v)
    have h2 : {p | (q, p) ∈ {z : (Fin D → ℝ) × (Fin D → ℝ) | torusDist z.1 z.2 ^ D < w[u.1] * w[v.1] / w.sum}} =
        {p | torusDist p q ^ D < w[u.1] * w[v.1] / w.sum} := by
      ext p
      simp only [Set.mem_setOf_eq, torusDist_comm q p]
    rw [h2]
    simp only [Fin.getElem_fin]
    rw [← h1, ofReal_measureReal]
  · have h1 := h ω
    rw [(hXp ω).1] at h1
    exact (C18_threshold_exact (sup ω) (env ω) rng hgeo _ _ _ h1).1

/-- C109, `alpha = infinity`.  `n` positions are drawn by `generatePositions` (ideal engines, independently started), then `generateEdges` is run on weights `w`, in any
environment and with any random numbers.  The connections of node `u` with the other nodes `v` are independent and have the probabilities `min(1, 2^D w_u w_v / W)`:
for disjoint sets `S`, `B` of other nodes, `u` is connected with all of `S` and none of `B` with the product of the probabilities and of the complementary
probabilities. -/
theorem C109_threshold (he : IdealEngine eng μ)
    (hs : (0 ≤ seed ∧ seed + nodeThreads omp n parallel ≤ 2147483648 ∧ IndependentStates P μ σ) ∨ (seed < 0 ∧ IndependentStates P μ device))
    (hpos : ∀ ω, GeneratePositions omp (withSeeds eng fun s => σ s ω) (fun k => device k ω) n D seed parallel (pos ω))
    (env : Ω → Env) (hgeo : GeoBounded rng) (gens : Ω → ℕ → rng.G) {out : Ω → List (ℕ × ℕ)} {notice : Ω → Notice} (hw : SupportedWeights D w) (hn : w.length = n)
    (h : ∀ ω, GenerateEdges (env ω) rng (gens ω) (xw w) (pos ω) .pinf (out ω) (notice ω)) (u : Fin w.length)
    {S B : Finset (Fin w.length)} (hS : u ∉ S) (hB : u ∉ B) (hd : Disjoint S B)
    {k : Fin w.length → ℝ} (hk : ∀ v, k v = min 1 (2 ^ D * (w[u] * w[v] / w.sum))) :
    P {ω | (∀ v ∈ S, adjacent (out ω) u v) ∧ ∀ v ∈ B, ¬ adjacent (out ω) u v} = ENNReal.ofReal ((∏ v ∈ S, k v) * ∏ v ∈ B, (1 - k v)) := by
  obtain rfl : k = fun v : Fin w.length => min (1 : ℝ) (2 ^ D * (w[u] * w[v] / w.sum)) := funext hk
  obtain ⟨X, K, hX, hlaw, hK, h01, hv, hg⟩ := threshold_rows he hs hpos env hgeo gens hw hn h u
  rw [← row_law h01 hv, ← neighbours_prob hX hlaw hS hB hd MeasurableSet.univ hK]
  congr 1
  ext ω
  simp only [Set.mem_setOf_eq, Set.mem_univ, true_and]
  rw [neighbours_rel (hg ω).1 hS hB]
  simp only [(hg ω).2]

/-- C109, the degree, `alpha = infinity`, same setting: the degree of node `u` is `d` with the probability that of independent events with the probabilities
`min(1, 2^D w_u w_v / W)`, one for each other node `v`, exactly `d` happen. -/
theorem C109_degree_threshold (he : IdealEngine eng μ)
    (hs : (0 ≤ seed ∧ seed + nodeThreads omp n parallel ≤ 2147483648 ∧ IndependentStates P μ σ) ∨ (seed < 0 ∧ IndependentStates P μ device))
    (hpos : ∀ ω, GeneratePositions omp (withSeeds eng fun s => σ s ω) (fun k => device k ω) n D seed parallel (pos ω))
    (env : Ω → Env) (hgeo : GeoBounded rng) (gens : Ω → ℕ → rng.G) {out : Ω → List (ℕ × ℕ)} {notice : Ω → Notice} (hw : SupportedWeights D w) (hn : w.length = n)
    (h : ∀ ω, GenerateEdges (env ω) rng (gens ω) (xw w) (pos ω) .pinf (out ω) (notice ω)) (u : Fin w.length)
    {k : Fin w.length → ℝ} (hk : ∀ v, k v = min 1 (2 ^ D * (w[u] * w[v] / w.sum))) (d : ℕ) :
    P {ω | degreeOf u (out ω) = d} =
      ENNReal.ofReal (∑ S ∈ (Finset.univ.erase u).powersetCard d, (∏ v ∈ S, k v) * ∏ v ∈ (Finset.univ.erase u) \ S, (1 - k v)) := by
  obtain rfl : k = fun v : Fin w.length => min (1 : ℝ) (2 ^ D * (w[u] * w[v] / w.sum)) := funext hk
  obtain ⟨X, K, hX, hlaw, hK, h01, hv, hg⟩ := threshold_rows he hs hpos env hgeo gens hw hn h u
  rw [ENNReal.ofReal_sum_of_nonneg fun S _ => mul_nonneg (Finset.prod_nonneg fun v _ => (h01 v).1) (Finset.prod_nonneg fun v _ => sub_nonneg.2 (h01 v).2),
    Finset.sum_congr rfl fun S _ => (row_law h01 hv S _).symm, ← degree_prob hX hlaw u MeasurableSet.univ hK d]
  congr 1
  ext ω
  simp only [Set.mem_setOf_eq, Set.mem_univ, true_and]
  rw [degree_iff (hg ω).1]
  refine exists_congr fun S => and_congr_right fun hS => ?_
  have hS' := (Finset.mem_powersetCard.1 hS).1
  rw [neighbours_rel (hg ω).1 (fun h => Finset.notMem_erase u _ (hS' h)) (fun h => Finset.notMem_erase u _ (Finset.mem_sdiff.1 h).1)]
  simp only [(hg ω).2]

/-- the mean of a product over other nodes, for uniform positions -/
theorem row_mean {D n : ℕ} {Ω : Type} [MeasurableSpace Ω] {P : Measure Ω} {X : Ω → Fin n → Fin D → ℝ} (hX : Measurable X)
    (hlaw : P.map X = Measure.pi fun _ => unitCube D) {u : Fin n} {S B : Finset (Fin n)} (hS : u ∉ S) (hB : u ∉ B) (hd : Disjoint S B)
    {f g : Fin n → (Fin D → ℝ) → (Fin D → ℝ) → ℝ} (hf : ∀ v, Measurable fun z : (Fin D → ℝ) × (Fin D → ℝ) => f v z.1 z.2)
    (hg : ∀ v, Measurable fun z : (Fin D → ℝ) × (Fin D → ℝ) => g v z.1 z.2) (bf : ∀ v q p, 0 ≤ f v q p ∧ f v q p ≤ 1) (bg : ∀ v q p, 0 ≤ g v q p ∧ g v q p ≤ 1)
    {k l : Fin n → ℝ} (hk : ∀ v, ∀ q : Fin D → ℝ, (∀ d, q d ∈ Set.Ico (0 : ℝ) 1) → ∫ p, f v q p ∂unitCube D = k v)
    (hl : ∀ v, ∀ q : Fin D → ℝ, (∀ d, q d ∈ Set.Ico (0 : ℝ) 1) → ∫ p, g v q p ∂unitCube D = l v) :
    ∫⁻ ω, (∏ v ∈ S, ENNReal.ofReal (f v (X ω u) (X ω v))) * ∏ v ∈ B, ENNReal.ofReal (g v (X ω u) (X ω v)) ∂P =
      ENNReal.ofReal ((∏ v ∈ S, k v) * ∏ v ∈ B, l v) := by
  have hz : ∀ d, (fun _ : Fin D => (0 : ℝ)) d ∈ Set.Ico (0 : ℝ) 1 := by intro d; norm_num
  have k0 : ∀ v, 0 ≤ k v := fun v => by rw [← hk v _ hz]; exact integral_nonneg fun p => (bf v _ p).1
  have l0 : ∀ v, 0 ≤ l v := fun v => by rw [← hl v _ hz]; exact integral_nonneg fun p => (bg v _ p).1
  have h := mean_row (f := fun v q p => ENNReal.ofReal (f v q p)) (g := fun v q p => ENNReal.ofReal (g v q p)) hX hlaw hS hB hd MeasurableSet.univ
    (fun v => (hf v).ennreal_ofReal) (fun v => (hg v).ennreal_ofReal)
  simp only [Set.mem_univ, Set.setOf_true, Measure.restrict_univ] at h
  rw [h]
  have key : ∀ {F : Fin n → (Fin D → ℝ) → (Fin D → ℝ) → ℝ}, (∀ v, Measurable fun z : (Fin D → ℝ) × (Fin D → ℝ) => F v z.1 z.2) →
      (∀ v q p, 0 ≤ F v q p ∧ F v q p ≤ 1) → ∀ v q, ∫⁻ p, ENNReal.ofReal (F v q p) ∂unitCube D = ENNReal.ofReal (∫ p, F v q p ∂unitCube D) := by
    intro F hF bF v q
    refine (ofReal_integral_eq_lintegral_ofReal ?_ (Filter.Eventually.of_forall fun p => (bF v q p).1)).symm
    have h1 : Measurable fun p : Fin D → ℝ => (q, p) := by fun_prop
    refine Integrable.of_bound ((hF v).comp h1).aestronglyMeasurable 1 (Filter.Eventually.of_forall fun p => ?_)
    rw [Real.norm_eq_abs, abs_of_nonneg (bF v q p).1]
    exact (bF v q p).2
  refine (lintegral_congr_ae (g := fun _ => ENNReal.ofReal ((∏ v ∈ S, k v) * ∏ v ∈ B, l v)) ?_).trans (by simp)
  filter_upwards [unitCube_ae D] with q hq
  rw [ENNReal.ofReal_mul (Finset.prod_nonneg fun v _ => k0 v), ENNReal.ofReal_prod_of_nonneg fun v _ => k0 v, ENNReal.ofReal_prod_of_nonneg fun v _ => l0 v]
  congr 1
  · exact Finset.prod_congr rfl fun v _ => by rw [key hf bf, hk v q hq]
  · exact Finset.prod_congr rfl fun v _ => by rw [key hg bg, hl v q hq]

/-- C109, finite `alpha = a > 0`, same setting, with ideal random numbers that are independent of the positions.  With the mean connection probabilities `m v` of
`u` with the other nodes `v`, node `u` is connected with all of `S` and none of `B` with a probability between the products of `m v` and `1 - m v`, up to errors of
`10^-6` in each factor; the same for its degree. -/
theorem C109_alpha (he : IdealEngine eng μ)
    (hs : (0 ≤ seed ∧ seed + nodeThreads omp n parallel ≤ 2147483648 ∧ IndependentStates P μ σ) ∨ (seed < 0 ∧ IndependentStates P μ device))
    (hpos : ∀ ω, GeneratePositions omp (withSeeds eng fun s => σ s ω) (fun k => device k ω) n D seed parallel (pos ω))
    (hr : IdealRng rng ν) (env : Env) (hw : SupportedWeights D w) (hn : w.length = n) {a : ℝ} (ha : 0 < a) (u : Fin w.length)
    {m : Fin w.length → ℝ} (hm : ∀ v, m v = meanConnection a (2 ^ D * (w[u] * w[v] / w.sum))) :
    (∀ S B : Finset (Fin w.length), u ∉ S → u ∉ B → Disjoint S B →
      upperMean P (fun ω => graphProb env rng ν (xw w) (pos ω) (fin a) fun out => (∀ v ∈ S, adjacent out u v) ∧ ∀ v ∈ B, ¬ adjacent out u v) ≤
        ENNReal.ofReal ((∏ v ∈ S, m v) * ∏ v ∈ B, (1 - m v + 1 / 1000000)) ∧
      ENNReal.ofReal ((∏ v ∈ S, max 0 (m v - 1 / 1000000)) * ∏ v ∈ B, (1 - m v)) ≤
        ∫⁻ ω, graphProb env rng ν (xw w) (pos ω) (fin a) (fun out => (∀ v ∈ S, adjacent out u v) ∧ ∀ v ∈ B, ¬ adjacent out u v) ∂P) ∧
    ∀ d : ℕ,
      upperMean P (fun ω => graphProb env rng ν (xw w) (pos ω) (fin a) fun out => degreeOf u out = d) ≤
        ENNReal.ofReal (∑ S ∈ (Finset.univ.erase u).powersetCard d, (∏ v ∈ S, m v) * ∏ v ∈ (Finset.univ.erase u) \ S, (1 - m v + 1 / 1000000)) ∧
      ENNReal.ofReal (∑ S ∈ (Finset.univ.erase u).powersetCard d, (∏ v ∈ S, max 0 (m v - 1 / 1000000)) * ∏ v ∈ (Finset.univ.erase u) \ S, (1 - m v)) ≤
        ∫⁻ ω, graphProb env rng ν (xw w) (pos ω) (fin a) (fun out => degreeOf u out = d) ∂P := by
  classical
  subst hn
  obtain ⟨X, hX, hlaw, hXp⟩ := positions_random he hs hpos
  have sup : ∀ ω, SupportedInput D w (List.ofFn (X ω)) := fun ω => hw _ (by simp) (by
    intro p hp
    obtain ⟨i, rfl⟩ := List.mem_ofFn.1 hp
    exact (hXp ω).2 i)
  have s0 : SupportedInput D w (List.replicate w.length fun _ => 0) := hw _ (by simp) (by
    intro p hp d
    rw [List.eq_of_mem_replicate hp]; norm_num)
  have hpos' : ∀ v : Fin w.length, 0 < w[u.1] * w[v.1] / w.sum := fun v =>
    div_pos (mul_pos (s0.wpos _ (List.getElem_mem _)) (s0.wpos _ (List.getElem_mem _)))
      (List.sum_pos w s0.wpos (by rintro rfl; exact absurd u.2 (by simp)))
  obtain ⟨ε, hε⟩ : ∃ ε : ℝ, ε = 1 / 1000000 := ⟨_, rfl⟩
  rw [← hε]
  have hε0 : 0 < ε := by rw [hε]; norm_num
  have hε1 : ε ≤ 1 := by rw [hε]; norm_num
  have hmem := fun (v : Fin w.length) (p q : Fin D → ℝ) => connProb_mem (D := D) a _ _ (hpos' v) (torusDist_nonneg p q)
  have hkε : 0 < ε ^ (-(1 / a)) := Real.rpow_pos_of_pos hε0 _
  obtain ⟨f, hfd⟩ : ∃ f : Fin w.length → (Fin D → ℝ) → (Fin D → ℝ) → ℝ, f = fun v q p => connProb D a (w[u.1] * w[v.1] / w.sum) (torusDist q p) := ⟨_, rfl⟩
  have hfm : ∀ v, Measurable fun z : (Fin D → ℝ) × (Fin D → ℝ) => f v z.1 z.2 := fun v => by
    rw [hfd]; exact (connProb_measurable D a _).comp torusDist_measurable
  have hf01 : ∀ v q p, 0 ≤ f v q p ∧ f v q p ≤ 1 := fun v q p => by rw [hfd]; exact hmem v q p
  have hfk : ∀ v, ∀ q : Fin D → ℝ, (∀ d, q d ∈ Set.Ico (0 : ℝ) 1) → ∫ p, f v q p ∂unitCube D = m v := by
    intro v q hq
    rw [hm]
    refine Eq.trans ?_ (mean_expect s0.D1 hq ha (hpos' v))
    simp only [hfd, torusDist_comm q]
    rfl
  obtain ⟨loss, hloss⟩ : ∃ loss : Fin w.length → ℝ, loss = fun v => ε * meanConnection a ((2 : ℝ) ^ D * (w[u.1] * w[v.1] / w.sum * ε ^ (-(1 / a)))) := ⟨_, rfl⟩
  have hjk : ∀ v, ∀ q : Fin D → ℝ, (∀ d, q d ∈ Set.Ico (0 : ℝ) 1) → ∫ p, min (f v q p) ε ∂unitCube D = loss v := by
    intro v q hq
    have := mean_expect s0.D1 hq ha (mul_pos (hpos' v) hkε)
    simp only [hfd, torusDist_comm q, min_connProb ha (hpos' v) (torusDist_nonneg _ q) hε0 hε1]
    rw [integral_const_mul, this, hloss]
  have hl01 : ∀ v, 0 ≤ loss v ∧ loss v ≤ ε := by
    intro v
    have h1 := meanConnection_mem ha (mul_pos (show (0 : ℝ) < 2 ^ D by positivity) (mul_pos (hpos' v) hkε))
    rw [hloss]
    exact ⟨mul_nonneg hε0.le h1.1, mul_le_of_le_one_right hε0.le h1.2⟩
  have hint : ∀ (h : (Fin D → ℝ) → ℝ), Measurable h → (∀ p, 0 ≤ h p ∧ h p ≤ 1) → Integrable h (unitCube D) := by
    intro h hm hb
    refine Integrable.of_bound hm.aestronglyMeasurable 1 (Filter.Eventually.of_forall fun p => ?_)
    rw [Real.norm_eq_abs, abs_of_nonneg (hb p).1]
    exact (hb p).2
  have hslice : ∀ v (q : Fin D → ℝ), Measurable fun p => f v q p := by
    intro v q
    have h1 : Measurable fun p : Fin D → ℝ => (q, p) := by fun_prop
    exact (hfm v).comp h1
  have hmin01 : ∀ v q p, 0 ≤ min (f v q p) ε ∧ min (f v q p) ε ≤ 1 := fun v q p => ⟨le_min (hf01 v q p).1 hε0.le, (min_le_right _ _).trans hε1⟩
  have hint1 : ∀ v q, Integrable (f v q) (unitCube D) := fun v q => hint _ (hslice v q) (hf01 v q)
  have hint2 : ∀ v q, Integrable (fun p => min (f v q p) ε) (unitCube D) := fun v q => hint _ ((hslice v q).min measurable_const) (hmin01 v q)
  have hone : ∫ _ : Fin D → ℝ, (1 : ℝ) ∂unitCube D = 1 := by simp
  have h0 : ∀ d, (fun _ : Fin D => (0 : ℝ)) d ∈ Set.Ico (0 : ℝ) 1 := by intro d; norm_num
  have hsub01 : ∀ v q p, 0 ≤ f v q p - min (f v q p) ε ∧ f v q p - min (f v q p) ε ≤ 1 := fun v q p => by
    have := hf01 v q p
    have := hmin01 v q p
    have := min_le_left (f v q p) ε
    constructor <;> linarith
  have hm01 : ∀ v, 0 ≤ m v ∧ m v ≤ 1 := fun v => by
    rw [← hfk v _ h0]
    refine ⟨integral_nonneg fun p => (hf01 v _ p).1, (integral_mono (hint1 v _) (integrable_const 1) fun p => (hf01 v _ p).2).trans hone.le⟩
  have hml : ∀ v, 0 ≤ m v - loss v := fun v => by
    rw [← hfk v _ h0, ← hjk v _ h0, ← integral_sub (hint1 v _) (hint2 v _)]
    exact integral_nonneg fun p => (hsub01 v _ p).1
  -- the values of the two products
  have hup : ∀ S B : Finset (Fin w.length), u ∉ S → u ∉ B → Disjoint S B →
      ∫⁻ ω, (∏ v ∈ S, ENNReal.ofReal (f v (X ω u) (X ω v))) * ∏ v ∈ B, ENNReal.ofReal (1 - (f v (X ω u) (X ω v) - min (f v (X ω u) (X ω v)) ε)) ∂P ≤
        ENNReal.ofReal ((∏ v ∈ S, m v) * ∏ v ∈ B, (1 - m v + ε)) := fun S B hS hB hd => by
    rw [row_mean hX hlaw hS hB hd (f := f) (g := fun v q p => 1 - (f v q p - min (f v q p) ε)) hfm
      (fun v => measurable_const.sub ((hfm v).sub ((hfm v).min measurable_const))) hf01 (fun v q p => by have := hsub01 v q p; constructor <;> linarith) hfk
      (l := fun v => 1 - (m v - loss v)) fun v q hq => by
        rw [integral_sub (f := fun _ => (1 : ℝ)) (g := fun p => f v q p - min (f v q p) ε) (integrable_const 1) ((hint1 v q).sub (hint2 v q)), integral_sub (hint1 v q) (hint2 v q), hfk v q hq, hjk v q hq, hone]]
    refine ENNReal.ofReal_le_ofReal (mul_le_mul_of_nonneg_left (Finset.prod_le_prod (fun v _ => ?_) fun v _ => ?_) (Finset.prod_nonneg fun v _ => (hm01 v).1))
    · have := hm01 v; have := (hl01 v).1; linarith
    · have := (hl01 v).2; linarith
  have hlow : ∀ S B : Finset (Fin w.length), u ∉ S → u ∉ B → Disjoint S B →
      ENNReal.ofReal ((∏ v ∈ S, max 0 (m v - ε)) * ∏ v ∈ B, (1 - m v)) ≤
      ∫⁻ ω, (∏ v ∈ S, ENNReal.ofReal (f v (X ω u) (X ω v) - min (f v (X ω u) (X ω v)) ε)) * ∏ v ∈ B, ENNReal.ofReal (1 - f v (X ω u) (X ω v)) ∂P :=
      fun S B hS hB hd => by
    rw [row_mean hX hlaw hS hB hd (f := fun v q p => f v q p - min (f v q p) ε) (g := fun v q p => 1 - f v q p)
      (fun v => (hfm v).sub ((hfm v).min measurable_const)) (fun v => measurable_const.sub (hfm v)) hsub01
      (fun v q p => by have := hf01 v q p; constructor <;> linarith)
      (k := fun v => m v - loss v) (l := fun v => 1 - m v)
      (fun v q hq => by rw [integral_sub (hint1 v q) (hint2 v q), hfk v q hq, hjk v q hq])
      (fun v q hq => by rw [integral_sub (integrable_const 1) (hint1 v q), hfk v q hq, hone])]
    refine ENNReal.ofReal_le_ofReal (mul_le_mul_of_nonneg_right (Finset.prod_le_prod (fun v _ => le_max_left _ _) fun v _ => ?_)
      (Finset.prod_nonneg fun v _ => sub_nonneg.2 (hm01 v).2))
    exact max_le (hml v) (by have := (hl01 v).2; linarith)
  have hmeas : ∀ (S B : Finset (Fin w.length)) (f g : Fin w.length → (Fin D → ℝ) → (Fin D → ℝ) → ℝ),
      (∀ v, Measurable fun z : (Fin D → ℝ) × (Fin D → ℝ) => f v z.1 z.2) → (∀ v, Measurable fun z : (Fin D → ℝ) × (Fin D → ℝ) => g v z.1 z.2) →
      Measurable fun ω => (∏ v ∈ S, ENNReal.ofReal (f v (X ω u) (X ω v))) * ∏ v ∈ B, ENNReal.ofReal (g v (X ω u) (X ω v)) := by
    intro S B f g hf hg
    have h1 : ∀ v, Measurable fun ω => (X ω u, X ω v) := fun v => ((measurable_pi_apply u).comp hX).prodMk ((measurable_pi_apply v).comp hX)
    exact (Finset.measurable_prod _ fun v _ => ((hf v).comp (h1 v)).ennreal_ofReal).mul (Finset.measurable_prod _ fun v _ => ((hg v).comp (h1 v)).ennreal_ofReal)
  have hpr : ∀ ω, ∃ pr : ℕ → ℕ → ℝ, (∀ v : Fin w.length, u ≠ v → f v (X ω u) (X ω v) - min (f v (X ω u) (X ω v)) ε ≤ pr u v ∧ pr u v ≤ f v (X ω u) (X ω v)) ∧
      (∀ S B : Finset (Fin w.length), u ∉ S → u ∉ B → Disjoint S B →
        graphProb env rng ν (xw w) (pos ω) (fin a) (fun es => (∀ v ∈ S, adjacent es u v) ∧ ∀ v ∈ B, ¬ adjacent es u v) =
          (∏ v ∈ S, ENNReal.ofReal (pr u v)) * ∏ v ∈ B, ENNReal.ofReal (1 - pr u v)) ∧
      ∀ d : ℕ, graphProb env rng ν (xw w) (pos ω) (fin a) (fun es => degreeOf u es = d) =
        ∑ S ∈ (Finset.univ.erase u).powersetCard d, (∏ v ∈ S, ENNReal.ofReal (pr u v)) * ∏ v ∈ (Finset.univ.erase u) \ S, ENNReal.ofReal (1 - pr u v) := by
    intro ω
    obtain ⟨pr, h2, h3⟩ := girg_node_law (sup ω) ha
    refine ⟨pr, fun v huv => ?_, ?_⟩
    · have hg : girgProb w (List.ofFn (X ω)) a u v = f v (X ω u) (X ω v) := by rw [hfd]; exact girgProb_ofFn rfl _ _ _ _
      have h5 := (hf01 v (X ω u) (X ω v)).1
      have h6 := le_min h5 hε0.le
      rcases h2 u v u.2 v.2 (fun h => huv (Fin.ext h)) with h4 | h4
      · rw [h4, hg]; exact ⟨by linarith, le_rfl⟩
      · rw [hg, ← hε] at h4
        rw [h4.1, min_eq_left h4.2.le]
        exact ⟨by simp, h5⟩
    · rw [(hXp ω).1]
      exact h3 env rng ν hr u
  choose pr hpr1 hpr2 hpr3 using hpr
  have bup : ∀ (ω : Ω) (S B : Finset (Fin w.length)), u ∉ S → u ∉ B → (∏ v ∈ S, ENNReal.ofReal (pr ω u v)) * ∏ v ∈ B, ENNReal.ofReal (1 - pr ω u v) ≤
      (∏ v ∈ S, ENNReal.ofReal (f v (X ω u) (X ω v))) * ∏ v ∈ B, ENNReal.ofReal (1 - (f v (X ω u) (X ω v) - min (f v (X ω u) (X ω v)) ε)) := by
    intro ω S B hS hB
    refine mul_le_mul (Finset.prod_le_prod' fun v hv => ENNReal.ofReal_le_ofReal (hpr1 ω v fun h => hS (h ▸ hv)).2)
      (Finset.prod_le_prod' fun v hv => ENNReal.ofReal_le_ofReal ?_) bot_le bot_le
    have := (hpr1 ω v fun h => hB (h ▸ hv)).1
    linarith
  have blow : ∀ (ω : Ω) (S B : Finset (Fin w.length)), u ∉ S → u ∉ B →
      (∏ v ∈ S, ENNReal.ofReal (f v (X ω u) (X ω v) - min (f v (X ω u) (X ω v)) ε)) * ∏ v ∈ B, ENNReal.ofReal (1 - f v (X ω u) (X ω v)) ≤
      (∏ v ∈ S, ENNReal.ofReal (pr ω u v)) * ∏ v ∈ B, ENNReal.ofReal (1 - pr ω u v) := by
    intro ω S B hS hB
    refine mul_le_mul (Finset.prod_le_prod' fun v hv => ENNReal.ofReal_le_ofReal (hpr1 ω v fun h => hS (h ▸ hv)).1)
      (Finset.prod_le_prod' fun v hv => ENNReal.ofReal_le_ofReal ?_) bot_le bot_le
    have := (hpr1 ω v fun h => hB (h ▸ hv)).2
    linarith
  have m1 : ∀ v, Measurable fun z : (Fin D → ℝ) × (Fin D → ℝ) => f v z.1 z.2 - min (f v z.1 z.2) ε := fun v => (hfm v).sub ((hfm v).min measurable_const)
  have mu := fun S B => hmeas S B f (fun v q p => 1 - (f v q p - min (f v q p) ε)) hfm fun v => measurable_const.sub (m1 v)
  have ml := fun S B => hmeas S B (fun v q p => f v q p - min (f v q p) ε) (fun v q p => 1 - f v q p) m1 fun v => measurable_const.sub (hfm v)
  have hsets : ∀ {d : ℕ} {S : Finset (Fin w.length)}, S ∈ (Finset.univ.erase u).powersetCard d → u ∉ S ∧ u ∉ (Finset.univ.erase u) \ S := by
    intro d S hS
    have hS' := (Finset.mem_powersetCard.1 hS).1
    exact ⟨fun h => Finset.notMem_erase u _ (hS' h), fun h => Finset.notMem_erase u _ (Finset.mem_sdiff.1 h).1⟩
  refine ⟨fun S B hS hB hd => ⟨?_, ?_⟩, fun d => ⟨?_, ?_⟩⟩
  · exact (upperMean_le (mu S B) fun ω => (hpr2 ω S B hS hB hd).le.trans (bup ω S B hS hB)).trans (hup S B hS hB hd)
  · exact (hlow S B hS hB hd).trans (lintegral_mono fun ω => (blow ω S B hS hB).trans (hpr2 ω S B hS hB hd).ge)
  · refine (upperMean_le (Finset.measurable_sum _ fun S _ => mu S ((Finset.univ.erase u) \ S)) fun ω =>
      (hpr3 ω d).le.trans (Finset.sum_le_sum fun S hS => bup ω S _ (hsets hS).1 (hsets hS).2)).trans ?_
    rw [lintegral_finsetSum _ fun S _ => mu S _, ENNReal.ofReal_sum_of_nonneg fun S _ => mul_nonneg (Finset.prod_nonneg fun v _ => (hm01 v).1)
      (Finset.prod_nonneg fun v _ => by have := (hm01 v).2; linarith)]
    exact Finset.sum_le_sum fun S hS => hup S _ (hsets hS).1 (hsets hS).2 Finset.disjoint_sdiff
  · refine le_trans ?_ (lintegral_mono fun ω => (Finset.sum_le_sum fun S hS => blow ω S _ (hsets hS).1 (hsets hS).2).trans (hpr3 ω d).ge)
    rw [lintegral_finsetSum _ fun S _ => ml S _, ENNReal.ofReal_sum_of_nonneg fun S _ => mul_nonneg (Finset.prod_nonneg fun v _ => le_max_left _ _)
      (Finset.prod_nonneg fun v _ => sub_nonneg.2 (hm01 v).2)]
    exact Finset.sum_le_sum fun S hS => hlow S _ (hsets hS).1 (hsets hS).2 Finset.disjoint_sdiff

end Positions

section Hyperbolic
open HypDeg Radius
variable {Ω : Type} [MeasurableSpace Ω] {P : Measure Ω} {omp : Omp} {eng : Engine XR} [MeasurableSpace eng.G] {μ : Measure eng.G}
  {σ : ℤ → Ω → eng.G} {device : ℕ → Ω → eng.G} {n : ℕ} {α R : ℝ} {radii angles : Ω → List XR} {rng : Tree.Rng XR}

/-- the points, and the probability that a point is near node `u` -/
theorem hyper_rows (hs : SampledPoints P omp eng μ σ device n α R radii angles) (h31 : n < 2147483648)
    (hdisk : (2 / 3 ≤ R ∧ R ≤ 1) ∨ (4 / 3 ≤ R ∧ R ≤ 165 / 4)) (hα : 0 < α) (hαR : 1 ≤ α * R)
    (env : Ω → HEnv) (hgeo : GeoBounded rng) (gens : Ω → ℕ → rng.G) {out : Ω → List (ℕ × ℕ)}
    (h : ∀ ω, HGenerateEdges (env ω) rng (gens ω) (radii ω) (angles ω) (fin 0) (fin R) (out ω)) (u : Fin n)
    {ρ φ : Ω → ℝ} (hρ : ∀ ω, (radii ω)[u.1]? = some (fin (ρ ω))) (hφ : ∀ ω, (angles ω)[u.1]? = some (fin (φ ω)))
    {m : Ω → ℝ≥0∞} (hm : ∀ ω, m ω = P {ω' | hypDist (ρ ω) (φ ω) (ρ ω') (φ ω') < R}) :
    ∃ (X : Ω → Fin n → ℝ × ℝ) (K : Set ((ℝ × ℝ) × ℝ × ℝ)), Measurable X ∧ P.map X = Measure.pi (fun _ => pointLaw α R) ∧ MeasurableSet K ∧
      (∀ ω, X ω u = (ρ ω, φ ω)) ∧ (∀ ω, 0 < ρ ω ∧ ρ ω < R) ∧ (∀ ω, m ω = pointLaw α R {p | ((ρ ω, φ ω), p) ∈ K}) ∧
      (∀ q : ℝ × ℝ, pointLaw α R {p | (q, p) ∈ K} = ∫⁻ p, ENNReal.ofReal (conn 0 (Real.exp ((hypDist q.1 q.2 p.1 p.2 - R) / 2))) ∂pointLaw α R) ∧
      (∀ (C : Set (ℝ × ℝ)) (g : ℝ × ℝ → ℝ≥0∞), MeasurableSet C → Measurable g →
        ∫⁻ q in C, g q ∂pointLaw α R = ∫⁻ ω in {ω | (ρ ω, φ ω) ∈ C}, g (ρ ω, φ ω) ∂P) ∧
      ∀ ω, ∃ rel : ℕ → ℕ → Prop, IsGraphOf n rel (out ω) ∧ ∀ v : Fin n, rel u v ↔ (X ω u, X ω v) ∈ K := by
  have hR : 0 < R := by rcases hdisk with h | h <;> linarith
  have hn : 1 ≤ n := by have := u.2; omega
  obtain ⟨r, a, hp, ho⟩ := sampled_random hs hn hα hR hαR
  haveI := radialLaw_prob hαR
  haveI : IsProbabilityMeasure (pointLaw α R) := by unfold pointLaw; infer_instance
  obtain rfl : ρ = r u := by
    funext ω
    have := hρ ω
    rw [(ho ω).1, List.getElem?_ofFn, dif_pos u.2, Option.some.injEq] at this
    exact (XR.fin.inj this).symm
  obtain rfl : φ = a u := by
    funext ω
    have := hφ ω
    rw [(ho ω).2, List.getElem?_ofFn, dif_pos u.2, Option.some.injEq] at this
    exact (XR.fin.inj this).symm
  have hX : Measurable fun ω i => (r i ω, a i ω) := measurable_pi_lambda _ fun i => (hp.measR i).prodMk (hp.measA i)
  have hK : MeasurableSet {z : (ℝ × ℝ) × ℝ × ℝ | hypDist z.1.1 z.1.2 z.2.1 z.2.2 < R} := measurableSet_lt measurable_hypDist measurable_const
  have hKq : ∀ q : ℝ × ℝ, MeasurableSet {p : ℝ × ℝ | hypDist q.1 q.2 p.1 p.2 < R} := fun q => by
    have h1 : Measurable fun p : ℝ × ℝ => (q, p) := by fun_prop
    exact h1 hK
  have hmu : Measurable fun ω => (r u ω, a u ω) := (hp.measR u).prodMk (hp.measA u)
  have hone : P.map (fun ω => (r u ω, a u ω)) = pointLaw α R := by
    have h1 : (fun ω => (r u ω, a u ω)) = (fun x : Fin n → ℝ × ℝ => x u) ∘ fun ω i => (r i ω, a i ω) := rfl
    rw [h1, ← Measure.map_map (measurable_pi_apply u) hX, hp.joint]
    exact (measurePreserving_eval (fun _ : Fin n => pointLaw α R) u).map_eq
  refine ⟨fun ω i => (r i ω, a i ω), _, hX, hp.joint, hK, fun ω => rfl, hp.rangeR u, fun ω => ?_, fun q => ?_, fun C g hC hg => ?_, fun ω => ?_⟩
  · rw [hm, ← hone]
    exact (Measure.map_apply hmu (hKq (r u ω, a u ω))).symm
  · show pointLaw α R {p : ℝ × ℝ | hypDist q.1 q.2 p.1 p.2 < R} = _
    rw [← lintegral_indicator_one (hKq q)]
    refine lintegral_congr fun p => ?_
    unfold conn
    simp only [if_true, Real.exp_lt_one_iff, Set.indicator_apply, Set.mem_setOf_eq, Pi.one_apply]
    by_cases h1 : hypDist q.1 q.2 p.1 p.2 < R
    · rw [if_pos h1, if_pos (by linarith)]; simp
    · rw [if_neg h1, if_neg (by linarith)]; simp
  · rw [← hone, setLIntegral_map hC hg hmu]
    rfl
  · have h1 := h ω
    rw [(ho ω).1, (ho ω).2, xw_ofFn, xw_ofFn] at h1
    have hin := random_input hp hn h31 le_rfl hdisk ω
    have h2 := C45_threshold_exact hin _ rng hgeo _ _ h1
    rw [List.length_ofFn] at h2
    refine ⟨_, h2, fun v => ?_⟩
    rw [rule_gap]
    unfold gap
    rw [Real.exp_lt_one_iff]
    constructor
    · intro h3
      show hypDist _ _ _ _ < R
      linarith
    · intro h3
      have h4 : hypDist (r u ω) (a u ω) (r v ω) (a v ω) < R := h3
      linarith

/-- C109, hyperbolic random graphs, `T = 0`.  `n` points of the disk are drawn (ideal engines, independently started), then `generateEdges` is run with temperature 0,
in any environment and with any random numbers.  `m ω` is the probability that a random point is nearer than `R` to the point of node `u`.  Given this point, the
connections of `u` with the other nodes are independent and have this probability: this holds for each set of neighbours and non-neighbours, and over the outcomes
with radius of `u` in any set `A`. -/
theorem C109_hyper_threshold (hs : SampledPoints P omp eng μ σ device n α R radii angles) (h31 : n < 2147483648)
    (hdisk : (2 / 3 ≤ R ∧ R ≤ 1) ∨ (4 / 3 ≤ R ∧ R ≤ 165 / 4)) (hα : 0 < α) (hαR : 1 ≤ α * R)
    (env : Ω → HEnv) (hgeo : GeoBounded rng) (gens : Ω → ℕ → rng.G) {out : Ω → List (ℕ × ℕ)}
    (h : ∀ ω, HGenerateEdges (env ω) rng (gens ω) (radii ω) (angles ω) (fin 0) (fin R) (out ω)) (u : Fin n)
    {ρ φ : Ω → ℝ} (hρ : ∀ ω, (radii ω)[u.1]? = some (fin (ρ ω))) (hφ : ∀ ω, (angles ω)[u.1]? = some (fin (φ ω)))
    {m : Ω → ℝ≥0∞} (hm : ∀ ω, m ω = P {ω' | hypDist (ρ ω) (φ ω) (ρ ω') (φ ω') < R}) {A : Set ℝ} (hA : MeasurableSet A) :
    (∀ S B : Finset (Fin n), u ∉ S → u ∉ B → Disjoint S B →
      P {ω | ρ ω ∈ A ∧ (∀ v ∈ S, adjacent (out ω) u v) ∧ ∀ v ∈ B, ¬ adjacent (out ω) u v} =
        ∫⁻ ω in {ω | ρ ω ∈ A}, m ω ^ S.card * (1 - m ω) ^ B.card ∂P) ∧
    ∀ d : ℕ, P {ω | ρ ω ∈ A ∧ degreeOf u (out ω) = d} = ∫⁻ ω in {ω | ρ ω ∈ A}, (n - 1).choose d * (m ω ^ d * (1 - m ω) ^ (n - 1 - d)) ∂P := by
  classical
  obtain ⟨X, K, hX, hlaw, hK, hXu, _, hmK, _, hmap, hg⟩ := hyper_rows hs h31 hdisk hα hαR env hgeo gens h u hρ hφ hm
  haveI := radialLaw_prob hαR
  haveI : IsProbabilityMeasure (pointLaw α R) := by unfold pointLaw; infer_instance
  have hC : MeasurableSet {p : ℝ × ℝ | p.1 ∈ A} := measurable_fst hA
  choose rel hrel hrelK using hg
  have hgm : ∀ i j : ℕ, Measurable fun q : ℝ × ℝ => pointLaw α R {p | (q, p) ∈ K} ^ i * (1 - pointLaw α R {p | (q, p) ∈ K}) ^ j := fun i j =>
    ((measurable_measure_prodMk_left hK).pow_const i).mul ((measurable_const.sub (measurable_measure_prodMk_left hK)).pow_const j)
  constructor
  · intro S B hS hB hd
    have h1 := neighbours_prob hX hlaw hS hB hd hC (K := fun _ => K) fun _ => hK
    simp only [Finset.prod_const] at h1
    rw [hmap _ _ hC (hgm _ _)] at h1
    simp only [← hmK, hXu, Set.mem_setOf_eq] at h1
    rw [← h1]
    congr 1
    ext ω
    simp only [Set.mem_setOf_eq]
    rw [neighbours_rel (hrel ω) hS hB]
    simp only [hrelK, hXu]
  · intro d
    have h1 := degree_prob hX hlaw u hC (K := fun _ => K) (fun _ => hK) d
    simp only [Finset.prod_const] at h1
    have hcard : (Finset.univ.erase u).card = n - 1 := by rw [Finset.card_erase_of_mem (Finset.mem_univ u), Finset.card_univ, Fintype.card_fin]
    have h2 : ∀ S ∈ (Finset.univ.erase u).powersetCard d,
        ∫⁻ q in {p : ℝ × ℝ | p.1 ∈ A}, pointLaw α R {p | (q, p) ∈ K} ^ S.card * (1 - pointLaw α R {p | (q, p) ∈ K}) ^ ((Finset.univ.erase u) \ S).card ∂pointLaw α R =
        ∫⁻ ω in {ω | ρ ω ∈ A}, m ω ^ d * (1 - m ω) ^ (n - 1 - d) ∂P := by
      intro S hS
      obtain ⟨h3, h4⟩ := Finset.mem_powersetCard.1 hS
      rw [Finset.card_sdiff_of_subset h3, hcard, h4, hmap _ _ hC (hgm _ _)]
      simp only [← hmK, Set.mem_setOf_eq]
    rw [Finset.sum_congr rfl h2, Finset.sum_const, Finset.card_powersetCard, hcard, nsmul_eq_mul, ← lintegral_const_mul' _ _ (by simp)] at h1
    rw [← h1]
    congr 1
    ext ω
    simp only [Set.mem_setOf_eq, hXu]
    rw [degree_iff (hrel ω)]
    refine and_congr_right fun _ => exists_congr fun S => and_congr_right fun hS => ?_
    have hS' := (Finset.mem_powersetCard.1 hS).1
    rw [neighbours_rel (hrel ω) (fun h => Finset.notMem_erase u _ (hS' h)) (fun h => Finset.notMem_erase u _ (Finset.mem_sdiff.1 h).1)]
    simp only [hrelK, hXu]

/-- C109, hyperbolic random graphs, `T = 0`, same setting: the probability `m ω` that a random point is near node `u` is, up to the relative errors of C96, its leading
term `(2/π) ξ exp(-r/2)` for the radius `r` of `u`. -/
theorem C109_hyper_probability (hs : SampledPoints P omp eng μ σ device n α R radii angles) (h31 : n < 2147483648)
    (hdisk : (2 / 3 ≤ R ∧ R ≤ 1) ∨ (4 / 3 ≤ R ∧ R ≤ 165 / 4)) {γ : ℝ} (hγ0 : 1 ≤ γ) (hγ : γ ≤ 2) (hγα : γ < 2 * α) (hαR : 1 ≤ (α - 1 / 2) * R)
    (env : Ω → HEnv) (hgeo : GeoBounded rng) (gens : Ω → ℕ → rng.G) {out : Ω → List (ℕ × ℕ)}
    (h : ∀ ω, HGenerateEdges (env ω) rng (gens ω) (radii ω) (angles ω) (fin 0) (fin R) (out ω)) (u : Fin n)
    {ρ φ : Ω → ℝ} (hρ : ∀ ω, (radii ω)[u.1]? = some (fin (ρ ω))) (hφ : ∀ ω, (angles ω)[u.1]? = some (fin (φ ω)))
    {m : Ω → ℝ≥0∞} (hm : ∀ ω, m ω = P {ω' | hypDist (ρ ω) (φ ω) (ρ ω') (φ ω') < R}) (ω : Ω) :
    ENNReal.ofReal (hrgNodeDegree 1 α 0 (ρ ω) * (1 - 2.1 * Real.exp (-((α - 1 / 2) * R)) - 3 * nodeError α γ (ρ ω) * slack α R)) ≤ m ω ∧
    m ω ≤ ENNReal.ofReal (hrgNodeDegree 1 α 0 (ρ ω) * ((1 + 2 * nodeError α γ (ρ ω)) * slack α R)) := by
  have hR : 0 < R := by rcases hdisk with h | h <;> linarith
  have hα : 0 < α := by linarith
  have hαR' : 1 ≤ α * R := by nlinarith
  obtain ⟨X, K, _, _, _, _, hrange, hmK, hKc, _, _⟩ := hyper_rows hs h31 hdisk hα hαR' env hgeo gens h u hρ hφ hm
  have e : hrgNodeDegree 1 α 0 (ρ ω) = 2 / Real.pi * xi α * Real.exp (-(ρ ω) / 2) * connC 0 := by
    unfold hrgNodeDegree connC
    ring
  rw [hmK, hKc, e]
  exact ⟨node_lower' le_rfl one_pos hγ0 hγ (by norm_num) hγα hR hαR (ρ ω, φ ω) (hrange ω).1.le (hrange ω).2.le,
    node_upper' le_rfl one_pos hγ0 hγ (by norm_num) hγα hR hαR' (ρ ω, φ ω)⟩

end Hyperbolic

/-! ### examples -/

/-- C109 at work: 1000 nodes of weight 1 in dimension 5 and `alpha = infinity`, ideal engines.  Node 7 is connected with each other node with probability 0.032: it is
isolated with probability `0.968^999`, it has degree `d` with the probability of the binomial distribution, and with probability `0.032^2 * 0.968` it is connected with
nodes 3 and 500, but not with node 999. -/
example (n : ℕ) (hn : n = 1000) : ∃ (P : Measure (ℤ → ℕ → ℝ)) (pos : (ℤ → ℕ → ℝ) → List (List XR)) (out : (ℤ → ℕ → ℝ) → List (ℕ × ℕ)) (notice : (ℤ → ℕ → ℝ) → Notice),
    IsProbabilityMeasure P ∧
    (∀ ω, GeneratePositions exampleOmp (withSeeds streamEngine fun s => ω s) (fun _ => (fun _ => 0)) n 5 130 true (pos ω)) ∧
    (∀ ω, GenerateEdges (exampleEnv true) idealRng (fun _ _ => 0) (xw (List.replicate n 1)) (pos ω) .pinf (out ω) (notice ω)) ∧
    (∀ d : ℕ, P {ω | degreeOf 7 (out ω) = d} = ENNReal.ofReal ((n - 1).choose d * (0.032 ^ d * 0.968 ^ (n - 1 - d)))) ∧
    P {ω | degreeOf 7 (out ω) = 0} = ENNReal.ofReal (0.968 ^ (n - 1)) ∧
    P {ω | adjacent (out ω) 7 3 ∧ adjacent (out ω) 7 500 ∧ ¬ adjacent (out ω) 7 999} = ENNReal.ofReal (0.032 ^ 2 * 0.968) := by
  classical
  have hnR : (n : ℝ) = 1000 := by rw [hn]; norm_num
  have hsup : SupportedWeights 5 (List.replicate n 1) := by
    intro x hl hx
    have h1 : ∀ y ∈ List.replicate n (1 : ℝ), y = 1 := fun y hy => List.eq_of_mem_replicate hy
    refine ⟨by norm_num, by norm_num, hl, by rw [List.length_replicate]; omega, by rw [List.length_replicate]; omega, ?_, ?_, hx, ?_, ?_⟩
    · intro y hy; rw [h1 y hy]; norm_num
    · intro y hy; rw [h1 y hy]; exact one_lt_pow₀ (by norm_num) (by norm_num)
    · intro y hy; rw [h1 y hy, List.sum_replicate, nsmul_eq_mul, hnR]; norm_num
    · intro y hy z hz; rw [h1 y hy, h1 z hz]; norm_num
  have hthreads : nodeThreads exampleOmp n true ≤ 2147483518 := by rw [hn]; decide
  have hseed : (0 ≤ (130 : ℤ) ∧ (130 : ℤ) + nodeThreads exampleOmp n true ≤ 2147483648 ∧
      IndependentStates (Measure.infinitePi fun _ : ℤ => seqMeasure) seqMeasure fun (s : ℤ) (ω : ℤ → ℕ → ℝ) => ω s) := ⟨by norm_num, by omega, streamStates⟩
  obtain ⟨X, hX, _⟩ := C92_positions (D := 5) (omp := exampleOmp) (device := fun _ _ => (fun _ => 0 : ℕ → ℝ)) (n := n) (parallel := true)
    streamEngine_ideal (Or.inl hseed)
  have hpos := fun ω => (hX ω _).2 rfl
  have hlen : (List.replicate n (1 : ℝ)).length = n := List.length_replicate
  obtain ⟨Y, _, _, hY⟩ := positions_random streamEngine_ideal (Or.inl hseed) hpos
  have hex : ∀ ω, ∃ out notice, GenerateEdges (exampleEnv true) idealRng (fun _ _ => 0) (xw (List.replicate n 1))
      (List.ofFn fun i => List.ofFn fun d => fin (X ω i d)) .pinf out notice := by
    intro ω
    have s := hsup (List.ofFn (Y ω)) (by simp) (by
      intro p hp d
      obtain ⟨i, rfl⟩ := List.mem_ofFn.1 hp
      exact (hY ω).2 i d)
    rw [(hY ω).1]
    exact (C17_simple_graph s .pinf (exampleEnv true) idealRng idealRng_ideal.bounded _).1
  choose out notice hout using hex
  obtain ⟨u, hu⟩ : ∃ u : Fin (List.replicate n (1 : ℝ)).length, u.1 = 7 := ⟨⟨7, by rw [hlen]; omega⟩, rfl⟩
  obtain ⟨a, ha⟩ : ∃ u : Fin (List.replicate n (1 : ℝ)).length, u.1 = 3 := ⟨⟨3, by rw [hlen]; omega⟩, rfl⟩
  obtain ⟨b, hb⟩ : ∃ u : Fin (List.replicate n (1 : ℝ)).length, u.1 = 500 := ⟨⟨500, by rw [hlen]; omega⟩, rfl⟩
  obtain ⟨c, hc⟩ : ∃ u : Fin (List.replicate n (1 : ℝ)).length, u.1 = 999 := ⟨⟨999, by rw [hlen]; omega⟩, rfl⟩
  have hk : ∀ v : Fin (List.replicate n (1 : ℝ)).length, (0.032 : ℝ) = min 1 (2 ^ 5 * ((List.replicate n (1 : ℝ))[u] * (List.replicate n (1 : ℝ))[v] / (List.replicate n (1 : ℝ)).sum)) := by
    intro v
    rw [List.sum_replicate, nsmul_eq_mul, hnR]
    simp only [Fin.getElem_fin, List.getElem_replicate]
    rw [min_eq_right (by norm_num)]
    norm_num
  have hcard : ((Finset.univ : Finset (Fin (List.replicate n (1 : ℝ)).length)).erase u).card = n - 1 := by
    rw [Finset.card_erase_of_mem (Finset.mem_univ u), Finset.card_univ, Fintype.card_fin, hlen]
  have hd : ∀ d : ℕ, (Measure.infinitePi fun _ : ℤ => seqMeasure) {ω | degreeOf 7 (out ω) = d} = ENNReal.ofReal ((n - 1).choose d * (0.032 ^ d * 0.968 ^ (n - 1 - d))) := by
    intro d
    have h1 := C109_degree_threshold (w := List.replicate n 1) streamEngine_ideal (Or.inl hseed) hpos (fun _ => exampleEnv true) idealRng_ideal.bounded _ hsup hlen hout u
      hk d
    rw [hu] at h1
    rw [h1]
    congr 1
    have h2 : ∀ S ∈ ((Finset.univ : Finset (Fin (List.replicate n (1 : ℝ)).length)).erase u).powersetCard d,
        (∏ _v ∈ S, (0.032 : ℝ)) * ∏ _v ∈ (Finset.univ.erase u) \ S, (1 - (0.032 : ℝ)) = 0.032 ^ d * 0.968 ^ (n - 1 - d) := by
      intro S hS
      obtain ⟨h3, h4⟩ := Finset.mem_powersetCard.1 hS
      rw [Finset.prod_const, Finset.prod_const, Finset.card_sdiff_of_subset h3, hcard, h4]
      norm_num
    rw [Finset.sum_congr rfl h2, Finset.sum_const, Finset.card_powersetCard, hcard, nsmul_eq_mul]
  refine ⟨Measure.infinitePi fun _ : ℤ => seqMeasure, _, out, notice, inferInstance, hpos, hout, hd, ?_, ?_⟩
  · rw [hd 0]
    simp
  · have hne : ∀ {x y : Fin (List.replicate n (1 : ℝ)).length}, x.1 ≠ y.1 → x ≠ y := fun h1 h2 => h1 (congrArg Fin.val h2)
    have hab : a ≠ b := hne (by omega)
    have h1 := C109_threshold (w := List.replicate n 1) streamEngine_ideal (Or.inl hseed) hpos (fun _ => exampleEnv true) idealRng_ideal.bounded _ hsup hlen hout u
      (S := {a, b}) (B := {c}) (by simp only [Finset.mem_insert, Finset.mem_singleton]; exact fun h => h.elim (hne (by omega)) (hne (by omega)))
      (by simp only [Finset.mem_singleton]; exact hne (by omega))
      (by
        rw [Finset.disjoint_singleton_right]
        simp only [Finset.mem_insert, Finset.mem_singleton]
        exact fun h => h.elim (hne (by omega)) (hne (by omega))) hk
    simp only [Finset.mem_insert, Finset.mem_singleton, forall_eq_or_imp, forall_eq, hu, ha, hb, hc, Finset.prod_pair hab, Finset.prod_singleton, and_assoc] at h1
    rw [h1]
    norm_num

/-- `C109_alpha`: with `alpha = 2` instead, in dimension 1, node 7 is isolated with a probability between `(1-m)^999` and `(1-m+10^-6)^999` for the mean connection
probability `m` -/
example (n : ℕ) (hn : n = 1000) : ∃ (P : Measure (ℤ → ℕ → ℝ)) (ν : Measure idealRng.G) (pos : (ℤ → ℕ → ℝ) → List (List XR)),
    IsProbabilityMeasure P ∧
    (∀ ω, GeneratePositions exampleOmp (withSeeds streamEngine fun s => ω s) (fun _ => (fun _ => 0)) n 1 130 true (pos ω)) ∧
    upperMean P (fun ω => graphProb (exampleEnv true) idealRng ν (xw (List.replicate n 1)) (pos ω) (fin 2) fun out => degreeOf 7 out = 0) ≤
      ENNReal.ofReal ((1 - meanConnection 2 (2 / 1000) + 1 / 1000000) ^ (n - 1)) ∧
    ENNReal.ofReal ((1 - meanConnection 2 (2 / 1000)) ^ (n - 1)) ≤
      ∫⁻ ω, graphProb (exampleEnv true) idealRng ν (xw (List.replicate n 1)) (pos ω) (fin 2) (fun out => degreeOf 7 out = 0) ∂P := by
  classical
  have hnR : (n : ℝ) = 1000 := by rw [hn]; norm_num
  have hsup : SupportedWeights 1 (List.replicate n 1) := by
    intro x hl hx
    have h1 : ∀ y ∈ List.replicate n (1 : ℝ), y = 1 := fun y hy => List.eq_of_mem_replicate hy
    refine ⟨by norm_num, by norm_num, hl, by rw [List.length_replicate]; omega, by rw [List.length_replicate]; omega, ?_, ?_, hx, ?_, ?_⟩
    · intro y hy; rw [h1 y hy]; norm_num
    · intro y hy; rw [h1 y hy]; exact one_lt_pow₀ (by norm_num) (by norm_num)
    · intro y hy; rw [h1 y hy, List.sum_replicate, nsmul_eq_mul, hnR]; norm_num
    · intro y hy z hz; rw [h1 y hy, h1 z hz]; norm_num
  have hthreads : nodeThreads exampleOmp n true ≤ 2147483518 := by rw [hn]; decide
  have hseed : (0 ≤ (130 : ℤ) ∧ (130 : ℤ) + nodeThreads exampleOmp n true ≤ 2147483648 ∧
      IndependentStates (Measure.infinitePi fun _ : ℤ => seqMeasure) seqMeasure fun (s : ℤ) (ω : ℤ → ℕ → ℝ) => ω s) := ⟨by norm_num, by omega, streamStates⟩
  obtain ⟨X, hX, _⟩ := C92_positions (D := 1) (omp := exampleOmp) (device := fun _ _ => (fun _ => 0 : ℕ → ℝ)) (n := n) (parallel := true)
    streamEngine_ideal (Or.inl hseed)
  have hpos := fun ω => (hX ω _).2 rfl
  have hlen : (List.replicate n (1 : ℝ)).length = n := List.length_replicate
  obtain ⟨u, hu⟩ : ∃ u : Fin (List.replicate n (1 : ℝ)).length, u.1 = 7 := ⟨⟨7, by rw [hlen]; omega⟩, rfl⟩
  have hk : ∀ v : Fin (List.replicate n (1 : ℝ)).length, meanConnection 2 (2 / 1000) =
      meanConnection 2 (2 ^ 1 * ((List.replicate n (1 : ℝ))[u] * (List.replicate n (1 : ℝ))[v] / (List.replicate n (1 : ℝ)).sum)) := by
    intro v
    rw [List.sum_replicate, nsmul_eq_mul, hnR]
    simp only [Fin.getElem_fin, List.getElem_replicate]
    norm_num
  have hcard : ((Finset.univ : Finset (Fin (List.replicate n (1 : ℝ)).length)).erase u).card = n - 1 := by
    rw [Finset.card_erase_of_mem (Finset.mem_univ u), Finset.card_univ, Fintype.card_fin, hlen]
  have h1 := (C109_alpha (w := List.replicate n 1) streamEngine_ideal (Or.inl hseed) hpos idealRng_ideal (exampleEnv true) hsup hlen (a := 2) (by norm_num) u hk).2 0
  simp only [Finset.powersetCard_zero, Finset.sum_singleton, Finset.prod_empty, Finset.sdiff_empty, Finset.prod_const, Finset.card_empty, pow_zero, hcard, one_mul, hu] at h1
  exact ⟨Measure.infinitePi fun _ : ℤ => seqMeasure, seqMeasure, _, inferInstance, hpos, h1.1, h1.2⟩

open HypDeg Radius in
/-- C109, hyperbolic random graphs: 100000 points with `α = 1` in the disk of radius 20 and temperature 0.  The degree of node 7 has a binomial distribution, given its
point; given that its radius is between 16 and 18, it is isolated with probability at most `0.99985^99999` -/
example (n : ℕ) (hn : n = 100000) : ∃ (radii angles : (ℤ → ℕ → ℝ) → List XR) (out : (ℤ → ℕ → ℝ) → List (ℕ × ℕ)) (ρ φ : (ℤ → ℕ → ℝ) → ℝ) (m : (ℤ → ℕ → ℝ) → ℝ≥0∞)
    (P : Measure (ℤ → ℕ → ℝ)), P = (Measure.infinitePi fun _ : ℤ => seqMeasure) ∧ (∀ ω, (radii ω)[7]? = some (fin (ρ ω))) ∧ (∀ ω, (angles ω)[7]? = some (fin (φ ω))) ∧
    (∀ ω, HGenerateEdges (exampleHEnv true 1 (by norm_num) (by norm_num)) idealRng (fun _ _ => 0) (radii ω) (angles ω) (fin 0) (fin 20) (out ω)) ∧
    (∀ ω, m ω = P {ω' | hypDist (ρ ω) (φ ω) (ρ ω') (φ ω') < 20}) ∧
    (∀ d : ℕ, P {ω | ρ ω ∈ Set.Icc 16 18 ∧ degreeOf 7 (out ω) = d} =
      ∫⁻ ω in {ω | ρ ω ∈ Set.Icc 16 18}, (n - 1).choose d * (m ω ^ d * (1 - m ω) ^ (n - 1 - d)) ∂P) ∧
    P {ω | ρ ω ∈ Set.Icc 16 18 ∧ degreeOf 7 (out ω) = 0} ≤ P {ω | ρ ω ∈ Set.Icc 16 18} * ENNReal.ofReal (1 - 0.00015) ^ (n - 1) := by
  obtain ⟨radii, angles, hs⟩ := exampleSampled (n := n) (by omega) (α := 1) (R := 20) one_pos (by norm_num)
  obtain ⟨ρ, φ, hp, ho⟩ := sampled_random hs (by omega) one_pos (by norm_num) (by norm_num)
  have hex : ∀ ω, ∃ out, HGenerateEdges (exampleHEnv true 1 (by norm_num) (by norm_num)) idealRng (fun _ _ => 0) (radii ω) (angles ω) (fin 0) (fin 20) out := by
    intro ω
    rw [(ho ω).1, (ho ω).2, xw_ofFn, xw_ofFn]
    exact (C44_returns_iff (random_input hp (by omega) (by omega) le_rfl (Or.inr (by norm_num)) ω) _ _ idealRng_unit _).2 (Or.inl rfl)
  choose out hout using hex
  obtain ⟨u, hu⟩ : ∃ u : Fin n, u.1 = 7 := ⟨⟨7, by omega⟩, rfl⟩
  have hρ : ∀ ω, (radii ω)[u.1]? = some (fin (ρ u ω)) := by
    intro ω
    rw [(ho ω).1, List.getElem?_ofFn, dif_pos u.2]
  have hφ : ∀ ω, (angles ω)[u.1]? = some (fin (φ u ω)) := by
    intro ω
    rw [(ho ω).2, List.getElem?_ofFn, dif_pos u.2]
  have h1 := C109_hyper_threshold (α := 1) hs (by omega) (Or.inr (by norm_num)) one_pos (by norm_num) (fun _ => exampleHEnv true 1 (by norm_num) (by norm_num))
    idealRng_unit.geo _ hout u hρ hφ (fun ω => rfl) (measurableSet_Icc (a := (16 : ℝ)) (b := 18))
  have h2 := C109_hyper_probability (γ := 7 / 4) hs (by omega) (Or.inr (by norm_num)) (by norm_num) (by norm_num) (by norm_num) (by norm_num)
    (fun _ => exampleHEnv true 1 (by norm_num) (by norm_num)) idealRng_unit.geo _ hout u hρ hφ (fun ω => rfl)
  rw [hu] at h1
  have hS : MeasurableSet {ω | ρ u ω ∈ Set.Icc (16 : ℝ) 18} := hp.measR u measurableSet_Icc
  refine ⟨radii, angles, out, ρ u, φ u, _, _, rfl, hu ▸ hρ, hu ▸ hφ, hout, fun ω => rfl, h1.2, ?_⟩
  rw [h1.2 0]
  simp only [Nat.choose_zero_right, Nat.cast_one, pow_zero, one_mul, Nat.sub_zero]
  refine (setLIntegral_mono' (g := fun _ => ENNReal.ofReal (1 - 0.00015) ^ (n - 1)) hS fun ω hω => ?_).trans (by rw [setLIntegral_const, mul_comm])
  refine pow_le_pow_left' ?_ _
  have hω' : 16 ≤ ρ u ω ∧ ρ u ω ≤ 18 := hω
  have h3 := (h2 ω).1
  obtain ⟨a1, a2, a3, a4, a5⟩ := example_errors hω'.1
  have b1 := (example_lead (r := ρ u ω)).2.1 hω'.2
  have : nodeError 1 (7 / 4) (ρ u ω) * slack 1 20 ≤ 0.0104 * 1.001 := mul_le_mul a2 a4 a3 (by norm_num)
  have e : hrgNodeDegree 99999 1 0 (ρ u ω) = 99999 * hrgNodeDegree 1 1 0 (ρ u ω) := by
    unfold hrgNodeDegree
    ring
  rw [e] at b1
  have b2 : 0.000156 ≤ hrgNodeDegree 1 1 0 (ρ u ω) := by
    have : (0.000156 : ℝ) * 99999 ≤ 15.6 := by norm_num
    nlinarith
  have h4 : ENNReal.ofReal 0.00015 ≤ ENNReal.ofReal (hrgNodeDegree 1 1 0 (ρ u ω) * (1 - 2.1 * Real.exp (-((1 - 1 / 2) * 20)) - 3 * nodeError 1 (7 / 4) (ρ u ω) * slack 1 20)) := by
    refine ENNReal.ofReal_le_ofReal ?_
    calc (0.00015 : ℝ) ≤ 0.000156 * 0.968 := by norm_num
      _ ≤ _ := mul_le_mul b2 (by linarith) (by norm_num) (by linarith)
  rw [ENNReal.ofReal_sub _ (by norm_num), ENNReal.ofReal_one]
  exact tsub_le_tsub_left (h4.trans h3) _

end Girgs.Props
