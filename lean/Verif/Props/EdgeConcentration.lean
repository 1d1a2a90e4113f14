import Verif.Proofs.PairwiseIndep
import Verif.Props.DegreeConcentration
/-
C105: the average degree of a generated GIRG is close to the requested one with high probability.
-/
namespace Girgs.Props
open CFloat Spec MeasureTheory Tree Scaling PairIndep
open XR (fin)
open scoped ENNReal

/-! ### sums over pairs -/

theorem sum_pairs {n : ℕ} (f : Fin n → Fin n → ℝ) : ∑ e ∈ PairIndep.pairs n, f e.1 e.2 = ∑ u, ∑ v, if u < v then f u v else 0 := by
  unfold PairIndep.pairs
  rw [Finset.sum_filter, ← Finset.univ_product_univ, Finset.sum_product]

theorem two_pairs {n : ℕ} {f : Fin n → Fin n → ℝ} (hf : ∀ u v, f u v = f v u) : (∑ u, ∑ v, if u = v then 0 else f u v) = 2 * ∑ e ∈ PairIndep.pairs n, f e.1 e.2 := by
  have h1 : (∑ u, ∑ v, if u = v then 0 else f u v) = (∑ u, ∑ v, if u < v then f u v else 0) + ∑ u, ∑ v, if v < u then f u v else 0 := by
    rw [← Finset.sum_add_distrib]
    refine Finset.sum_congr rfl fun u _ => ?_
    rw [← Finset.sum_add_distrib]
    refine Finset.sum_congr rfl fun v _ => ?_
    rcases lt_trichotomy u v with h | h | h
    · simp [h, h.ne, h.not_gt]
    · simp [h]
    · simp [h, h.ne', h.not_gt]
  rw [h1, Finset.sum_comm (f := fun u v => if v < u then f u v else 0), sum_pairs, two_mul]
  congr 1
  refine Finset.sum_congr rfl fun u _ => Finset.sum_congr rfl fun v _ => ?_
  rw [hf]

theorem pairSum_true {n : ℕ} (f : ℕ → ℕ → ℝ) : Spec.pairSum n (fun _ _ => True) f = ∑ e ∈ PairIndep.pairs n, f e.1 e.2 := by
  unfold Spec.pairSum
  rw [sum_pairs fun u v : Fin n => f u v]
  refine Finset.sum_congr rfl fun u _ => Finset.sum_congr rfl fun v _ => ?_
  simp only [and_true]

theorem edgesIn_true (es : List (ℕ × ℕ)) : edgesIn (fun _ _ => True) es = es.length := by
  unfold edgesIn
  rw [List.countP_eq_length]
  simp

theorem graph_edges {n : ℕ} {R : ℕ → ℕ → Prop} [∀ u v, Decidable (R u v)] (hR : ∀ u v, R u v → R v u) {es : List (ℕ × ℕ)} (h : IsGraphOf n R es) :
    (edgesIn (fun _ _ => True) es : ℝ) = ∑ e ∈ PairIndep.pairs n, if R e.1 e.2 then 1 else 0 := by
  classical
  rw [edgesIn_true, graph_count hR h, pairCount_sum, ← pairSum_true (fun u v => if R u v then 1 else 0), pairSum_eq]
  refine Finset.sum_congr ?_ fun e _ => ?_
  · simp
  · congr

/-! ### random positions -/

theorem pairs_upper {D n : ℕ} {Ω : Type} [MeasurableSpace Ω] {P : Measure Ω} {X : Ω → Fin n → Fin D → ℝ} (hX : Measurable X) (hlaw : P.map X = uniformPositions n D)
    {f : Fin n × Fin n → (Fin D → ℝ) → (Fin D → ℝ) → ℝ} (hm : ∀ e, Measurable fun z : (Fin D → ℝ) × (Fin D → ℝ) => f e z.1 z.2)
    (hsym : ∀ e p q, f e p q = f e q p) (hb : ∀ e p q, 0 ≤ f e p q ∧ f e p q ≤ 1) {k : Fin n × Fin n → ℝ}
    (hk : ∀ e, ∀ q : Fin D → ℝ, (∀ d, q d ∈ Set.Ico (0 : ℝ) 1) → ∫ p, f e q p ∂unitCube D = k e) {M : ℝ} (hM : M = ∑ e ∈ PairIndep.pairs n, k e) {t : ℝ} (ht : 0 < t)
    {F : Ω → ℝ≥0∞} {b : ℝ} (hb0 : 0 ≤ b) (hF1 : ∀ ω, F ω ≤ 1) (hF : ∀ ω, |(∑ e ∈ PairIndep.pairs n, f e (X ω e.1) (X ω e.2)) - M| < t → F ω ≤ ENNReal.ofReal b) :
    upperMean P F ≤ ENNReal.ofReal (M / t ^ 2 + b) := by
  have hint : ∀ e q, Integrable (fun p => f e q p) (unitCube D) := by
    intro v q
    have h1 : Measurable fun p : Fin D → ℝ => (q, p) := by fun_prop
    refine Integrable.of_bound ((hm v).comp h1).aestronglyMeasurable 1 (Filter.Eventually.of_forall fun p => ?_)
    rw [Real.norm_eq_abs, abs_of_nonneg (hb v q p).1]
    exact (hb v q p).2
  have hk0 : ∀ e, 0 ≤ k e := fun e => by
    rw [← hk e (fun _ => 0) (by intro d; norm_num)]
    exact integral_nonneg fun p => (hb e _ p).1
  have hk' : ∀ e, ∀ᵐ q ∂unitCube D, ∫⁻ p, ENNReal.ofReal (f e q p) ∂unitCube D = ENNReal.ofReal (k e) := by
    intro e
    filter_upwards [unitCube_ae D] with q hq
    rw [← ofReal_integral_eq_lintegral_ofReal (hint e q) (Filter.Eventually.of_forall fun p => (hb e q p).1), hk e q hq]
  have dev := deviation (unitCube D) hm hsym hb hk0 hk' ht
  rw [← hM] at dev
  set A : Set (Fin n → Fin D → ℝ) := {x | t ≤ |(∑ e ∈ PairIndep.pairs n, f e (x e.1) (x e.2)) - M|} with hA
  have hSm : Measurable fun x : Fin n → Fin D → ℝ => ∑ e ∈ PairIndep.pairs n, f e (x e.1) (x e.2) := by
    refine Finset.measurable_sum _ fun e _ => ?_
    have h : Measurable fun x : Fin n → Fin D → ℝ => (x e.1, x e.2) := by fun_prop
    exact (hm e).comp h
  have hAm : MeasurableSet A := measurableSet_le measurable_const (continuous_abs.measurable.comp (hSm.sub measurable_const))
  have hP : P Set.univ = 1 := by
    have h1 : P.map X Set.univ = 1 := by rw [hlaw]; exact measure_univ (μ := Measure.pi fun _ : Fin n => unitCube D)
    rwa [Measure.map_apply hX MeasurableSet.univ, Set.preimage_univ] at h1
  have hM0 : 0 ≤ M := hM ▸ Finset.sum_nonneg fun e _ => hk0 e
  refine (upperMean_le (F := fun ω => (X ⁻¹' A).indicator (fun _ => 1) ω + ENNReal.ofReal b) ?_ ?_).trans ?_
  · exact (measurable_const.indicator (hX hAm)).add measurable_const
  · intro ω
    by_cases h : ω ∈ X ⁻¹' A
    · rw [Set.indicator_of_mem h]
      exact (hF1 ω).trans le_self_add
    · rw [Set.indicator_of_notMem h, zero_add]
      exact hF ω (not_le.1 h)
  · rw [lintegral_add_right _ measurable_const, lintegral_indicator_const (hX hAm), one_mul, lintegral_const, hP, mul_one, ← Measure.map_apply hX hAm, hlaw,
      ENNReal.ofReal_add (by positivity) hb0]
    exact add_le_add dev le_rfl

theorem edgesProb_le_one {env : Env} {rng : Rng XR} [MeasurableSpace rng.G] {μ : Measure rng.G} (hr : IdealRng rng μ) {w : List XR} {x : List (List XR)} {a : XR}
    {A : ℕ → ℕ → Prop} {Q : ℕ → Prop} : edgesProb env rng μ w x a A Q ≤ 1 := by
  have := hr.prob
  exact prob_le_one (μ := Measure.pi fun _ : Fin env.threads => μ)

section Positions
variable {Ω : Type} [MeasurableSpace Ω] {P : Measure Ω} {omp : Omp} {eng : Engine XR} [MeasurableSpace eng.G] {μ : Measure eng.G}
  {σ : ℤ → Ω → eng.G} {device : ℕ → Ω → eng.G} {n : ℕ} {seed : ℤ} {parallel : Bool} {D : ℕ} {w : List ℝ} {pos : Ω → List (List XR)}
  {rng : Rng XR} [MeasurableSpace rng.G] {ν : Measure rng.G}

/-- C105, `alpha = infinity`.  `n` positions are drawn by `generatePositions` (ideal engines, independently started), then `generateEdges` is run on weights `w`
(ideal random numbers).  The average degree `2 k / n` of the result (`k` edges) differs from its expectation by `ε` or more with probability at most
`2 * expectation / (n ε²)`. -/
theorem C105_threshold (he : IdealEngine eng μ)
    (hs : (0 ≤ seed ∧ seed + nodeThreads omp n parallel ≤ 2147483648 ∧ IndependentStates P μ σ) ∨ (seed < 0 ∧ IndependentStates P μ device))
    (hpos : ∀ ω, GeneratePositions omp (withSeeds eng fun s => σ s ω) (fun k => device k ω) n D seed parallel (pos ω))
    (hr : IdealRng rng ν) (env : Env) (hw : SupportedWeights D w) (hn : w.length = n) {ε : ℝ} (hε : 0 < ε) :
    upperMean P (fun ω => edgesProb env rng ν (xw w) (pos ω) .pinf (fun _ _ => True) fun k => ε ≤ |2 * (k : ℝ) / n - thresholdGirgDegree D w|) ≤
      ENNReal.ofReal (2 * thresholdGirgDegree D w / (n * ε ^ 2)) := by
  classical
  subst hn
  obtain ⟨X, hX, hlaw, hXp⟩ := positions_random he hs hpos
  have sup : ∀ ω, SupportedInput D w (List.ofFn (X ω)) := fun ω => hw _ (by simp) (by
    intro p hp
    obtain ⟨i, rfl⟩ := List.mem_ofFn.1 hp
    exact (hXp ω).2 i)
  have s0 : SupportedInput D w (List.replicate w.length fun _ => 0) := hw _ (by simp) (by
    intro p hp d
    rw [List.eq_of_mem_replicate hp]; norm_num)
  have hpos' : ∀ u v : Fin w.length, 0 < w[u.1] * w[v.1] / w.sum := fun u v =>
    div_pos (mul_pos (s0.wpos _ (List.getElem_mem _)) (s0.wpos _ (List.getElem_mem _)))
      (List.sum_pos w s0.wpos (by rintro rfl; exact absurd u.2 (by simp)))
  have hn0 : (0 : ℝ) < w.length := by exact_mod_cast s0.pos
  have hf : ∀ (x : Fin w.length → Fin D → ℝ) (u v : Fin w.length), ThresholdRule w (List.ofFn x) u v ↔
      torusDist (x u) (x v) ^ D < w[u.1] * w[v.1] / w.sum := by
    intro x u v
    unfold ThresholdRule
    constructor
    · rintro ⟨a, b, p, q, h1, h2, h3, h4, h5⟩
      rw [List.getElem?_eq_getElem u.2] at h1
      rw [List.getElem?_eq_getElem v.2] at h2
      rw [List.getElem?_eq_getElem (by simp)] at h3 h4
      simp only [List.getElem_ofFn, Option.some.injEq] at h1 h2 h3 h4
      subst h1 h2 h3 h4
      exact h5
    · intro h
      refine ⟨w[u.1], w[v.1], x u, x v, List.getElem?_eq_getElem u.2, List.getElem?_eq_getElem v.2, ?_, ?_, h⟩ <;>
        (rw [List.getElem?_eq_getElem (by simp)]; simp)
  have hRs : ∀ (x : Fin w.length → Fin D → ℝ) u v, ThresholdRule w (List.ofFn x) u v → ThresholdRule w (List.ofFn x) v u := by
    rintro x u v ⟨a, b, p, q, h1, h2, h3, h4, h5⟩
    exact ⟨b, a, q, p, h2, h1, h4, h3, by rw [torusDist_comm, mul_comm b a]; exact h5⟩
  obtain ⟨M, hM⟩ : ∃ M : ℝ, M = ∑ e ∈ PairIndep.pairs w.length, min 1 (2 ^ D * (w[e.1.1] * w[e.2.1] / w.sum)) := ⟨_, rfl⟩
  have hdeg : thresholdGirgDegree D w = 2 * M / w.length := by
    rw [thresholdDegree_eq s0.D1 s0.wpos, ← listPairs_fin, hM,
      two_pairs (f := fun u v : Fin w.length => probThreshold (2 ^ D * (w[u] * w[v] / w.sum))) (fun u v => by rw [mul_comm w[u]])]
    congr 1
  refine (pairs_upper hX hlaw (f := fun e q p => if torusDist q p ^ D < w[e.1.1] * w[e.2.1] / w.sum then 1 else 0)
    (k := fun e => min 1 (2 ^ D * (w[e.1.1] * w[e.2.1] / w.sum))) ?_ ?_ ?_ ?_ hM (t := w.length * ε / 2) (by positivity) (b := 0) le_rfl
    (fun ω => edgesProb_le_one hr) ?_).trans (ENNReal.ofReal_le_ofReal (le_of_eq ?_))
  · intro e
    exact Measurable.ite (measurableSet_lt (torusDist_measurable.pow_const D) measurable_const) measurable_const measurable_const
  · intro e p q
    rw [torusDist_comm]
  · intro e p q
    beta_reduce
    split_ifs <;> norm_num
  · intro e q hq
    have := threshold_expect s0.D1 hq (hpos' e.1 e.2)
    refine Eq.trans ?_ this
    refine integral_congr_ae (Filter.Eventually.of_forall fun p => ?_)
    simp only [Set.indicator_apply, Set.mem_setOf_eq, torusDist_comm q p]
  · intro ω hω
    have : {g | ∃ out notice, GenerateEdges env rng (gensOf env.threads_pos g) (xw w) (pos ω) .pinf out notice ∧
        ε ≤ |2 * (edgesIn (fun _ _ => True) out : ℝ) / w.length - thresholdGirgDegree D w|} = ∅ := by
      ext g
      simp only [Set.mem_setOf_eq, Set.mem_empty_iff_false, iff_false]
      rintro ⟨out, notice, h, hq⟩
      rw [(hXp ω).1] at h
      rw [graph_edges (hRs (X ω)) (C18_threshold_exact (sup ω) env rng hr.bounded _ out notice h).1, hdeg] at hq
      simp only [hf] at hq
      generalize (∑ e ∈ PairIndep.pairs w.length, if torusDist (X ω e.1) (X ω e.2) ^ D < w[e.1.1] * w[e.2.1] / w.sum then (1 : ℝ) else 0) = S at hω hq
      rw [show 2 * S / w.length - 2 * M / w.length = 2 / w.length * (S - M) by ring, abs_mul, abs_of_pos (by positivity)] at hq
      have h1 : 2 / (w.length : ℝ) * |S - M| < 2 / (w.length : ℝ) * (w.length * ε / 2) := mul_lt_mul_of_pos_left hω (by positivity)
      have h2 : 2 / (w.length : ℝ) * (w.length * ε / 2) = ε := by field_simp
      linarith
    unfold edgesProb
    rw [this, measure_empty]
    exact bot_le
  · rw [hdeg]
    field_simp
    ring

set_option maxHeartbeats 1000000 in
/-- C105, finite `alpha = a > 1`, same setting.  The average degree of the result exceeds its documented expectation by `ε` or more with probability at most
`(24 * expectation + 16 ε) / (n ε²)`, and is below `(1 - a/(a-1) * 10^(-6(1-1/a))) * expectation` by `ε` or more with probability at most
`24 * expectation / (n ε²)`. -/
theorem C105_alpha (he : IdealEngine eng μ)
    (hs : (0 ≤ seed ∧ seed + nodeThreads omp n parallel ≤ 2147483648 ∧ IndependentStates P μ σ) ∨ (seed < 0 ∧ IndependentStates P μ device))
    (hpos : ∀ ω, GeneratePositions omp (withSeeds eng fun s => σ s ω) (fun k => device k ω) n D seed parallel (pos ω))
    (hr : IdealRng rng ν) (env : Env) (hw : SupportedWeights D w) (hn : w.length = n) {a : ℝ} (ha : 1 < a) {ε : ℝ} (hε : 0 < ε) :
    upperMean P (fun ω => edgesProb env rng ν (xw w) (pos ω) (fin a) (fun _ _ => True) fun k => girgDegree D a w + ε ≤ 2 * (k : ℝ) / n) ≤
      ENNReal.ofReal ((24 * girgDegree D a w + 16 * ε) / (n * ε ^ 2)) ∧
    upperMean P (fun ω => edgesProb env rng ν (xw w) (pos ω) (fin a) (fun _ _ => True) fun k =>
        2 * (k : ℝ) / n ≤ (1 - a / (a - 1) * (1 / 1000000 : ℝ) ^ (1 - 1 / a)) * girgDegree D a w - ε) ≤
      ENNReal.ofReal (24 * girgDegree D a w / (n * ε ^ 2)) := by
  classical
  subst hn
  have ha0 : 0 < a := by linarith
  obtain ⟨X, hX, hlaw, hXp⟩ := positions_random he hs hpos
  have sup : ∀ ω, SupportedInput D w (List.ofFn (X ω)) := fun ω => hw _ (by simp) (by
    intro p hp
    obtain ⟨i, rfl⟩ := List.mem_ofFn.1 hp
    exact (hXp ω).2 i)
  have s0 : SupportedInput D w (List.replicate w.length fun _ => 0) := hw _ (by simp) (by
    intro p hp d
    rw [List.eq_of_mem_replicate hp]; norm_num)
  have hpos' : ∀ u v : Fin w.length, 0 < w[u.1] * w[v.1] / w.sum := fun u v =>
    div_pos (mul_pos (s0.wpos _ (List.getElem_mem _)) (s0.wpos _ (List.getElem_mem _)))
      (List.sum_pos w s0.wpos (by rintro rfl; exact absurd u.2 (by simp)))
  obtain ⟨N, hN⟩ : ∃ N : ℝ, N = w.length := ⟨_, rfl⟩
  have hn0 : 0 < N := by rw [hN]; exact_mod_cast s0.pos
  obtain ⟨δ, hδ⟩ : ∃ δ : ℝ, δ = 1 / 1000000 := ⟨_, rfl⟩
  have hδ0 : 0 < δ := by rw [hδ]; norm_num
  have hδ1 : δ ≤ 1 := by rw [hδ]; norm_num
  have hmem := fun (u v : Fin w.length) (p q : Fin D → ℝ) => connProb_mem (D := D) a _ _ (hpos' u v) (torusDist_nonneg p q)
  have hkk : 0 < δ ^ (-(1 / a)) := Real.rpow_pos_of_pos hδ0 _
  set f : Fin w.length × Fin w.length → (Fin D → ℝ) → (Fin D → ℝ) → ℝ := fun e q p => connProb D a (w[e.1.1] * w[e.2.1] / w.sum) (torusDist q p) with hfd
  have hf0 : ∀ e p q, 0 ≤ f e p q ∧ f e p q ≤ 1 := fun e p q => hmem e.1 e.2 p q
  have hfm : ∀ e, Measurable fun z : (Fin D → ℝ) × (Fin D → ℝ) => f e z.1 z.2 := fun e => (connProb_measurable D a _).comp torusDist_measurable
  have hfs : ∀ e p q, f e p q = f e q p := fun e p q => by simp only [hfd]; rw [torusDist_comm]
  set k : Fin w.length × Fin w.length → ℝ := fun e => meanConnection a (2 ^ D * (w[e.1.1] * w[e.2.1] / w.sum)) with hk
  have hfk : ∀ e, ∀ q : Fin D → ℝ, (∀ d, q d ∈ Set.Ico (0 : ℝ) 1) → ∫ p, f e q p ∂unitCube D = k e := by
    intro e q hq
    have := mean_expect s0.D1 hq ha0 (hpos' e.1 e.2)
    refine Eq.trans ?_ this
    simp only [hfd, torusDist_comm q]
  set loss : Fin w.length × Fin w.length → ℝ := fun e => δ * meanConnection a (2 ^ D * (w[e.1.1] * w[e.2.1] / w.sum * δ ^ (-(1 / a)))) with hloss
  have hjk : ∀ e, ∀ q : Fin D → ℝ, (∀ d, q d ∈ Set.Ico (0 : ℝ) 1) → ∫ p, min (f e q p) δ ∂unitCube D = loss e := by
    intro e q hq
    have := mean_expect s0.D1 hq ha0 (mul_pos (hpos' e.1 e.2) hkk)
    simp only [hfd, torusDist_comm q, min_connProb ha0 (hpos' e.1 e.2) (torusDist_nonneg _ q) hδ0 hδ1]
    rw [integral_const_mul, this]
  set g : Fin w.length × Fin w.length → (Fin D → ℝ) → (Fin D → ℝ) → ℝ := fun e q p => f e q p - min (f e q p) δ with hgd
  have hg0 : ∀ e p q, 0 ≤ g e p q ∧ g e p q ≤ 1 := by
    intro e p q
    obtain ⟨h1, h2⟩ := hf0 e p q
    have := le_min h1 hδ0.le
    have h3 := min_le_left (f e p q) δ
    simp only [hgd]
    constructor <;> linarith
  have hint : ∀ (h : (Fin D → ℝ) → ℝ), Measurable h → (∀ p, 0 ≤ h p ∧ h p ≤ 1) → Integrable h (unitCube D) := by
    intro h hm hb
    refine Integrable.of_bound hm.aestronglyMeasurable 1 (Filter.Eventually.of_forall fun p => ?_)
    rw [Real.norm_eq_abs, abs_of_nonneg (hb p).1]
    exact (hb p).2
  have hslice : ∀ e (q : Fin D → ℝ), Measurable fun p => f e q p := by
    intro e q
    have h1 : Measurable fun p : Fin D → ℝ => (q, p) := by fun_prop
    exact (hfm e).comp h1
  have hgk : ∀ e, ∀ q : Fin D → ℝ, (∀ d, q d ∈ Set.Ico (0 : ℝ) 1) → ∫ p, g e q p ∂unitCube D = k e - loss e := by
    intro e q hq
    simp only [hgd]
    rw [integral_sub (hint _ (hslice e q) fun p => hf0 e q p) (hint _ ((hslice e q).min measurable_const) fun p =>
      ⟨le_min (hf0 e q p).1 hδ0.le, (min_le_right _ _).trans hδ1⟩), hfk e q hq, hjk e q hq]
  obtain ⟨M, hM⟩ : ∃ M : ℝ, M = ∑ e ∈ PairIndep.pairs w.length, k e := ⟨_, rfl⟩
  obtain ⟨G, hG⟩ : ∃ G : ℝ, G = ∑ e ∈ PairIndep.pairs w.length, (k e - loss e) := ⟨_, rfl⟩
  have hdeg : girgDegree D a w = 2 * M / N := by
    rw [girgDegree_eq s0.D1 s0.wpos ha0 ha.ne', ← listPairs_fin, hM, hN,
      two_pairs (f := fun u v : Fin w.length => probAlpha a (2 ^ D * (w[u] * w[v] / w.sum))) (fun u v => by rw [mul_comm w[u]])]
    congr 2
    refine Finset.sum_congr rfl fun e _ => ?_
    simp only [hk]
    rw [meanConnection_eq ha.ne']
    rfl
  have hk0 : ∀ e, 0 ≤ k e := fun e => (meanConnection_mem ha0 (mul_pos (by positivity) (hpos' e.1 e.2))).1
  have hM0 : 0 ≤ M := hM ▸ Finset.sum_nonneg fun e _ => hk0 e
  have hl0 : ∀ e, 0 ≤ loss e := fun e =>
    mul_nonneg hδ0.le (meanConnection_mem ha0 (mul_pos (by positivity) (mul_pos (hpos' e.1 e.2) hkk))).1
  have hlk : ∀ e, loss e ≤ a / (a - 1) * δ ^ (1 - 1 / a) * k e := by
    intro e
    simp only [hloss, hk]
    rw [meanConnection_eq ha.ne', meanConnection_eq ha.ne']
    exact small_part ha (hpos' e.1 e.2) hδ0 hδ1
  have hGM : G ≤ M := by
    rw [hG, hM]
    exact Finset.sum_le_sum fun e _ => by linarith [hl0 e]
  have hMG : (1 - a / (a - 1) * δ ^ (1 - 1 / a)) * M ≤ G := by
    rw [hG, hM, Finset.mul_sum]
    exact Finset.sum_le_sum fun e _ => by linarith [hlk e]
  have hpr : ∀ ω, ∃ mean : ℝ, 0 ≤ mean ∧ ∑ e ∈ PairIndep.pairs w.length, g e (X ω e.1) (X ω e.2) ≤ mean ∧ mean ≤ ∑ e ∈ PairIndep.pairs w.length, f e (X ω e.1) (X ω e.2) ∧
      ∀ t : ℝ, 0 ≤ t → edgesProb env rng ν (xw w) (pos ω) (fin a) (fun _ _ => True) (fun k => mean + t ≤ k) ≤ ENNReal.ofReal (Real.exp (-(t ^ 2 / (2 * (mean + t / 3))))) ∧
        edgesProb env rng ν (xw w) (pos ω) (fin a) (fun _ _ => True) (fun k => (k : ℝ) ≤ mean - t) ≤ ENNReal.ofReal (Real.exp (-(t ^ 2 / (2 * mean)))) := by
    intro ω
    obtain ⟨pr, _, h2, h3⟩ := C97_positions (sup ω) ha0
    have hb : ∀ e ∈ PairIndep.pairs w.length, g e (X ω e.1) (X ω e.2) ≤ pr e.1 e.2 ∧ pr e.1 e.2 ≤ f e (X ω e.1) (X ω e.2) := by
      intro e he
      have hlt : e.1.1 < e.2.1 := mem_pairs.1 he
      have hgp : girgProb w (List.ofFn (X ω)) a e.1 e.2 = f e (X ω e.1) (X ω e.2) := girgProb_ofFn rfl _ _ _ _
      obtain ⟨h5, _⟩ := hf0 e (X ω e.1) (X ω e.2)
      have h6 := le_min h5 hδ0.le
      rcases h2 e.1 e.2 e.1.2 e.2.2 hlt.ne with h4 | h4
      · rw [h4, hgp]; simp only [hgd]; exact ⟨by linarith, le_rfl⟩
      · rw [hgp] at h4
        rw [h4.1]
        simp only [hgd]
        rw [min_eq_left (by rw [hδ]; exact h4.2.le)]
        exact ⟨by simp, h5⟩
    refine ⟨Spec.pairSum w.length (fun _ _ => True) pr, ?_, ?_, ?_, fun t ht => ?_⟩
    · rw [pairSum_true]
      exact Finset.sum_nonneg fun e he => (hg0 e _ _).1.trans (hb e he).1
    · rw [pairSum_true]
      exact Finset.sum_le_sum fun e he => (hb e he).1
    · rw [pairSum_true]
      exact Finset.sum_le_sum fun e he => (hb e he).2
    · rw [(hXp ω).1]
      exact h3 env rng ν hr _ (fun _ _ h => h) _ t rfl ht
  obtain ⟨s, hsd⟩ : ∃ s : ℝ, s = N * ε / 4 := ⟨_, rfl⟩
  have hs0 : 0 < s := by rw [hsd]; positivity
  have exp_le : ∀ {y z : ℝ}, 0 < z → 1 / z ≤ y → Real.exp (-y) ≤ z := by
    intro y z hz hy
    have h1 := Real.add_one_le_exp y
    have h2 : 1 / z ≤ Real.exp y := by linarith
    rw [Real.exp_neg, ← one_div, div_le_iff₀ (Real.exp_pos _)]
    rwa [div_le_iff₀' hz] at h2
  rw [← hN, hdeg, ← hδ]
  constructor
  · refine (pairs_upper hX hlaw hfm hfs hf0 hfk hM hs0 (b := 2 * (M + 2 * s) / s ^ 2) (by positivity) (fun ω => edgesProb_le_one hr) fun ω hω => ?_).trans
      (ENNReal.ofReal_le_ofReal (le_of_eq ?_))
    · obtain ⟨m, h0, _, h1, h2⟩ := hpr ω
      have h3 := (abs_lt.1 hω).2
      refine (edgesProb_mono fun j hj => ?_).trans ((h2 s hs0.le).1.trans (ENNReal.ofReal_le_ofReal (exp_le (by positivity) ?_)))
      · have h4 : 2 * M / N + ε = 2 / N * (M + 2 * s) := by rw [hsd]; field_simp; ring
        have h5 : 2 * (j : ℝ) / N = 2 / N * j := by ring
        rw [h4, h5] at hj
        have := le_of_mul_le_mul_left hj (by positivity)
        linarith
      · rw [one_div_div]
        exact div_le_div_of_nonneg_left (by positivity) (by positivity) (by linarith)
    · rw [hsd]
      field_simp
      ring
  · have hGG : 0 ≤ G := hG ▸ Finset.sum_nonneg fun e _ => by
      rw [← hgk e (fun _ => 0) (by intro d; norm_num)]
      exact integral_nonneg fun p => (hg0 e _ p).1
    refine (pairs_upper hX hlaw (f := g) (fun e => (hfm e).sub ((hfm e).min measurable_const)) (fun e p q => by simp only [hgd, hfs e p q]) hg0 hgk hG hs0
      (b := 2 * M / s ^ 2) (by positivity) (fun ω => edgesProb_le_one hr) fun ω hω => ?_).trans
      (ENNReal.ofReal_le_ofReal ((add_le_add (div_le_div_of_nonneg_right hGM (by positivity)) le_rfl).trans (le_of_eq ?_)))
    · obtain ⟨m, h0, h1, _, h2⟩ := hpr ω
      have h3 := (abs_lt.1 hω).1
      have hc1 : (1 - a / (a - 1) * δ ^ (1 - 1 / a)) * (2 * M / N) - ε ≤ 2 / N * (G - 2 * s) := by
        have h4 : 2 / N * (G - 2 * s) = 2 / N * G - ε := by rw [hsd]; field_simp; ring
        have h5 : (1 - a / (a - 1) * δ ^ (1 - 1 / a)) * (2 * M / N) = 2 / N * ((1 - a / (a - 1) * δ ^ (1 - 1 / a)) * M) := by ring
        rw [h4, h5]
        have := mul_le_mul_of_nonneg_left hMG (show 0 ≤ 2 / N by positivity)
        linarith
      have hc : ∀ j : ℕ, 2 * (j : ℝ) / N ≤ (1 - a / (a - 1) * δ ^ (1 - 1 / a)) * (2 * M / N) - ε → (j : ℝ) ≤ G - 2 * s := by
        intro j hj
        have h5 : 2 * (j : ℝ) / N = 2 / N * j := by ring
        rw [h5] at hj
        exact le_of_mul_le_mul_left (hj.trans hc1) (by positivity)
      rcases lt_or_ge (G - 2 * s) 0 with hneg | hnn
      · have : {g | ∃ out notice, GenerateEdges env rng (gensOf env.threads_pos g) (xw w) (pos ω) (fin a) out notice ∧
            2 * (edgesIn (fun _ _ => True) out : ℝ) / N ≤ (1 - a / (a - 1) * δ ^ (1 - 1 / a)) * (2 * M / N) - ε} = ∅ := by
          ext y
          simp only [Set.mem_setOf_eq, Set.mem_empty_iff_false, iff_false]
          rintro ⟨out, notice, _, hq⟩
          have h6 := hc _ hq
          have h7 : (0 : ℝ) ≤ (edgesIn (fun _ _ => True) out : ℕ) := Nat.cast_nonneg _
          linarith
        unfold edgesProb
        rw [this, measure_empty]
        exact bot_le
      · obtain ⟨d, hd⟩ : ∃ d : ℝ, d = m - (G - 2 * s) := ⟨_, rfl⟩
        have hds : s ≤ d := by rw [hd]; linarith
        have hm0 : 0 < m := by linarith
        have hMp : 0 < M := by linarith
        refine (edgesProb_mono fun j hj => ?_).trans ((h2 d (by linarith)).2.trans (ENNReal.ofReal_le_ofReal (exp_le (by positivity) ?_)))
        · have := hc j hj
          rw [hd]; linarith
        · rw [one_div_div, div_le_div_iff₀ (by positivity) (by positivity)]
          have e1 : m = (G - 2 * s) + d := by rw [hd]; ring
          rw [e1]
          obtain ⟨c, hcd⟩ : ∃ c : ℝ, c = G - 2 * s := ⟨_, rfl⟩
          rw [← hcd] at hnn ⊢
          have h8 : c + s ≤ M := by rw [hcd]; linarith
          have h9 : s ^ 2 * (c + d) ≤ d ^ 2 * (c + s) := by
            have : d ^ 2 * (c + s) - s ^ 2 * (c + d) = c * ((d - s) * (d + s)) + d * s * (d - s) := by ring
            have h10 : 0 ≤ c * ((d - s) * (d + s)) + d * s * (d - s) :=
              add_nonneg (mul_nonneg hnn (mul_nonneg (by linarith) (by linarith))) (mul_nonneg (mul_nonneg (by linarith) hs0.le) (by linarith))
            linarith
          have h11 := mul_le_mul_of_nonneg_left h8 (sq_nonneg d)
          linarith
    · rw [hsd]
      field_simp
      ring

/-- C105.  The whole pipeline, as in C93: weights `w` from 1 to `n/2` are scaled by `scaleWeights` for a desired average degree from 1 to `n-1`, `n` positions are
drawn by `generatePositions`, and `generateEdges` is run; the sum of the weights is not too large.  For `alpha = infinity` the average degree of the result is
between `desired - 0.02 - ε` and `desired + 0.02 + 1/n + ε`, except with probability at most `2 (desired + 1) / (n ε²)`.  For finite `alpha = a > 1` it is at least
`(1 - a/(a-1) * 10^(-6(1-1/a))) (desired - 0.02) - ε` and at most `desired + 0.02 + 1/n + ε` (with `desired + 0.02 + 1/n` multiplied by `a/(a-1)` for `a > 8`), except with
probabilities at most `24 c (desired + 1) / (n ε²)` and `(24 c (desired + 1) + 16 ε) / (n ε²)`, where `c` is 1, or `a/(a-1)` for `a > 8`. -/
theorem C105_requested (he : IdealEngine eng μ)
    (hs : (0 ≤ seed ∧ seed + nodeThreads omp n parallel ≤ 2147483648 ∧ IndependentStates P μ σ) ∨ (seed < 0 ∧ IndependentStates P μ device))
    (hpos : ∀ ω, GeneratePositions omp (withSeeds eng fun s => σ s ω) (fun k => device k ω) n D seed parallel (pos ω))
    (hr : IdealRng rng ν) (env : Env) (hn : w.length = n) (h2 : 2 ≤ n) (h31 : n < 2147483648) (hD1 : 1 ≤ D) (hD5 : D ≤ 5)
    (hw : ∀ y ∈ w, 1 ≤ y ∧ y ≤ n / 2) {part : List (List ℕ)} (hp : part.flatten.Perm (List.range n)) {alg : StdAlg XR} {ndebug : Bool} {alpha : XR}
    (ha : alpha = .pinf ∨ ∃ a : ℝ, alpha = fin a ∧ 1 < a) {desired : ℝ} (hd1 : 1 ≤ desired) (hdn : desired ≤ n - 1) {s : XR} {ws : List XR}
    (h : ScaleWeights alg ndebug part (xw w) (fin desired) D alpha (.returned s ws))
    (hsize : alphaFactor alpha * 2 ^ D * w.sum ^ 2 < 2 ^ 29 * (desired - 2 / 100) * n) {ε : ℝ} (hε : 0 < ε) :
    (alpha = .pinf →
      upperMean P (fun ω => edgesProb env rng ν ws (pos ω) alpha (fun _ _ => True) fun k =>
        ¬ (desired - 2 / 100 - ε < 2 * (k : ℝ) / n ∧ 2 * (k : ℝ) / n < desired + 2 / 100 + 1 / n + ε)) ≤ ENNReal.ofReal (2 * (desired + 1) / (n * ε ^ 2))) ∧
    ∀ a c : ℝ, alpha = fin a → c = (if a ≤ 8 then 1 else a / (a - 1)) →
      upperMean P (fun ω => edgesProb env rng ν ws (pos ω) alpha (fun _ _ => True) fun k =>
        2 * (k : ℝ) / n ≤ (1 - a / (a - 1) * (1 / 1000000 : ℝ) ^ (1 - 1 / a)) * (desired - 2 / 100) - ε) ≤ ENNReal.ofReal (24 * c * (desired + 1) / (n * ε ^ 2)) ∧
      upperMean P (fun ω => edgesProb env rng ν ws (pos ω) alpha (fun _ _ => True) fun k =>
        c * (desired + 2 / 100 + 1 / n) + ε ≤ 2 * (k : ℝ) / n) ≤ ENNReal.ofReal ((24 * c * (desired + 1) + 16 * ε) / (n * ε ^ 2)) := by
  subst hn
  have hne : w ≠ [] := by rintro rfl; simp at h2
  obtain ⟨k, hk, rfl, rfl, q1, q2, q3⟩ := C59_degree (girg_normal h31 hw) hne (by omega) hp hD1 (by omega) h
  have hsup := scaled_supported hw h2 h31 hD1 hD5 hp ha hdn hk h hsize
  have hl : (w.map (· * k)).length = w.length := List.length_map _
  have hn2 : (2 : ℝ) ≤ w.length := by exact_mod_cast h2
  have hn0 : (0 : ℝ) < w.length := by linarith
  have hinv : 1 / (w.length : ℝ) ≤ 1 / 2 := one_div_le_one_div_of_le (by norm_num) hn2
  constructor
  · rintro rfl
    have e := C105_threshold he hs hpos hr env hsup hl hε
    obtain ⟨b1, b2⟩ := q1 rfl
    refine (upperMean_mono fun ω => edgesProb_mono fun j hj => ?_).trans (e.trans (ENNReal.ofReal_le_ofReal ?_))
    · by_contra hc
      have hc' := abs_lt.1 (not_le.1 hc)
      exact hj ⟨by linarith [hc'.1], by linarith [hc'.2]⟩
    · exact div_le_div_of_nonneg_right (by linarith) (by positivity)
  · rintro a c rfl hc
    obtain ⟨a', ha', ha1⟩ : ∃ a' : ℝ, fin a = fin a' ∧ 1 < a' := by
      rcases ha with h | h
      · cases h
      · exact h
    cases ha'
    obtain ⟨e1, e2⟩ := C105_alpha he hs hpos hr env hsup hl ha1 hε
    obtain ⟨b1, b2⟩ : desired - 2 / 100 ≤ girgDegree D a (w.map (· * k)) ∧
        girgDegree D a (w.map (· * k)) < c * (desired + 2 / 100 + 1 / w.length) := by
      rcases le_or_gt a 8 with h8 | h8
      · rw [hc, if_pos h8, one_mul]; exact q2 a rfl h8
      · rw [hc, if_neg (not_le.2 h8)]; exact q3 a rfl h8
    have hc0 : 0 ≤ c := by
      rw [hc]
      split_ifs
      · norm_num
      · exact div_nonneg (by linarith) (by linarith)
    have hcd : girgDegree D a (w.map (· * k)) ≤ c * (desired + 1) :=
      b2.le.trans (mul_le_mul_of_nonneg_left (by linarith) hc0)
    constructor
    · refine (upperMean_mono fun ω => edgesProb_mono fun j hj => ?_).trans (e2.trans (ENNReal.ofReal_le_ofReal ?_))
      · rcases le_or_gt 0 (1 - a / (a - 1) * (1 / 1000000 : ℝ) ^ (1 - 1 / a)) with h0 | h0
        · exact hj.trans (sub_le_sub_right (mul_le_mul_of_nonneg_left b1 h0) ε)
        · exfalso
          have h3 : (1 - a / (a - 1) * (1 / 1000000 : ℝ) ^ (1 - 1 / a)) * (desired - 2 / 100) ≤ 0 := mul_nonpos_of_nonpos_of_nonneg h0.le (by linarith)
          have h4 : (0 : ℝ) ≤ 2 * (j : ℝ) / w.length := by positivity
          linarith
      · refine div_le_div_of_nonneg_right ?_ (by positivity)
        linarith
    · refine (upperMean_mono fun ω => edgesProb_mono fun j hj => ?_).trans (e1.trans (ENNReal.ofReal_le_ofReal ?_))
      · exact le_trans (add_le_add_left b2.le ε) hj
      · refine div_le_div_of_nonneg_right ?_ (by positivity)
        linarith

end Positions

/-- C105 at work: 10^6 nodes of weight 1, dimension 2, `alpha = infinity`, desired average degree 10, ideal engines.  The result has an average degree between 9.9
and 10.1, except with probability at most `1/200`. -/
example (n : ℕ) (hn : n = 1000000) : ∃ (P : Measure (ℤ → ℕ → ℝ)) (ν : Measure idealRng.G) (pos : (ℤ → ℕ → ℝ) → List (List XR)) (s : XR) (ws : List XR),
    IsProbabilityMeasure P ∧
    (∀ ω, GeneratePositions exampleOmp (withSeeds streamEngine fun s => ω s) (fun _ => (fun _ => 0)) n 2 130 true (pos ω)) ∧
    ScaleWeights (mergeAlg XR) true [List.range n] (xw (List.replicate n 1)) (fin 10) 2 .pinf (.returned s ws) ∧
    upperMean P (fun ω => edgesProb (exampleEnv true) idealRng ν ws (pos ω) .pinf (fun _ _ => True) fun k =>
      ¬ (9.9 < 2 * (k : ℝ) / n ∧ 2 * (k : ℝ) / n < 10.1)) ≤ ENNReal.ofReal (1 / 200) := by
  have hnR : (n : ℝ) = 1000000 := by rw [hn]; norm_num
  have hlen : (List.replicate n (1 : ℝ)).length = n := List.length_replicate
  have hsum : (List.replicate n (1 : ℝ)).sum = 1000000 := by rw [List.sum_replicate, nsmul_eq_mul, hnR]; norm_num
  have h1 : ∀ y ∈ List.replicate n (1 : ℝ), y = 1 := fun y hy => List.eq_of_mem_replicate hy
  have hN : NormalWeights (List.replicate n 1) := normal_of_range (by intro y hy; rw [h1 y hy]; norm_num)
  have hperm : ([List.range n] : List (List ℕ)).flatten.Perm (List.range n) := by simp
  obtain ⟨s, ws, hsw⟩ := (C59_returns_iff (w := List.replicate n 1) (d := 2) hN (by rw [hlen]; omega) (by rw [hlen]; omega)
    (by rw [hlen]; exact hperm) (mergeAlg XR) (by norm_num) (by norm_num) (Or.inl rfl) 10).1.2 (by rw [hlen, hnR]; norm_num)
  have hthreads : nodeThreads exampleOmp n true ≤ 2147483518 := by rw [hn]; decide
  have hseed : (0 ≤ (130 : ℤ) ∧ (130 : ℤ) + nodeThreads exampleOmp n true ≤ 2147483648 ∧
      IndependentStates (Measure.infinitePi fun _ : ℤ => seqMeasure) seqMeasure fun (s : ℤ) (ω : ℤ → ℕ → ℝ) => ω s) := ⟨by norm_num, by omega, streamStates⟩
  obtain ⟨X, hX, _⟩ := C92_positions (D := 2) (omp := exampleOmp) (device := fun _ _ => (fun _ => 0 : ℕ → ℝ)) (n := n) (parallel := true)
    streamEngine_ideal (Or.inl hseed)
  have hpos := fun ω => (hX ω _).2 rfl
  have hb := (C105_requested (w := List.replicate n 1) streamEngine_ideal (Or.inl hseed) hpos idealRng_ideal (exampleEnv true) hlen
    (by omega) (by omega) (by norm_num) (by norm_num) (by intro y hy; rw [h1 y hy, hnR]; norm_num) hperm
    (Or.inl rfl) (by norm_num) (by rw [hnR]; norm_num) hsw (by rw [hsum, hnR]; norm_num [alphaFactor]) (ε := 0.0799) (by norm_num)).1 rfl
  refine ⟨Measure.infinitePi fun _ : ℤ => seqMeasure, seqMeasure, _, s, ws, inferInstance, hpos, hsw, ?_⟩
  refine (upperMean_mono fun ω => edgesProb_mono fun j hj hc => hj ⟨?_, ?_⟩).trans (hb.trans (ENNReal.ofReal_le_ofReal ?_))
  · rw [hnR]; norm_num
  · refine lt_of_le_of_lt ?_ hc.1
    norm_num
  · refine hc.2.trans_le ?_
    rw [hnR]; norm_num

end Girgs.Props
