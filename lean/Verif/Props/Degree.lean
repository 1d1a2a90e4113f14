import Verif.Proofs.DegreeLaw
import Verif.Props.SampleLawHyper
import Verif.Props.Random
import Verif.Props.Exact
import Verif.Props.ScalingDegree
import Verif.Props.ToolGirg
import Verif.Props.InclusionRange
/-
C93: the generated graph has the requested expected average degree.
-/
namespace Girgs.Props
open CFloat Spec MeasureTheory Tree Scaling
open XR (fin)
open scoped ENNReal

/-! ### fixed positions -/

/-- C93, for fixed weights and positions and finite `alpha = a > 0`: there are probabilities `pr u v`, equal to the documented connection probabilities except
for pairs for which these are below `10^-6`, such that for all environments and ideal random numbers the expected number of edges of the result is the
sum of the `pr u v`. -/
theorem C93_positions {D : ℕ} {w : List ℝ} {x : List (Fin D → ℝ)} (s : SupportedInput D w x) {a : ℝ} (ha : 0 < a) :
    ∃ pr : ℕ → ℕ → ℝ, (∀ u v, pr u v = pr v u) ∧
      (∀ u v, u < w.length → v < w.length → u ≠ v → pr u v = girgProb w x a u v ∨ (pr u v = 0 ∧ girgProb w x a u v < 1 / 1000000)) ∧
      ∀ (env : Env) (rng : Rng XR) [MeasurableSpace rng.G] (μ : Measure rng.G), IdealRng rng μ →
        2 * expectedEdges env rng μ (xw w) (xl x) (fin a) = ENNReal.ofReal (∑ u : Fin w.length, ∑ v : Fin w.length, if u = v then 0 else pr u v) := by
  obtain ⟨T, hT⟩ := constructedX_exists true (fin a) s 1 le_rfl (by norm_num)
  obtain ⟨m, b⟩ := hT.builtX s
  refine ⟨edgePr T, fun u v => edgePr_comm u v, fun u v hu hv huv => b.edgePr_spec s ha hu hv huv, ?_⟩
  intro env rng _ μ hid
  have hT' := hT.setDebug env.ndebug
  obtain ⟨m', b'⟩ := hT'.builtX s
  have hth : T.isThreshold = false := by unfold Tree.isThreshold; rw [b.alpha_eq]; rfl
  rw [edges_law hid b' hT' s ha, sum_upairs (f := edgePr T) fun u v => edgePr_comm u v, ENNReal.ofReal_mul (by norm_num)]
  simp only [edgePr_ndebug hth, ENNReal.ofReal_ofNat]

open Classical in
theorem pairCount_sum (n : ℕ) (P : ℕ → ℕ → Prop) : (pairCount n P : ℝ) = ∑ e ∈ upairs n, if P e.1 e.2 then 1 else 0 := by
  rw [Finset.sum_ite, Finset.sum_const_zero, add_zero, Finset.sum_const, nsmul_eq_mul, mul_one]
  unfold pairCount
  congr 1
  rw [← Set.ncard_coe_finset]
  congr 1
  ext e
  simp only [Set.mem_setOf_eq, Finset.coe_filter, mem_upairs, and_assoc]

/-- C93, for fixed weights and positions and `alpha = infinity`: the expected number of edges is the number of pairs that satisfy the threshold rule. -/
theorem C93_positions_threshold {D : ℕ} {w : List ℝ} {x : List (Fin D → ℝ)} (s : SupportedInput D w x) (env : Env) {rng : Rng XR} [MeasurableSpace rng.G]
    {μ : Measure rng.G} (hid : IdealRng rng μ) :
    2 * expectedEdges env rng μ (xw w) (xl x) .pinf =
      ENNReal.ofReal (∑ u : Fin w.length, ∑ v : Fin w.length, if u = v then 0 else thresholdProb w x u v) := by
  have hprob := hid.prob
  have hsymm : ∀ u v, thresholdProb w x u v = thresholdProb w x v u := by
    intro u v
    unfold thresholdProb
    by_cases h : ThresholdRule w x u v
    · rw [if_pos h, if_pos (ThresholdRule.symm h)]
    · rw [if_neg h, if_neg fun h' => h (ThresholdRule.symm h')]
  have e : expectedEdges env rng μ (xw w) (xl x) .pinf = (pairCount w.length (ThresholdRule w x) : ℝ≥0∞) := by
    unfold expectedEdges
    have hlen : ∀ g : Fin env.threads → rng.G, ∀ out notice, GenerateEdges env rng (gensOf env.threads_pos g) (xw w) (xl x) .pinf out notice →
        out.length = pairCount w.length (ThresholdRule w x) := fun g out notice h =>
      graph_count (fun _ _ h => ThresholdRule.symm h) (C18_threshold_exact s env rng hid.bounded _ out notice h).1
    rw [tsum_eq_single (pairCount w.length (ThresholdRule w x))]
    · have : {g | ∃ out notice, GenerateEdges env rng (gensOf env.threads_pos g) (xw w) (xl x) .pinf out notice ∧
          out.length = pairCount w.length (ThresholdRule w x)} = Set.univ := by
        ext g
        simp only [Set.mem_setOf_eq, Set.mem_univ, iff_true]
        obtain ⟨⟨out, notice, h⟩, _⟩ := C17_simple_graph s .pinf env rng hid.bounded (gensOf env.threads_pos g)
        exact ⟨out, notice, h, hlen g out notice h⟩
      rw [this, measure_univ, mul_one]
    · intro k hk
      have : {g | ∃ out notice, GenerateEdges env rng (gensOf env.threads_pos g) (xw w) (xl x) .pinf out notice ∧ out.length = k} = ∅ := by
        ext g
        simp only [Set.mem_setOf_eq, Set.mem_empty_iff_false, iff_false]
        rintro ⟨out, notice, h, rfl⟩
        exact hk (hlen g out notice h)
      rw [this, measure_empty, mul_zero]
  rw [e, sum_upairs (f := thresholdProb w x) hsymm, ENNReal.ofReal_mul (by norm_num)]
  unfold thresholdProb
  rw [← pairCount_sum, ENNReal.ofReal_natCast]
  simp

/-! ### random positions -/

section Positions
variable {Ω : Type} [MeasurableSpace Ω] {P : Measure Ω} {omp : Omp} {eng : Engine XR} [MeasurableSpace eng.G] {μ : Measure eng.G}
  {σ : ℤ → Ω → eng.G} {device : ℕ → Ω → eng.G} {n : ℕ} {seed : ℤ} {parallel : Bool} {D : ℕ} {w : List ℝ} {pos : Ω → List (List XR)}
  {rng : Rng XR} [MeasurableSpace rng.G] {ν : Measure rng.G}

theorem positions_random (he : IdealEngine eng μ)
    (hs : (0 ≤ seed ∧ seed + nodeThreads omp n parallel ≤ 2147483648 ∧ IndependentStates P μ σ) ∨ (seed < 0 ∧ IndependentStates P μ device))
    (hpos : ∀ ω, GeneratePositions omp (withSeeds eng fun s => σ s ω) (fun k => device k ω) n D seed parallel (pos ω)) :
    ∃ X : Ω → Fin n → Fin D → ℝ, Measurable X ∧ P.map X = uniformPositions n D ∧ ∀ ω, pos ω = xl (List.ofFn (X ω)) ∧ ∀ i d, 0 ≤ X ω i d ∧ X ω i d < 1 := by
  obtain ⟨X, h1, h2, h3⟩ := C92_positions (D := D) he hs
  refine ⟨X, h2, h3, fun ω => ?_⟩
  have e := (h1 ω _).1 (hpos ω)
  refine ⟨?_, fun i d => ?_⟩
  · rw [e]
    unfold xl
    rw [List.map_ofFn]
    rfl
  · have hr : IntervalEngine (withSeeds eng fun s => σ s ω) := he.range
    obtain ⟨_, hrow⟩ := C27_range hr (hpos ω)
    obtain ⟨_, hx⟩ := hrow (List.ofFn fun d => fin (X ω i d)) (by rw [e]; exact List.mem_ofFn.2 ⟨i, rfl⟩)
    obtain ⟨v, hv, h0⟩ := hx (fin (X ω i d)) (List.mem_ofFn.2 ⟨d, rfl⟩)
    rw [XR.fin.inj hv]
    exact h0

instance uniformPositions_prob (n D : ℕ) : IsProbabilityMeasure (uniformPositions n D) := by
  unfold uniformPositions
  haveI : IsProbabilityMeasure (unitCube D) := by
    unfold unitCube
    haveI : IsProbabilityMeasure (volume.restrict (Set.Ico (0 : ℝ) 1)) := ⟨by simp⟩
    infer_instance
  infer_instance

/-- twice the expected number of edges, divided by the number of nodes: the expected average degree of the result -/
noncomputable abbrev resultDegree (P : Measure Ω) (n : ℕ) (E : Ω → ℝ≥0∞) : ℝ≥0∞ := 2 * (∫⁻ ω, E ω ∂P) / n

theorem degree_of_pairs {E : Ω → ℝ≥0∞} {S : ℝ} (h : ∫⁻ ω, 2 * E ω ∂P ≤ ENNReal.ofReal S) (hn : 0 < n) : resultDegree P n E ≤ ENNReal.ofReal (S / n) := by
  unfold resultDegree
  rw [ENNReal.ofReal_div_of_pos (by exact_mod_cast hn), ENNReal.ofReal_natCast, ← lintegral_const_mul' _ _ (by simp)]
  exact ENNReal.div_le_div_right h _

theorem degree_of_pairs' {E : Ω → ℝ≥0∞} {S : ℝ} (h : ENNReal.ofReal S ≤ ∫⁻ ω, 2 * E ω ∂P) (hn : 0 < n) : ENNReal.ofReal (S / n) ≤ resultDegree P n E := by
  unfold resultDegree
  rw [ENNReal.ofReal_div_of_pos (by exact_mod_cast hn), ENNReal.ofReal_natCast, ← lintegral_const_mul' _ _ (by simp)]
  exact ENNReal.div_le_div_right h _

set_option maxHeartbeats 1000000 in
/-- C93, finite `alpha = a > 0`.  `n` positions are drawn by `generatePositions` (ideal engines, independently started), then `generateEdges` is run on weights `w` (ideal
random numbers, independent of the positions).  The expected average degree of the result is at most that of the documented model, and smaller by at
most `10^-6*(n-1)`; for `a > 1` also by at most the fraction `a/(a-1) * 10^(-6(1-1/a))`. -/
theorem C93_expected (he : IdealEngine eng μ)
    (hs : (0 ≤ seed ∧ seed + nodeThreads omp n parallel ≤ 2147483648 ∧ IndependentStates P μ σ) ∨ (seed < 0 ∧ IndependentStates P μ device))
    (hpos : ∀ ω, GeneratePositions omp (withSeeds eng fun s => σ s ω) (fun k => device k ω) n D seed parallel (pos ω))
    (hr : IdealRng rng ν) (env : Env) (hw : SupportedWeights D w) (hn : w.length = n) {a : ℝ} (ha : 0 < a) :
    resultDegree P n (fun ω => expectedEdges env rng ν (xw w) (pos ω) (fin a)) ≤ ENNReal.ofReal (girgDegree D a w) ∧
    ENNReal.ofReal (girgDegree D a w - (n - 1) / 1000000) ≤ resultDegree P n (fun ω => expectedEdges env rng ν (xw w) (pos ω) (fin a)) ∧
    (1 < a → ENNReal.ofReal ((1 - a / (a - 1) * (1 / 1000000 : ℝ) ^ (1 - 1 / a)) * girgDegree D a w) ≤
      resultDegree P n (fun ω => expectedEdges env rng ν (xw w) (pos ω) (fin a))) := by
  subst hn
  obtain ⟨X, hX, hlaw, hXp⟩ := positions_random he hs hpos
  have sup : ∀ ω, SupportedInput D w (List.ofFn (X ω)) := fun ω => hw _ (by simp) (by
    intro p hp
    obtain ⟨i, rfl⟩ := List.mem_ofFn.1 hp
    exact (hXp ω).2 i)
  have s0 : SupportedInput D w (List.replicate w.length fun _ => 0) := hw _ (by simp) (by
    intro p hp d
    rw [List.eq_of_mem_replicate hp]; norm_num)
  have hn0 := s0.pos
  have hpos' : ∀ u v : Fin w.length, 0 < w[u.1] * w[v.1] / w.sum := fun u v =>
    div_pos (mul_pos (s0.wpos _ (List.getElem_mem _)) (s0.wpos _ (List.getElem_mem _)))
      (List.sum_pos w s0.wpos (by rintro rfl; exact absurd u.2 (by simp)))
  set ε : ℝ := 1 / 1000000 with hε
  -- the two integrands
  set S : (Fin w.length → Fin D → ℝ) → ℝ := fun x => ∑ u : Fin w.length, ∑ v : Fin w.length, if u = v then 0 else girgProb w (List.ofFn x) a u v with hS
  set L : (Fin w.length → Fin D → ℝ) → ℝ := fun x => ∑ u : Fin w.length, ∑ v : Fin w.length, if u = v then 0 else min (girgProb w (List.ofFn x) a u v) ε with hL
  have hmem := fun (u v : Fin w.length) (p q : Fin D → ℝ) => connProb_mem (D := D) a _ _ (hpos' u v) (torusDist_nonneg p q)
  have iS := pairs_integrable (f := fun u v p q => connProb D a (w[u.1] * w[v.1] / w.sum) (torusDist p q))
    (fun u v => (connProb_measurable D a _).comp torusDist_measurable)
    (fun u v p q => by obtain ⟨h1, h2⟩ := hmem u v p q; beta_reduce; rw [abs_of_nonneg h1]; exact h2) (uniformPositions w.length D)
  have iL := pairs_integrable (f := fun u v p q => min (connProb D a (w[u.1] * w[v.1] / w.sum) (torusDist p q)) ε)
    (fun u v => ((connProb_measurable D a _).comp torusDist_measurable).min measurable_const)
    (fun u v p q => by
      obtain ⟨h1, h2⟩ := hmem u v p q
      beta_reduce
      rw [abs_of_nonneg (le_min h1 (by norm_num [hε]))]; exact (min_le_left _ _).trans h2) (uniformPositions w.length D)
  simp only [← girgProb_ofFn (w := w) rfl] at iS iL
  have hS0 : ∀ x, 0 ≤ S x := fun x => Finset.sum_nonneg fun u _ => Finset.sum_nonneg fun v _ => by
    split_ifs
    · exact le_rfl
    · rw [girgProb_ofFn rfl]; exact (hmem u v _ _).1
  have hdeg : ∫ x, S x ∂uniformPositions w.length D = w.length * girgDegree D a w := by
    unfold girgDegree expectedAverageDegree
    rw [mul_div_cancel₀ _ (by exact_mod_cast (by omega : w.length ≠ 0))]
  have hup : ∀ ω, 2 * expectedEdges env rng ν (xw w) (pos ω) (fin a) ≤ ENNReal.ofReal (S (X ω)) := by
    intro ω
    obtain ⟨pr, _, h2, h3⟩ := C93_positions (sup ω) ha
    rw [(hXp ω).1, h3 env rng ν hr]
    refine ENNReal.ofReal_le_ofReal (Finset.sum_le_sum fun u _ => Finset.sum_le_sum fun v _ => ?_)
    split_ifs with h
    · exact le_rfl
    · rcases h2 u v u.2 v.2 (fun h' => h (Fin.ext h')) with h4 | h4
      · exact h4.le
      · rw [h4.1]; exact (girgProb_nonneg (sup ω) _ _).1
  have hlow : ∀ ω, ENNReal.ofReal (S (X ω) - L (X ω)) ≤ 2 * expectedEdges env rng ν (xw w) (pos ω) (fin a) := by
    intro ω
    obtain ⟨pr, _, h2, h3⟩ := C93_positions (sup ω) ha
    rw [(hXp ω).1, h3 env rng ν hr]
    refine ENNReal.ofReal_le_ofReal ?_
    simp only [hS, hL]
    rw [← Finset.sum_sub_distrib]
    refine Finset.sum_le_sum fun u _ => ?_
    rw [← Finset.sum_sub_distrib]
    refine Finset.sum_le_sum fun v _ => ?_
    split_ifs with h
    · simp
    · have h5 := (girgProb_nonneg (a := a) (sup ω) u v).1
      rcases h2 u v u.2 v.2 (fun h' => h (Fin.ext h')) with h4 | h4
      · rw [h4]; have := le_min h5 (by norm_num [hε] : (0 : ℝ) ≤ ε); linarith
      · rw [h4.1, min_eq_left h4.2.le]; simp
  have hmain : ENNReal.ofReal ((∫ x, S x - L x ∂uniformPositions w.length D) / w.length) ≤
      resultDegree P w.length (fun ω => expectedEdges env rng ν (xw w) (pos ω) (fin a)) := by
    refine degree_of_pairs' ?_ hn0
    rw [← hlaw]
    refine le_lintegral_of hX (iS.1.sub iL.1) ?_ hlow
    rw [hlaw]; exact iS.2.sub iL.2
  rw [integral_sub iS.2 iL.2, hdeg] at hmain
  have hn0' : (0 : ℝ) < w.length := by exact_mod_cast hn0
  refine ⟨?_, ?_, fun ha1 => ?_⟩
  · have : girgDegree D a w = (∫ x, S x ∂uniformPositions w.length D) / w.length := rfl
    rw [this]
    refine degree_of_pairs ?_ hn0
    rw [← hlaw]
    refine lintegral_le_of hX iS.1 hS0 ?_ hup
    rw [hlaw]; exact iS.2
  · refine (ENNReal.ofReal_le_ofReal ?_).trans hmain
    have hLb : ∫ x, L x ∂uniformPositions w.length D ≤ w.length * (w.length - 1) * ε := by
      refine (integral_mono iL.2 (integrable_const (w.length * (w.length - 1) * ε : ℝ)) fun x => ?_).trans (by simp)
      simp only [hL]
      calc _ ≤ ∑ u : Fin w.length, ∑ v : Fin w.length, (if u = v then 0 else ε) := by
            refine Finset.sum_le_sum fun u _ => Finset.sum_le_sum fun v _ => ?_
            split_ifs
            · exact le_rfl
            · exact min_le_right _ _
        _ = w.length * (w.length - 1) * ε := by
            have : ∀ u : Fin w.length, ∑ v : Fin w.length, (if u = v then 0 else ε) = (w.length - 1) * ε := by
              intro u
              have h1 : ∀ v : Fin w.length, (if u = v then 0 else ε) = ε - if u = v then ε else 0 := by
                intro v; split_ifs <;> ring
              rw [Finset.sum_congr rfl fun v _ => h1 v, Finset.sum_sub_distrib, Finset.sum_ite_eq]
              simp; ring
            rw [Finset.sum_congr rfl fun u _ => this u]
            simp; ring
    rw [le_div_iff₀ hn0']
    have : (girgDegree D a w - (w.length - 1) / 1000000) * w.length = w.length * girgDegree D a w - w.length * (w.length - 1) * ε := by rw [hε]; ring
    rw [this]; linarith
  · refine (ENNReal.ofReal_le_ofReal ?_).trans hmain
    have hLb := min_degree (w := w) (ε := ε) s0.D1 s0.wpos ha1 (by norm_num [hε]) (by norm_num [hε])
    unfold expectedAverageDegree at hLb
    rw [div_le_iff₀ hn0'] at hLb
    rw [le_div_iff₀ hn0']
    have hLb' : ∫ x, L x ∂uniformPositions w.length D ≤ a / (a - 1) * ε ^ (1 - 1 / a) * girgDegree D a w * w.length := hLb
    linarith

/-- C93, `alpha = infinity`: the expected average degree of the result is that of the threshold model. -/
theorem C93_expected_threshold (he : IdealEngine eng μ)
    (hs : (0 ≤ seed ∧ seed + nodeThreads omp n parallel ≤ 2147483648 ∧ IndependentStates P μ σ) ∨ (seed < 0 ∧ IndependentStates P μ device))
    (hpos : ∀ ω, GeneratePositions omp (withSeeds eng fun s => σ s ω) (fun k => device k ω) n D seed parallel (pos ω))
    (hr : IdealRng rng ν) (env : Env) (hw : SupportedWeights D w) (hn : w.length = n) :
    resultDegree P n (fun ω => expectedEdges env rng ν (xw w) (pos ω) .pinf) = ENNReal.ofReal (thresholdGirgDegree D w) := by
  classical
  subst hn
  obtain ⟨X, hX, hlaw, hXp⟩ := positions_random he hs hpos
  have sup : ∀ ω, SupportedInput D w (List.ofFn (X ω)) := fun ω => hw _ (by simp) (by
    intro p hp
    obtain ⟨i, rfl⟩ := List.mem_ofFn.1 hp
    exact (hXp ω).2 i)
  have s0 : SupportedInput D w (List.replicate w.length fun _ => 0) := hw _ (by simp) (by
    intro p hp d
    rw [List.eq_of_mem_replicate hp]; norm_num)
  have hn0 := s0.pos
  have hf : ∀ (x : Fin w.length → Fin D → ℝ) (u v : Fin w.length), thresholdProb w (List.ofFn x) u v =
      ({p | torusDist p (x v) ^ D < w[u.1] * w[v.1] / w.sum} : Set (Fin D → ℝ)).indicator (fun _ => (1 : ℝ)) (x u) := by
    intro x u v
    unfold thresholdProb
    rw [Set.indicator_apply]
    have : ThresholdRule w (List.ofFn x) u v ↔ x u ∈ {p | torusDist p (x v) ^ D < w[u.1] * w[v.1] / w.sum} := by
      unfold ThresholdRule
      constructor
      · rintro ⟨a, b, p, q, h1, h2, h3, h4, h5⟩
        rw [List.getElem?_eq_getElem u.2] at h1
        rw [List.getElem?_eq_getElem v.2] at h2
        rw [List.getElem?_eq_getElem (by simp)] at h3 h4
        simp only [List.getElem_ofFn, Option.some.injEq] at h1 h2 h3 h4
        subst h1 h2 h3 h4
        exact h5
      · intro h
        refine ⟨w[u.1], w[v.1], x u, x v, List.getElem?_eq_getElem u.2, List.getElem?_eq_getElem v.2, ?_, ?_, h⟩ <;>
          (rw [List.getElem?_eq_getElem (by simp)]; simp)
    simp only [this]
  set S : (Fin w.length → Fin D → ℝ) → ℝ := fun x => ∑ u : Fin w.length, ∑ v : Fin w.length, if u = v then 0 else thresholdProb w (List.ofFn x) u v with hS
  have iS := pairs_integrable (f := fun u v p q => ({p | torusDist p q ^ D < w[u.1] * w[v.1] / w.sum} : Set (Fin D → ℝ)).indicator (fun _ => (1 : ℝ)) p)
    (fun u v => by
      have : (fun z : (Fin D → ℝ) × (Fin D → ℝ) => ({p | torusDist p z.2 ^ D < w[u.1] * w[v.1] / w.sum} : Set (Fin D → ℝ)).indicator (fun _ => (1 : ℝ)) z.1) =
          ({z | torusDist z.1 z.2 ^ D < w[u.1] * w[v.1] / w.sum} : Set ((Fin D → ℝ) × (Fin D → ℝ))).indicator (fun _ => (1 : ℝ)) := by
        ext z; simp only [Set.indicator_apply, Set.mem_setOf_eq]
      beta_reduce
      rw [this]
      exact measurable_const.indicator (measurableSet_lt (torusDist_measurable.pow_const D) measurable_const))
    (fun u v p q => by beta_reduce; rw [Set.indicator_apply]; split_ifs <;> simp) (uniformPositions w.length D)
  simp only [← hf] at iS
  have hS0 : ∀ x, 0 ≤ S x := fun x => Finset.sum_nonneg fun u _ => Finset.sum_nonneg fun v _ => by
    split_ifs
    · exact le_rfl
    · unfold thresholdProb; split_ifs <;> norm_num
  have hE : ∀ ω, 2 * expectedEdges env rng ν (xw w) (pos ω) .pinf = ENNReal.ofReal (S (X ω)) := fun ω => by
    rw [(hXp ω).1, C93_positions_threshold (sup ω) env hr]
  have e : thresholdGirgDegree D w = (∫ x, S x ∂uniformPositions w.length D) / w.length := rfl
  rw [e]
  refine le_antisymm (degree_of_pairs ?_ hn0) (degree_of_pairs' ?_ hn0)
  · rw [← hlaw]
    exact lintegral_le_of hX iS.1 hS0 (by rw [hlaw]; exact iS.2) fun ω => (hE ω).le
  · rw [← hlaw]
    exact le_lintegral_of hX iS.1 (by rw [hlaw]; exact iS.2) fun ω => (hE ω).ge

/-- scaled weights are supported if the sum of the unscaled weights is not too large -/
theorem scaled_supported (hw : ∀ y ∈ w, 1 ≤ y ∧ y ≤ w.length / 2) (h2 : 2 ≤ w.length) (h31 : w.length < 2147483648) (hD1 : 1 ≤ D) (hD5 : D ≤ 5)
    {part : List (List ℕ)} (hp : part.flatten.Perm (List.range w.length)) {alg : StdAlg XR} {ndebug : Bool} {alpha : XR}
    (ha : alpha = .pinf ∨ ∃ a : ℝ, alpha = fin a ∧ 1 < a) {desired : ℝ} (hdn : desired ≤ w.length - 1) {k : ℝ} (hk : 0 < k) {ws : List XR}
    (h : ScaleWeights alg ndebug part (xw w) (fin desired) D alpha (.returned (fin k) ws))
    (hsize : alphaFactor alpha * 2 ^ D * w.sum ^ 2 < 2 ^ 29 * (desired - 2 / 100) * w.length) : SupportedWeights D (w.map (· * k)) := by
  have hN := girg_normal h31 hw
  have hne : w ≠ [] := by rintro rfl; simp at h2
  obtain ⟨f1, f2⟩ := C59_factor hN h2 (by omega) hp hD1 (by omega) hdn one_pos (fun y hy => (hw y hy).1) h
  have hWp : 0 < w.sum := List.sum_pos w (fun y hy => by linarith [(hw y hy).1]) hne
  have hup : k ≤ max (2 ^ D) w.sum := by
    rcases ha with h | ⟨a, h, h'⟩
    · simpa using (f1 h).1
    · simpa using (f2 a h h').1
  have hlow : w.sum < 2 ^ 29 * k := by
    have key : (desired - 2 / 100) * w.length ≤ alphaFactor alpha * (2 ^ D * w.sum * k) := by
      rcases ha with h | ⟨a, h, h'⟩
      · rw [h]; simpa [alphaFactor] using (f1 h).2
      · rw [h]
        have := (f2 a h h').2
        have ha1 : 0 < a - 1 := by linarith
        have ha0 : a ≠ 0 := by linarith
        show _ ≤ a / (a - 1) * _
        have h5 := mul_le_mul_of_nonneg_left this (div_pos (by linarith : 0 < a) ha1).le
        have e : a / (a - 1) * ((desired - 2 / 100) * w.length * ((a - 1) / a)) = (desired - 2 / 100) * w.length := by
          field_simp
        rwa [e] at h5
    have hA : 0 < alphaFactor alpha := by
      rcases ha with h | ⟨a, h, h'⟩
      · rw [h]; exact one_pos
      · rw [h]; exact div_pos (by linarith) (by linarith)
    have h6 : alphaFactor alpha * 2 ^ D * w.sum ^ 2 < 2 ^ 29 * (alphaFactor alpha * (2 ^ D * w.sum * k)) := by
      refine hsize.trans_le ?_
      nlinarith
    have hP : 0 < alphaFactor alpha * 2 ^ D * w.sum := by positivity
    have h7 : alphaFactor alpha * 2 ^ D * w.sum * w.sum < alphaFactor alpha * 2 ^ D * w.sum * (2 ^ 29 * k) := by nlinarith
    exact lt_of_mul_lt_mul_left h7 hP.le
  intro x hl hx
  exact girg_supported hD1 hD5 (by simpa using hl) h2 h31 hw hx hk hup hlow

theorem girgDegree_nonneg (hw : SupportedWeights D w) (a : ℝ) : 0 ≤ girgDegree D a w := by
  unfold girgDegree expectedAverageDegree
  refine div_nonneg (integral_nonneg_of_ae ?_) (Nat.cast_nonneg _)
  have h1 : ∀ᵐ x ∂uniformPositions w.length D, ∀ i d, x i d ∈ Set.Ico (0 : ℝ) 1 := by
    rw [ae_all_iff]
    intro i
    unfold uniformPositions
    haveI : IsProbabilityMeasure (unitCube D) := by
      unfold unitCube
      haveI : IsProbabilityMeasure (volume.restrict (Set.Ico (0 : ℝ) 1)) := ⟨by simp⟩
      infer_instance
    exact (measurePreserving_eval (fun _ : Fin w.length => unitCube D) i).quasiMeasurePreserving.ae (unitCube_ae D)
  filter_upwards [h1] with x hx
  refine Finset.sum_nonneg fun u _ => Finset.sum_nonneg fun v _ => ?_
  split_ifs
  · exact le_rfl
  · refine (girgProb_nonneg (hw (List.ofFn x) (by simp) ?_) _ _).1
    intro p hp d
    obtain ⟨i, rfl⟩ := List.mem_ofFn.1 hp
    exact hx i d

/-- C93.  The whole pipeline.  Weights `w` from 1 to `n/2` (as `generateWeights` returns them) are scaled by `scaleWeights` for a desired average degree
from 1 to `n-1`, `n` positions are drawn by `generatePositions`, and `generateEdges` is run; the sum of the weights is not too large.  Then the expected
average degree of the result is at least `desired - 0.02` and less than `desired + 0.02 + 1/n`: exactly so for `alpha = infinity`; for finite
`alpha = a > 1` the lower bound is smaller by at most `10^-6*(n-1)` and by at most the fraction `a/(a-1) * 10^(-6(1-1/a))`, and for `a > 8` the upper
bound is larger by the factor `a/(a-1)`. -/
theorem C93_requested (he : IdealEngine eng μ)
    (hs : (0 ≤ seed ∧ seed + nodeThreads omp n parallel ≤ 2147483648 ∧ IndependentStates P μ σ) ∨ (seed < 0 ∧ IndependentStates P μ device))
    (hpos : ∀ ω, GeneratePositions omp (withSeeds eng fun s => σ s ω) (fun k => device k ω) n D seed parallel (pos ω))
    (hr : IdealRng rng ν) (env : Env) (hn : w.length = n) (h2 : 2 ≤ n) (h31 : n < 2147483648) (hD1 : 1 ≤ D) (hD5 : D ≤ 5)
    (hw : ∀ y ∈ w, 1 ≤ y ∧ y ≤ n / 2) {part : List (List ℕ)} (hp : part.flatten.Perm (List.range n)) {alg : StdAlg XR} {ndebug : Bool} {alpha : XR}
    (ha : alpha = .pinf ∨ ∃ a : ℝ, alpha = fin a ∧ 1 < a) {desired : ℝ} (hd1 : 1 ≤ desired) (hdn : desired ≤ n - 1) {s : XR} {ws : List XR}
    (h : ScaleWeights alg ndebug part (xw w) (fin desired) D alpha (.returned s ws))
    (hsize : alphaFactor alpha * 2 ^ D * w.sum ^ 2 < 2 ^ 29 * (desired - 2 / 100) * n) :
    (alpha = .pinf →
      ENNReal.ofReal (desired - 2 / 100) ≤ resultDegree P n (fun ω => expectedEdges env rng ν ws (pos ω) alpha) ∧
      resultDegree P n (fun ω => expectedEdges env rng ν ws (pos ω) alpha) < ENNReal.ofReal (desired + 2 / 100 + 1 / n)) ∧
    ∀ a : ℝ, alpha = fin a →
      ENNReal.ofReal (desired - 2 / 100 - (n - 1) / 1000000) ≤ resultDegree P n (fun ω => expectedEdges env rng ν ws (pos ω) alpha) ∧
      ENNReal.ofReal ((1 - a / (a - 1) * (1 / 1000000 : ℝ) ^ (1 - 1 / a)) * (desired - 2 / 100)) ≤
        resultDegree P n (fun ω => expectedEdges env rng ν ws (pos ω) alpha) ∧
      resultDegree P n (fun ω => expectedEdges env rng ν ws (pos ω) alpha) <
        ENNReal.ofReal ((if a ≤ 8 then 1 else a / (a - 1)) * (desired + 2 / 100 + 1 / n)) := by
  subst hn
  have hne : w ≠ [] := by rintro rfl; simp at h2
  obtain ⟨k, hk, rfl, rfl, q1, q2, q3⟩ := C59_degree (girg_normal h31 hw) hne (by omega) hp hD1 (by omega) h
  have hsup := scaled_supported hw h2 h31 hD1 hD5 hp ha hdn hk h hsize
  have hl : (w.map (· * k)).length = w.length := List.length_map _
  have hn0 : (0 : ℝ) < w.length := by exact_mod_cast (by omega : 0 < w.length)
  constructor
  · rintro rfl
    have e := C93_expected_threshold he hs hpos hr env hsup hl
    obtain ⟨b1, b2⟩ := q1 rfl
    constructor
    · exact (ENNReal.ofReal_le_ofReal b1).trans e.ge
    · refine lt_of_eq_of_lt e ((ENNReal.ofReal_lt_ofReal_iff (by positivity)).2 b2)
  · rintro a rfl
    obtain ⟨a', ha', ha1⟩ : ∃ a' : ℝ, fin a = fin a' ∧ 1 < a' := by
      rcases ha with h | h
      · cases h
      · exact h
    cases ha'
    obtain ⟨e1, e2, e3⟩ := C93_expected he hs hpos hr env hsup hl (show 0 < a by linarith)
    obtain ⟨b1, b2⟩ : desired - 2 / 100 ≤ girgDegree D a (w.map (· * k)) ∧
        girgDegree D a (w.map (· * k)) < (if a ≤ 8 then 1 else a / (a - 1)) * (desired + 2 / 100 + 1 / w.length) := by
      rcases le_or_gt a 8 with h8 | h8
      · rw [if_pos h8, one_mul]; exact q2 a rfl h8
      · rw [if_neg (not_le.2 h8)]; exact q3 a rfl h8
    refine ⟨(ENNReal.ofReal_le_ofReal (by linarith)).trans e2, ?_, lt_of_le_of_lt e1 ((ENNReal.ofReal_lt_ofReal_iff ?_).2 b2)⟩
    · rcases le_or_gt 0 (1 - a / (a - 1) * (1 / 1000000 : ℝ) ^ (1 - 1 / a)) with h0 | h0
      · exact (ENNReal.ofReal_le_ofReal (mul_le_mul_of_nonneg_left b1 h0)).trans (e3 ha1)
      · rw [ENNReal.ofReal_of_nonpos (mul_nonpos_of_nonpos_of_nonneg h0.le (by linarith))]
        exact bot_le
    · exact (girgDegree_nonneg hsup a).trans_lt b2

end Positions

/-- C93 at work: ten weights from 1 to 5, dimension 2, `alpha = 2`, desired average degree 4: the hypotheses are met by ideal engines, and the expected average
degree of the result is at least 3.97 and less than 4.12. -/
example : ∃ (P : Measure (ℤ → ℕ → ℝ)) (ν : Measure idealRng.G) (pos : (ℤ → ℕ → ℝ) → List (List XR)) (s : XR) (ws : List XR),
    IsProbabilityMeasure P ∧
    (∀ ω, GeneratePositions exampleOmp (withSeeds streamEngine fun s => ω s) (fun _ => (fun _ => 0)) 10 2 130 true (pos ω)) ∧
    ScaleWeights (mergeAlg XR) true [[0, 2, 3, 4, 5, 6, 7, 8, 9], [1]] (xw [1, 1, 1, 1, 1, 2, 2, 3, 4, 5]) (fin 4) 2 (fin 2) (.returned s ws) ∧
    ENNReal.ofReal 3.97 ≤ resultDegree P 10 (fun ω => expectedEdges (exampleEnv true) idealRng ν ws (pos ω) (fin 2)) ∧
    resultDegree P 10 (fun ω => expectedEdges (exampleEnv true) idealRng ν ws (pos ω) (fin 2)) < ENNReal.ofReal 4.12 := by
  have hN : NormalWeights [1, 1, 1, 1, 1, 2, 2, 3, 4, 5] := normal_of_range (by intro y hy; fin_cases hy <;> norm_num)
  have hperm : ([[0, 2, 3, 4, 5, 6, 7, 8, 9], [1]] : List (List ℕ)).flatten.Perm (List.range 10) := by decide
  obtain ⟨s, ws, hsw⟩ := (C59_returns_iff (w := [1, 1, 1, 1, 1, 2, 2, 3, 4, 5]) (d := 2) hN (by simp) (by norm_num)
    hperm (mergeAlg XR) (by norm_num) (by norm_num) (Or.inr ⟨2, rfl, by norm_num, by norm_num⟩) 4).1.2 (by norm_num)
  have hseed : (0 ≤ (130 : ℤ) ∧ (130 : ℤ) + nodeThreads exampleOmp 10 true ≤ 2147483648 ∧
      IndependentStates (Measure.infinitePi fun _ : ℤ => seqMeasure) seqMeasure fun (s : ℤ) (ω : ℤ → ℕ → ℝ) => ω s) := ⟨by norm_num, by decide, streamStates⟩
  obtain ⟨X, hX, _⟩ := C92_positions (D := 2) (omp := exampleOmp) (device := fun _ _ => (fun _ => 0 : ℕ → ℝ)) (n := 10) (parallel := true)
    streamEngine_ideal (Or.inl hseed)
  have hpos := fun ω => (hX ω _).2 rfl
  have hb := (C93_requested (w := [1, 1, 1, 1, 1, 2, 2, 3, 4, 5]) streamEngine_ideal (Or.inl hseed) hpos idealRng_ideal (exampleEnv true) rfl
    (by norm_num) (by norm_num) (by norm_num) (by norm_num) (by intro y hy; fin_cases hy <;> norm_num) hperm
    (Or.inr ⟨2, rfl, by norm_num⟩) (by norm_num) (by norm_num) hsw (by norm_num [alphaFactor])).2 2 rfl
  refine ⟨Measure.infinitePi fun _ : ℤ => seqMeasure, seqMeasure, _, s, ws, inferInstance, hpos, hsw, ?_, ?_⟩
  · refine le_trans (ENNReal.ofReal_le_ofReal ?_) hb.2.1
    have : (1 / 1000000 : ℝ) ^ (1 - 1 / 2 : ℝ) = 1 / 1000 := by
      rw [show (1 / 1000000 : ℝ) = (1 / 1000) ^ (2 : ℝ) by norm_num, ← Real.rpow_mul (by norm_num)]; norm_num
    rw [this]; norm_num
  · refine lt_of_lt_of_le hb.2.2 (ENNReal.ofReal_le_ofReal ?_)
    norm_num

end Girgs.Props
