import Verif.Proofs.NodeDegree
import Verif.Proofs.MeanConnection
import Verif.Proofs.WorkIntegral
import Verif.Props.Degree
/-
C95: the expected degree of a node of a geometric inhomogeneous random graph is proportional to its weight.
-/
namespace Girgs.Props
open CFloat Spec MeasureTheory Tree Scaling
open XR (fin)
open scoped ENNReal

/-! ### fixed positions -/

/-- C95, for fixed weights and positions and finite `alpha = a > 0`: there are probabilities `pr u v`, equal to the documented connection probabilities except
for pairs for which these are below `10^-6`, such that for all environments and ideal random numbers the expected degree of every node `u` is the sum of
the `pr u v` over the other nodes `v`. -/
theorem C95_positions {D : ℕ} {w : List ℝ} {x : List (Fin D → ℝ)} (s : SupportedInput D w x) {a : ℝ} (ha : 0 < a) :
    ∃ pr : ℕ → ℕ → ℝ, (∀ u v, pr u v = pr v u) ∧
      (∀ u v, u < w.length → v < w.length → u ≠ v → pr u v = girgProb w x a u v ∨ (pr u v = 0 ∧ girgProb w x a u v < 1 / 1000000)) ∧
      ∀ (env : Env) (rng : Rng XR) [MeasurableSpace rng.G] (μ : Measure rng.G), IdealRng rng μ → ∀ u, u < w.length →
        expectedNodeDegree env rng μ (xw w) (xl x) (fin a) u = ENNReal.ofReal (∑ v : Fin w.length, if u = v.1 then 0 else pr u v) := by
  obtain ⟨T, hT⟩ := constructedX_exists true (fin a) s 1 le_rfl (by norm_num)
  obtain ⟨m, b⟩ := hT.builtX s
  refine ⟨edgePr T, fun u v => edgePr_comm u v, fun u v hu hv huv => b.edgePr_spec s ha hu hv huv, ?_⟩
  intro env rng _ μ hid u hu
  have hT' := hT.setDebug env.ndebug
  obtain ⟨m', b'⟩ := hT'.builtX s
  have hth : T.isThreshold = false := by unfold Tree.isThreshold; rw [b.alpha_eq]; rfl
  obtain ⟨L, h1, h2⟩ := result_event hid b' hT' s ha
  have hfst : (L.map Prod.fst).Perm ((allCoins _).map Prod.fst) := h1.map _
  have honce : EachPairOnce w.length (L.map Prod.fst) := eachPairOnce_perm hfst (b'.allCoins_once (List.Perm.refl _))
  unfold expectedNodeDegree
  rw [tsum_congr fun k => by rw [h2 (fun es => degreeOf u es = k) (fun es fs h => by rw [degreeOf_perm h])],
    degree_coins hu honce (p := edgePr T) (fun u v => edgePr_comm u v)]
  · rw [ENNReal.ofReal_sum_of_nonneg]
    · refine Finset.sum_congr rfl fun v _ => ?_
      split_ifs <;> simp
    · intro v _
      split_ifs with h
      · exact le_rfl
      · exact (edgePr_unit b s ha hu v.2 h).1
  · rintro ⟨⟨c, d⟩, q⟩ hm
    have hin := honce.1 _ (List.mem_map.2 ⟨_, hm, rfl⟩)
    simp only at hin
    have e1 := b'.edgePr_eq (h1.mem_iff.1 hm)
    have hb := edgePr_unit b' s ha hin.1 hin.2.1 hin.2.2
    rw [e1] at hb
    rw [unit_eq hb.1 hb.2, ← e1]
    exact edgePr_ndebug hth _ _ _

/-- C95, for fixed weights and positions and `alpha = infinity`: the expected degree is the number of nodes with which the node satisfies the threshold rule. -/
theorem C95_positions_threshold {D : ℕ} {w : List ℝ} {x : List (Fin D → ℝ)} (s : SupportedInput D w x) (env : Env) {rng : Rng XR} [MeasurableSpace rng.G]
    {μ : Measure rng.G} (hid : IdealRng rng μ) {u : ℕ} (hu : u < w.length) :
    expectedNodeDegree env rng μ (xw w) (xl x) .pinf u = ENNReal.ofReal (∑ v : Fin w.length, if u = v.1 then 0 else thresholdProb w x u v) := by
  classical
  have hprob := hid.prob
  set d : ℕ := ∑ v : Fin w.length, if u = v.1 then 0 else if ThresholdRule w x u v then 1 else 0 with hd
  have hlen : ∀ g : Fin env.threads → rng.G, ∀ out notice, GenerateEdges env rng (gensOf env.threads_pos g) (xw w) (xl x) .pinf out notice →
      degreeOf u out = d := fun g out notice h => degreeOf_graph hu (C18_threshold_exact s env rng hid.bounded _ out notice h).1
  have e : expectedNodeDegree env rng μ (xw w) (xl x) .pinf u = (d : ℝ≥0∞) := by
    unfold expectedNodeDegree
    rw [tsum_eq_single d]
    · have : {g | ∃ out notice, GenerateEdges env rng (gensOf env.threads_pos g) (xw w) (xl x) .pinf out notice ∧ degreeOf u out = d} = Set.univ := by
        ext g
        simp only [Set.mem_setOf_eq, Set.mem_univ, iff_true]
        obtain ⟨⟨out, notice, h⟩, _⟩ := C17_simple_graph s .pinf env rng hid.bounded (gensOf env.threads_pos g)
        exact ⟨out, notice, h, hlen g out notice h⟩
      rw [this, measure_univ, mul_one]
    · intro k hk
      have : {g | ∃ out notice, GenerateEdges env rng (gensOf env.threads_pos g) (xw w) (xl x) .pinf out notice ∧ degreeOf u out = k} = ∅ := by
        ext g
        simp only [Set.mem_setOf_eq, Set.mem_empty_iff_false, iff_false]
        rintro ⟨out, notice, h, rfl⟩
        exact hk (hlen g out notice h)
      rw [this, measure_empty, mul_zero]
  rw [e, ← ENNReal.ofReal_natCast, hd, Nat.cast_sum]
  congr 1
  refine Finset.sum_congr rfl fun v _ => ?_
  unfold thresholdProb
  split_ifs <;> simp

/-! ### random positions -/

/-- the number of expected neighbours of a node, as a function of the positions -/
theorem row_expect {D n : ℕ} {f : Fin n → (Fin D → ℝ) → (Fin D → ℝ) → ℝ} (u : Fin n)
    (hm : ∀ v, Measurable fun z : (Fin D → ℝ) × (Fin D → ℝ) => f v z.1 z.2) (hb : ∀ v p q, |f v p q| ≤ 1) {k : Fin n → ℝ}
    (hk : ∀ v, ∀ q : Fin D → ℝ, (∀ d, q d ∈ Set.Ico (0 : ℝ) 1) → ∫ p, f v p q ∂unitCube D = k v) :
    Measurable (fun x : Fin n → Fin D → ℝ => ∑ v : Fin n, (if u = v then 0 else f v (x u) (x v))) ∧
    Integrable (fun x : Fin n → Fin D → ℝ => ∑ v : Fin n, (if u = v then 0 else f v (x u) (x v))) (uniformPositions n D) ∧
    ∫ x : Fin n → Fin D → ℝ, ∑ v : Fin n, (if u = v then 0 else f v (x u) (x v)) ∂uniformPositions n D = ∑ v : Fin n, if u = v then 0 else k v := by
  have h1 : ∀ v : Fin n, Measurable (fun x : Fin n → Fin D → ℝ => if u = v then 0 else f v (x u) (x v)) := by
    intro v
    split_ifs
    · exact measurable_const
    · have hpair : Measurable fun x : Fin n → Fin D → ℝ => (x u, x v) := by fun_prop
      exact (hm v).comp hpair
  have h2 : ∀ v : Fin n, Integrable (fun x : Fin n → Fin D → ℝ => if u = v then 0 else f v (x u) (x v)) (uniformPositions n D) := by
    intro v
    refine Integrable.of_bound (h1 v).aestronglyMeasurable 1 (Filter.Eventually.of_forall fun x => ?_)
    rw [Real.norm_eq_abs]
    split_ifs
    · simp
    · exact hb v _ _
  refine ⟨Finset.measurable_sum _ fun v _ => h1 v, integrable_finsetSum _ fun v _ => h2 v, ?_⟩
  rw [integral_finsetSum _ fun v _ => h2 v]
  refine Finset.sum_congr rfl fun v _ => ?_
  split_ifs with h
  · simp
  · exact pair_expect (hm v) (hb v) (hk v) h

section Positions
variable {Ω : Type} [MeasurableSpace Ω] {P : Measure Ω} {omp : Omp} {eng : Engine XR} [MeasurableSpace eng.G] {μ : Measure eng.G}
  {σ : ℤ → Ω → eng.G} {device : ℕ → Ω → eng.G} {n : ℕ} {seed : ℤ} {parallel : Bool} {D : ℕ} {w : List ℝ} {pos : Ω → List (List XR)}
  {rng : Rng XR} [MeasurableSpace rng.G] {ν : Measure rng.G}

/-- the probability, over uniform positions, to be connected with probability below `ε` -/
theorem small_part {α t ε : ℝ} (hα : 1 < α) (ht : 0 < t) (h0 : 0 < ε) (h1 : ε ≤ 1) :
    ε * probAlpha α (2 ^ D * (t * ε ^ (-(1 / α)))) ≤ α / (α - 1) * ε ^ (1 - 1 / α) * probAlpha α (2 ^ D * t) := by
  have hα0 : 0 < α := by linarith
  have hk : 0 < ε ^ (-(1 / α)) := Real.rpow_pos_of_pos h0 _
  have hk1 : 1 ≤ ε ^ (-(1 / α)) := Real.one_le_rpow_of_pos_of_le_one_of_nonpos h0 h1 (by simp; linarith)
  have p1 := (probAlpha_bounds hα (show 0 < 2 ^ D * (t * ε ^ (-(1 / α))) by positivity)).2
  have p2 := (probAlpha_bounds hα (show 0 < 2 ^ D * t by positivity)).1
  have hf : 0 < α / (α - 1) := div_pos hα0 (by linarith)
  have p3 : probThreshold (2 ^ D * (t * ε ^ (-(1 / α)))) ≤ ε ^ (-(1 / α)) * probThreshold (2 ^ D * t) := by
    unfold probThreshold
    rw [mul_min_of_nonneg _ _ hk.le]
    refine le_min ((min_le_left _ _).trans (by linarith)) ((min_le_right _ _).trans (le_of_eq (by ring)))
  have e3 : ε ^ (1 - 1 / α) = ε * ε ^ (-(1 / α)) := by
    rw [sub_eq_add_neg, Real.rpow_add h0, Real.rpow_one]
  rw [e3]
  calc ε * probAlpha α (2 ^ D * (t * ε ^ (-(1 / α)))) ≤ ε * (α / (α - 1) * (ε ^ (-(1 / α)) * probAlpha α (2 ^ D * t))) := by
        gcongr
        refine p1.trans ?_
        gcongr
        exact p3.trans (by gcongr)
    _ = _ := by ring

/-- C95, `alpha = infinity`.  `n` positions are drawn by `generatePositions` (ideal engines, independently started), then `generateEdges` is run on weights `w`
(ideal random numbers).  The expected degree of node `u` is the sum over the other nodes `v` of `min(1, 2^D w_u w_v / W)`, `W` being the sum of the
weights. -/
theorem C95_threshold (he : IdealEngine eng μ)
    (hs : (0 ≤ seed ∧ seed + nodeThreads omp n parallel ≤ 2147483648 ∧ IndependentStates P μ σ) ∨ (seed < 0 ∧ IndependentStates P μ device))
    (hpos : ∀ ω, GeneratePositions omp (withSeeds eng fun s => σ s ω) (fun k => device k ω) n D seed parallel (pos ω))
    (hr : IdealRng rng ν) (env : Env) (hw : SupportedWeights D w) (hn : w.length = n) (u : Fin w.length) :
    ∫⁻ ω, expectedNodeDegree env rng ν (xw w) (pos ω) .pinf u ∂P =
      ENNReal.ofReal (∑ v : Fin w.length, if u = v then 0 else min 1 (2 ^ D * (w[u] * w[v] / w.sum))) := by
  classical
  subst hn
  obtain ⟨X, hX, hlaw, hXp⟩ := positions_random he hs hpos
  have sup : ∀ ω, SupportedInput D w (List.ofFn (X ω)) := fun ω => hw _ (by simp) (by
    intro p hp
    obtain ⟨i, rfl⟩ := List.mem_ofFn.1 hp
    exact (hXp ω).2 i)
  have s0 : SupportedInput D w (List.replicate w.length fun _ => 0) := hw _ (by simp) (by
    intro p hp d
    rw [List.eq_of_mem_replicate hp]; norm_num)
  have hpos' : ∀ v : Fin w.length, 0 < w[u.1] * w[v.1] / w.sum := fun v =>
    div_pos (mul_pos (s0.wpos _ (List.getElem_mem _)) (s0.wpos _ (List.getElem_mem _)))
      (List.sum_pos w s0.wpos (by rintro rfl; exact absurd u.2 (by simp)))
  have hf : ∀ (x : Fin w.length → Fin D → ℝ) (v : Fin w.length), thresholdProb w (List.ofFn x) u v =
      ({p | torusDist p (x v) ^ D < w[u.1] * w[v.1] / w.sum} : Set (Fin D → ℝ)).indicator (fun _ => (1 : ℝ)) (x u) := by
    intro x v
    unfold thresholdProb
    rw [Set.indicator_apply]
    have : ThresholdRule w (List.ofFn x) u v ↔ x u ∈ {p | torusDist p (x v) ^ D < w[u.1] * w[v.1] / w.sum} := by
      unfold ThresholdRule
      constructor
      · rintro ⟨a, b, p, q, h1, h2, h3, h4, h5⟩
        rw [List.getElem?_eq_getElem u.2] at h1
        rw [List.getElem?_eq_getElem v.2] at h2
        rw [List.getElem?_eq_getElem (by simp)] at h3 h4
        simp only [List.getElem_ofFn, Option.some.injEq] at h1 h2 h3 h4
        subst h1 h2 h3 h4
        exact h5
      · intro h
        refine ⟨w[u.1], w[v.1], x u, x v, List.getElem?_eq_getElem u.2, List.getElem?_eq_getElem v.2, ?_, ?_, h⟩ <;>
          (rw [List.getElem?_eq_getElem (by simp)]; simp)
    simp only [this]
  obtain ⟨iS, iI, iE⟩ := row_expect (n := w.length) u (f := fun v p q => ({p | torusDist p q ^ D < w[u.1] * w[v.1] / w.sum} : Set (Fin D → ℝ)).indicator (fun _ => (1 : ℝ)) p)
    (k := fun v => probThreshold (2 ^ D * (w[u.1] * w[v.1] / w.sum)))
    (fun v => by
      have : (fun z : (Fin D → ℝ) × (Fin D → ℝ) => ({p | torusDist p z.2 ^ D < w[u.1] * w[v.1] / w.sum} : Set (Fin D → ℝ)).indicator (fun _ => (1 : ℝ)) z.1) =
          ({z | torusDist z.1 z.2 ^ D < w[u.1] * w[v.1] / w.sum} : Set ((Fin D → ℝ) × (Fin D → ℝ))).indicator (fun _ => (1 : ℝ)) := by
        ext z; simp only [Set.indicator_apply, Set.mem_setOf_eq]
      beta_reduce
      rw [this]
      exact measurable_const.indicator (measurableSet_lt (torusDist_measurable.pow_const D) measurable_const))
    (fun v p q => by beta_reduce; rw [Set.indicator_apply]; split_ifs <;> simp)
    (fun v q hq => threshold_expect s0.D1 hq (hpos' v))
  simp only [← hf] at iS iI iE
  have hE : ∀ ω, expectedNodeDegree env rng ν (xw w) (pos ω) .pinf u =
      ENNReal.ofReal (∑ v : Fin w.length, if u = v then 0 else thresholdProb w (List.ofFn (X ω)) u v) := fun ω => by
    rw [(hXp ω).1, C95_positions_threshold (sup ω) env hr u.2]
    simp only [Fin.ext_iff]
  have e : ∑ v : Fin w.length, (if u = v then 0 else min 1 (2 ^ D * (w[u] * w[v] / w.sum))) =
      ∫ x : Fin w.length → Fin D → ℝ, ∑ v : Fin w.length, (if u = v then 0 else thresholdProb w (List.ofFn x) u v) ∂uniformPositions w.length D := iE.symm
  rw [e, ← hlaw]
  refine le_antisymm ?_ ?_
  · exact lintegral_le_of hX iS (fun y => Finset.sum_nonneg fun v _ => by
      split_ifs
      · exact le_rfl
      · unfold thresholdProb; split_ifs <;> norm_num) (by rw [hlaw]; exact iI) fun ω => (hE ω).le
  · exact le_lintegral_of hX iS (by rw [hlaw]; exact iI) fun ω => (hE ω).ge

set_option maxHeartbeats 1000000 in
/-- C95, finite `alpha = a > 0`, same setting.  The expected degree of node `u` is at most the sum over the other nodes `v` of the mean connection
probability for `2^D w_u w_v / W`, and smaller by at most `10^-6*(n-1)`; for `a > 1` also by at most the fraction `a/(a-1) * 10^(-6(1-1/a))`. -/
theorem C95_expected (he : IdealEngine eng μ)
    (hs : (0 ≤ seed ∧ seed + nodeThreads omp n parallel ≤ 2147483648 ∧ IndependentStates P μ σ) ∨ (seed < 0 ∧ IndependentStates P μ device))
    (hpos : ∀ ω, GeneratePositions omp (withSeeds eng fun s => σ s ω) (fun k => device k ω) n D seed parallel (pos ω))
    (hr : IdealRng rng ν) (env : Env) (hw : SupportedWeights D w) (hn : w.length = n) {a : ℝ} (ha : 0 < a) (u : Fin w.length)
    {mean : ℝ} (hmean : mean = ∑ v : Fin w.length, if u = v then 0 else meanConnection a (2 ^ D * (w[u] * w[v] / w.sum))) :
    ∫⁻ ω, expectedNodeDegree env rng ν (xw w) (pos ω) (fin a) u ∂P ≤ ENNReal.ofReal mean ∧
    ENNReal.ofReal (mean - (n - 1) / 1000000) ≤ ∫⁻ ω, expectedNodeDegree env rng ν (xw w) (pos ω) (fin a) u ∂P ∧
    (1 < a → ENNReal.ofReal ((1 - a / (a - 1) * (1 / 1000000 : ℝ) ^ (1 - 1 / a)) * mean) ≤
      ∫⁻ ω, expectedNodeDegree env rng ν (xw w) (pos ω) (fin a) u ∂P) := by
  subst hn
  obtain ⟨X, hX, hlaw, hXp⟩ := positions_random he hs hpos
  have sup : ∀ ω, SupportedInput D w (List.ofFn (X ω)) := fun ω => hw _ (by simp) (by
    intro p hp
    obtain ⟨i, rfl⟩ := List.mem_ofFn.1 hp
    exact (hXp ω).2 i)
  have s0 : SupportedInput D w (List.replicate w.length fun _ => 0) := hw _ (by simp) (by
    intro p hp d
    rw [List.eq_of_mem_replicate hp]; norm_num)
  have hpos' : ∀ v : Fin w.length, 0 < w[u.1] * w[v.1] / w.sum := fun v =>
    div_pos (mul_pos (s0.wpos _ (List.getElem_mem _)) (s0.wpos _ (List.getElem_mem _)))
      (List.sum_pos w s0.wpos (by rintro rfl; exact absurd u.2 (by simp)))
  obtain ⟨ε, hε⟩ : ∃ ε : ℝ, ε = 1 / 1000000 := ⟨_, rfl⟩
  have hε0 : 0 < ε := by rw [hε]; norm_num
  have hε1 : ε ≤ 1 := by rw [hε]; norm_num
  have hmem := fun (v : Fin w.length) (p q : Fin D → ℝ) => connProb_mem (D := D) a _ _ (hpos' v) (torusDist_nonneg p q)
  have hk : 0 < ε ^ (-(1 / a)) := Real.rpow_pos_of_pos hε0 _
  obtain ⟨iS, iI, iE⟩ := row_expect (n := w.length) u (f := fun v p q => connProb D a (w[u.1] * w[v.1] / w.sum) (torusDist p q))
    (k := fun v => meanConnection a (2 ^ D * (w[u.1] * w[v.1] / w.sum)))
    (fun v => (connProb_measurable D a _).comp torusDist_measurable)
    (fun v p q => by obtain ⟨h1, h2⟩ := hmem v p q; beta_reduce; rw [abs_of_nonneg h1]; exact h2)
    (fun v q hq => mean_expect s0.D1 hq ha (hpos' v))
  obtain ⟨jS, jI, jE⟩ := row_expect (n := w.length) u (f := fun v p q => min (connProb D a (w[u.1] * w[v.1] / w.sum) (torusDist p q)) ε)
    (k := fun v => ε * meanConnection a (2 ^ D * (w[u.1] * w[v.1] / w.sum * ε ^ (-(1 / a)))))
    (fun v => ((connProb_measurable D a _).comp torusDist_measurable).min measurable_const)
    (fun v p q => by
      obtain ⟨h1, h2⟩ := hmem v p q
      beta_reduce
      rw [abs_of_nonneg (le_min h1 hε0.le)]; exact (min_le_left _ _).trans h2)
    (fun v q hq => by
      beta_reduce
      simp only [min_connProb ha (hpos' v) (torusDist_nonneg _ q) hε0 hε1]
      rw [integral_const_mul, mean_expect s0.D1 hq ha (mul_pos (hpos' v) hk)])
  simp only [← girgProb_ofFn (w := w) rfl] at iS iI iE jS jI jE
  have hmean' : ∫ x : Fin w.length → Fin D → ℝ, ∑ v : Fin w.length, (if u = v then 0 else girgProb w (List.ofFn x) a u v) ∂uniformPositions w.length D = mean := by
    rw [iE, hmean]; rfl
  have hup : ∀ ω, expectedNodeDegree env rng ν (xw w) (pos ω) (fin a) u ≤
      ENNReal.ofReal (∑ v : Fin w.length, if u = v then 0 else girgProb w (List.ofFn (X ω)) a u v) := by
    intro ω
    obtain ⟨pr, _, h2, h3⟩ := C95_positions (sup ω) ha
    rw [(hXp ω).1, h3 env rng ν hr u u.2]
    refine ENNReal.ofReal_le_ofReal (Finset.sum_le_sum fun v _ => ?_)
    simp only [Fin.ext_iff]
    split_ifs with h
    · exact le_rfl
    · rcases h2 u v u.2 v.2 h with h4 | h4
      · exact h4.le
      · rw [h4.1]; exact (girgProb_nonneg (sup ω) _ _).1
  have hlow : ∀ ω, ENNReal.ofReal ((∑ v : Fin w.length, if u = v then 0 else girgProb w (List.ofFn (X ω)) a u v) -
      ∑ v : Fin w.length, if u = v then 0 else min (girgProb w (List.ofFn (X ω)) a u v) ε) ≤ expectedNodeDegree env rng ν (xw w) (pos ω) (fin a) u := by
    intro ω
    obtain ⟨pr, _, h2, h3⟩ := C95_positions (sup ω) ha
    rw [(hXp ω).1, h3 env rng ν hr u u.2]
    refine ENNReal.ofReal_le_ofReal ?_
    rw [← Finset.sum_sub_distrib]
    refine Finset.sum_le_sum fun v _ => ?_
    simp only [Fin.ext_iff]
    split_ifs with h
    · simp
    · have h5 := (girgProb_nonneg (a := a) (sup ω) u v).1
      rcases h2 u v u.2 v.2 h with h4 | h4
      · rw [h4]; have := le_min h5 hε0.le; linarith
      · rw [h4.1, min_eq_left (by rw [hε]; exact h4.2.le)]; simp
  have hmain : ENNReal.ofReal (mean - ∑ v : Fin w.length, if u = v then 0 else ε * meanConnection a (2 ^ D * (w[u.1] * w[v.1] / w.sum * ε ^ (-(1 / a))))) ≤
      ∫⁻ ω, expectedNodeDegree env rng ν (xw w) (pos ω) (fin a) u ∂P := by
    rw [← hmean', ← jE, ← integral_sub iI jI, ← hlaw]
    refine le_lintegral_of hX (iS.sub jS) ?_ hlow
    rw [hlaw]; exact iI.sub jI
  refine ⟨?_, ?_, fun ha1' => ?_⟩
  · rw [← hmean', ← hlaw]
    exact lintegral_le_of hX iS (fun x => Finset.sum_nonneg fun v _ => by
      split_ifs
      · exact le_rfl
      · rw [girgProb_ofFn rfl]; exact (hmem v _ _).1) (by rw [hlaw]; exact iI) hup
  · refine (ENNReal.ofReal_le_ofReal ?_).trans hmain
    have h1 : ∑ v : Fin w.length, (if u = v then 0 else ε * meanConnection a (2 ^ D * (w[u.1] * w[v.1] / w.sum * ε ^ (-(1 / a))))) ≤
        ∑ v : Fin w.length, (if u = v then 0 else ε) := by
      refine Finset.sum_le_sum fun v _ => ?_
      split_ifs
      · exact le_rfl
      · have := (meanConnection_mem ha (show 0 < 2 ^ D * (w[u.1] * w[v.1] / w.sum * ε ^ (-(1 / a))) by have := hpos' v; positivity)).2
        nlinarith
    have h2 : ∑ v : Fin w.length, (if u = v then 0 else ε) = (w.length - 1) * ε := by
      have h1 : ∀ v : Fin w.length, (if u = v then 0 else ε) = ε - if u = v then ε else 0 := by
        intro v; split_ifs <;> ring
      rw [Finset.sum_congr rfl fun v _ => h1 v, Finset.sum_sub_distrib, Finset.sum_ite_eq]
      simp; ring
    rw [h2, hε] at h1
    rw [hε]
    linarith
  · refine (ENNReal.ofReal_le_ofReal ?_).trans hmain
    have h1 : ∑ v : Fin w.length, (if u = v then 0 else ε * meanConnection a (2 ^ D * (w[u.1] * w[v.1] / w.sum * ε ^ (-(1 / a))))) ≤
        a / (a - 1) * ε ^ (1 - 1 / a) * mean := by
      rw [hmean, Finset.mul_sum]
      refine Finset.sum_le_sum fun v _ => ?_
      split_ifs
      · simp
      · rw [meanConnection_eq ha1'.ne', meanConnection_eq ha1'.ne']; exact small_part ha1' (hpos' v) hε0 hε1
    rw [← hε]
    linarith

/-- the sum over the other nodes of a multiple of their weights -/
theorem sum_others (u : Fin w.length) (c : ℝ) : ∑ v : Fin w.length, (if u = v then 0 else c * w[v]) = c * (w.sum - w[u]) := by
  have h1 : ∀ v : Fin w.length, (if u = v then 0 else c * w[v]) = c * w[v] - if u = v then c * w[v] else 0 := by
    intro v; split_ifs <;> ring
  rw [Finset.sum_congr rfl fun v _ => h1 v, Finset.sum_sub_distrib, Finset.sum_ite_eq, ← Finset.mul_sum]
  have : ∑ v : Fin w.length, w[v] = w.sum := by simp
  rw [this]; simp; ring

/-- C95.  The expected degree of a node is proportional to its weight: for `alpha = infinity` it is at most `2^D w_u (1 - w_u/W)`, and equal to this if
`2^D w_u w_v ≤ W` for all other nodes `v`; for finite `alpha = a > 1` it is at most `a/(a-1)` times this. -/
theorem C95_proportional (he : IdealEngine eng μ)
    (hs : (0 ≤ seed ∧ seed + nodeThreads omp n parallel ≤ 2147483648 ∧ IndependentStates P μ σ) ∨ (seed < 0 ∧ IndependentStates P μ device))
    (hpos : ∀ ω, GeneratePositions omp (withSeeds eng fun s => σ s ω) (fun k => device k ω) n D seed parallel (pos ω))
    (hr : IdealRng rng ν) (env : Env) (hw : SupportedWeights D w) (hn : w.length = n) (u : Fin w.length) :
    ∫⁻ ω, expectedNodeDegree env rng ν (xw w) (pos ω) .pinf u ∂P ≤ ENNReal.ofReal (2 ^ D * w[u] * (1 - w[u] / w.sum)) ∧
    ((∀ v : Fin w.length, v ≠ u → 2 ^ D * (w[u] * w[v]) ≤ w.sum) →
      ∫⁻ ω, expectedNodeDegree env rng ν (xw w) (pos ω) .pinf u ∂P = ENNReal.ofReal (2 ^ D * w[u] * (1 - w[u] / w.sum))) ∧
    ∀ a : ℝ, 1 < a →
      ∫⁻ ω, expectedNodeDegree env rng ν (xw w) (pos ω) (fin a) u ∂P ≤ ENNReal.ofReal (a / (a - 1) * (2 ^ D * w[u] * (1 - w[u] / w.sum))) := by
  have s0 : SupportedInput D w (List.replicate w.length fun _ => 0) := hw _ (by simp) (by
    intro p hp d
    rw [List.eq_of_mem_replicate hp]; norm_num)
  have hW : 0 < w.sum := List.sum_pos w s0.wpos (by rintro rfl; exact absurd u.2 (by simp))
  have hpos' : ∀ v : Fin w.length, 0 < w[u.1] * w[v.1] / w.sum := fun v =>
    div_pos (mul_pos (s0.wpos _ (List.getElem_mem _)) (s0.wpos _ (List.getElem_mem _))) hW
  have e1 : 2 ^ D * w[u] * (1 - w[u] / w.sum) = ∑ v : Fin w.length, (if u = v then 0 else 2 ^ D * (w[u] * w[v] / w.sum)) := by
    have h1 : ∀ v : Fin w.length, (if u = v then 0 else 2 ^ D * (w[u] * w[v] / w.sum)) = if u = v then 0 else 2 ^ D * w[u] / w.sum * w[v] := by
      intro v; split_ifs <;> ring
    rw [Finset.sum_congr rfl fun v _ => h1 v, sum_others]
    field_simp
  rw [C95_threshold he hs hpos hr env hw hn u, e1]
  refine ⟨ENNReal.ofReal_le_ofReal (Finset.sum_le_sum fun v _ => ?_), fun h => ?_, fun a ha => ?_⟩
  · split_ifs
    · exact le_rfl
    · exact min_le_right _ _
  · congr 1
    refine Finset.sum_congr rfl fun v _ => ?_
    split_ifs with huv
    · rfl
    · refine min_eq_right ?_
      rw [← mul_div_assoc, div_le_one hW]
      exact h v (Ne.symm huv)
  · refine (C95_expected he hs hpos hr env hw hn (by linarith) u rfl).1.trans (ENNReal.ofReal_le_ofReal ?_)
    rw [Finset.mul_sum]
    refine Finset.sum_le_sum fun v _ => ?_
    split_ifs
    · simp
    · rw [meanConnection_eq ha.ne']; exact probAlpha_le ha (by have := hpos' v; positivity)

end Positions

/-- C95 at work: four nodes of weights 1, 1, 2 and 12 in dimension 1 and `alpha = infinity`: the expected degree of the first node is
`1/8 + 1/4 + 1 = 11/8`, and for `alpha = 2` it is at most `15/4`; the hypotheses are met by ideal engines. -/
example : ∃ (P : Measure (ℤ → ℕ → ℝ)) (ν : Measure idealRng.G) (pos : (ℤ → ℕ → ℝ) → List (List XR)),
    IsProbabilityMeasure P ∧
    (∀ ω, GeneratePositions exampleOmp (withSeeds streamEngine fun s => ω s) (fun _ => (fun _ => 0)) 4 1 130 true (pos ω)) ∧
    ∫⁻ ω, expectedNodeDegree (exampleEnv true) idealRng ν (xw [1, 1, 2, 12]) (pos ω) .pinf 0 ∂P = ENNReal.ofReal (11 / 8) ∧
    ∫⁻ ω, expectedNodeDegree (exampleEnv true) idealRng ν (xw [1, 1, 2, 12]) (pos ω) (fin 2) 0 ∂P ≤ ENNReal.ofReal (15 / 4) := by
  have hsup : SupportedWeights 1 [1, 1, 2, 12] := by
    intro x hl hx
    refine ⟨by norm_num, by norm_num, hl, by norm_num, by norm_num, ?_, ?_, hx, ?_, ?_⟩
    · intro y hy; fin_cases hy <;> norm_num
    · intro y hy
      refine lt_of_lt_of_le (b := (2 : ℝ) ^ 10) ?_ (pow_le_pow_right₀ (by norm_num) (by norm_num))
      fin_cases hy <;> norm_num
    · intro y hy; fin_cases hy <;> norm_num
    · intro y hy z hz; fin_cases hy <;> fin_cases hz <;> norm_num
  have hseed : (0 ≤ (130 : ℤ) ∧ (130 : ℤ) + nodeThreads exampleOmp 4 true ≤ 2147483648 ∧
      IndependentStates (Measure.infinitePi fun _ : ℤ => seqMeasure) seqMeasure fun (s : ℤ) (ω : ℤ → ℕ → ℝ) => ω s) := ⟨by norm_num, by decide, streamStates⟩
  obtain ⟨X, hX, _⟩ := C92_positions (D := 1) (omp := exampleOmp) (device := fun _ _ => (fun _ => 0 : ℕ → ℝ)) (n := 4) (parallel := true)
    streamEngine_ideal (Or.inl hseed)
  have hpos := fun ω => (hX ω _).2 rfl
  refine ⟨Measure.infinitePi fun _ : ℤ => seqMeasure, seqMeasure, _, inferInstance, hpos, ?_, ?_⟩
  · refine (C95_threshold (w := [1, 1, 2, 12]) streamEngine_ideal (Or.inl hseed) hpos idealRng_ideal (exampleEnv true) hsup rfl 0).trans ?_
    congr 1
    simp [Fin.sum_univ_succ]
    norm_num
  · refine ((C95_proportional (w := [1, 1, 2, 12]) streamEngine_ideal (Or.inl hseed) hpos idealRng_ideal (exampleEnv true) hsup rfl 0).2.2 2
      (by norm_num)).trans (ENNReal.ofReal_le_ofReal ?_)
    simp
    norm_num

end Girgs.Props
