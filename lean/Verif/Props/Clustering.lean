import Verif.Proofs.Clustering
/-
C102: generated GIRGs have high clustering.
-/
namespace Girgs.Props
open CFloat Spec MeasureTheory Tree Scaling Clustering
open XR (fin)
open scoped ENNReal

/-- two neighbours of a node, for independent uniform positions -/
theorem two_links {D n : ℕ} (hD : 1 ≤ D) {u v z : Fin n} (huv : u ≠ v) (huz : u ≠ z) (hvz : v ≠ z) {alpha : XR}
    (ha : alpha = .pinf ∨ ∃ a : ℝ, alpha = fin a ∧ 1 < a) {t s : ℝ} (ht : 0 < t) (hs : 0 < s) :
    (Measurable fun x : Fin n → Fin D → ℝ =>
      ENNReal.ofReal (linkProb alpha D t (torusDist (x u) (x v)) * linkProb alpha D s (torusDist (x u) (x z)))) ∧
    ∫⁻ x : Fin n → Fin D → ℝ, ENNReal.ofReal (linkProb alpha D t (torusDist (x u) (x v)) * linkProb alpha D s (torusDist (x u) (x z))) ∂uniformPositions n D =
      ENNReal.ofReal (linkMean alpha (2 ^ D * t) * linkMean alpha (2 ^ D * s)) := by
  have hl : ∀ r : ℝ, Measurable fun z : (Fin D → ℝ) × (Fin D → ℝ) => linkProb alpha D r (torusDist z.1 z.2) := fun r => by
    have h3 : Measurable fun z : (Fin D → ℝ) × (Fin D → ℝ) => (r, torusDist z.1 z.2) := measurable_const.prodMk torusDist_measurable
    exact (linkProb_measurable alpha D).comp h3
  have hm : ∀ (r : ℝ) (b : Fin n), Measurable fun x : Fin n → Fin D → ℝ => linkProb alpha D r (torusDist (x u) (x b)) := fun r b => by
    have h3 : Measurable fun x : Fin n → Fin D → ℝ => (x u, x b) := (measurable_pi_apply u).prodMk (measurable_pi_apply b)
    exact (hl r).comp h3
  refine ⟨((hm t v).mul (hm s z)).ennreal_ofReal, ?_⟩
  have hmean : ∀ r : ℝ, 0 < r → ∀ᵐ q ∂unitCube D, ∫⁻ p, ENNReal.ofReal (linkProb alpha D r (torusDist q p)) ∂unitCube D = ENNReal.ofReal (linkMean alpha (2 ^ D * r)) := by
    intro r hr
    filter_upwards [unitCube_ae D] with q hq
    have h3 : Measurable fun p : Fin D → ℝ => linkProb alpha D r (torusDist q p) := by
      have h4 : Measurable fun p : Fin D → ℝ => (q, p) := by fun_prop
      exact (hl r).comp h4
    have hb : ∀ p, 0 ≤ linkProb alpha D r (torusDist q p) ∧ linkProb alpha D r (torusDist q p) ≤ 1 := fun p => linkProb_mem alpha D hr (torusDist_nonneg q p)
    rw [← linkProb_expect ha hD hq hr, ofReal_integral_eq_lintegral_ofReal]
    · refine Integrable.of_bound h3.aestronglyMeasurable 1 (Filter.Eventually.of_forall fun p => ?_)
      rw [Real.norm_eq_abs, abs_of_nonneg (hb p).1]; exact (hb p).2
    · exact Filter.Eventually.of_forall fun p => (hb p).1
  have h := row_prod (unitCube D) u (g := fun b q p => if b = v then ENNReal.ofReal (linkProb alpha D t (torusDist q p)) else
      if b = z then ENNReal.ofReal (linkProb alpha D s (torusDist q p)) else 1)
    (k := fun b => if b = v then ENNReal.ofReal (linkMean alpha (2 ^ D * t)) else if b = z then ENNReal.ofReal (linkMean alpha (2 ^ D * s)) else 1)
    (by
      intro b
      split_ifs
      · exact (hl t).ennreal_ofReal
      · exact (hl s).ennreal_ofReal
      · exact measurable_const)
    (by
      intro b
      split_ifs
      · exact hmean t ht
      · exact hmean s hs
      · filter_upwards with q
        simp)
  have hprod : ∀ A B : ℝ≥0∞, ∏ b, (if u = b then 1 else if b = v then A else if b = z then B else 1) = A * B := by
    intro A B
    have h1 : ∀ b, (if u = b then 1 else if b = v then A else if b = z then B else 1) = (if b = v then A else 1) * (if b = z then B else 1) := by
      intro b
      split_ifs with h1 h2 h3 h4 h5 <;> simp_all
    rw [Finset.prod_congr rfl fun b _ => h1 b, Finset.prod_mul_distrib, Finset.prod_ite_eq' Finset.univ v, Finset.prod_ite_eq' Finset.univ z]
    simp
  rw [hprod] at h
  have hl0 : ∀ r, 0 < r → 0 ≤ linkMean alpha (2 ^ D * r) := by
    intro r hr
    rw [← linkProb_expect ha hD (q := fun _ => 0) (by intro d; norm_num) hr]
    exact integral_nonneg fun p => (linkProb_mem alpha D hr (torusDist_nonneg _ p)).1
  rw [ENNReal.ofReal_mul (hl0 t ht), ← h, uniformPositions]
  refine lintegral_congr fun x => ?_
  rw [ENNReal.ofReal_mul (linkProb_mem alpha D ht (torusDist_nonneg _ _)).1]
  have h1 : ∀ b, (if u = b then 1 else if b = v then ENNReal.ofReal (linkProb alpha D t (torusDist (x u) (x b))) else
      if b = z then ENNReal.ofReal (linkProb alpha D s (torusDist (x u) (x b))) else 1) =
      (if u = b then 1 else if b = v then ENNReal.ofReal (linkProb alpha D t (torusDist (x u) (x v))) else
      if b = z then ENNReal.ofReal (linkProb alpha D s (torusDist (x u) (x z))) else 1) := by
    intro b
    split_ifs with h1 h2 h3
    · rfl
    · rw [h2]
    · rw [h3]
    · rfl
  rw [Finset.prod_congr rfl fun b _ => h1 b, hprod]

theorem linkMean_le_min {alpha : XR} (ha : alpha = .pinf ∨ ∃ a : ℝ, alpha = fin a ∧ 1 < a) {t : ℝ} (ht : 0 < t) :
    linkMean alpha t ≤ alphaFactor alpha * min 1 t := by
  rcases ha with rfl | ⟨a, rfl, ha⟩
  · show min 1 t ≤ 1 * min 1 t
    rw [one_mul]
  · show meanConnection a t ≤ a / (a - 1) * min 1 t
    rw [meanConnection_eq ha.ne']
    exact (probAlpha_bounds ha ht).2

section Clustering
variable {Ω : Type} [MeasurableSpace Ω] {P : Measure Ω} {omp : Omp} {eng : Engine XR} [MeasurableSpace eng.G] {μ : Measure eng.G}
  {σ : ℤ → Ω → eng.G} {device : ℕ → Ω → eng.G} {n : ℕ} {seed : ℤ} {parallel : Bool} {D : ℕ} {w : List ℝ} {pos : Ω → List (List XR)}
  {rng : Rng XR} [MeasurableSpace rng.G] {ν : Measure rng.G}

set_option maxHeartbeats 2000000 in
/-- C102.  `n` positions are drawn by `generatePositions` (ideal engines, independently started), then `generateEdges` is run on weights `w` with
`alpha = infinity` (put `F = 1`) or `alpha = a > 1` (put `F = a/(a-1)`) and ideal random numbers.  The probability that node `u` is connected with both `v` and
`x` is at most `F² min(1, 2^D w_u w_v / W) min(1, 2^D w_u w_x / W)`; if `u` has the smallest weight of the three, the probability that moreover `v` and `x` are
connected is at least `4^-D min(1, 2^D w_u w_v / W) min(1, 2^D w_u w_x / W)`. -/
theorem C102_probabilities (he : IdealEngine eng μ)
    (hs : (0 ≤ seed ∧ seed + nodeThreads omp n parallel ≤ 2147483648 ∧ IndependentStates P μ σ) ∨ (seed < 0 ∧ IndependentStates P μ device))
    (hpos : ∀ ω, GeneratePositions omp (withSeeds eng fun s => σ s ω) (fun k => device k ω) n D seed parallel (pos ω))
    (hr : IdealRng rng ν) (env : Env) (hw : SupportedWeights D w) (hn : w.length = n) {alpha : XR} {F : ℝ}
    (ha : (alpha = .pinf ∧ F = 1) ∨ ∃ a : ℝ, alpha = fin a ∧ 1 < a ∧ F = a / (a - 1)) {u v x : Fin w.length} (huv : u ≠ v) (hux : u ≠ x) (hvx : v ≠ x)
    {m : ℝ} (hm : m = min 1 (2 ^ D * (w[u] * w[v] / w.sum)) * min 1 (2 ^ D * (w[u] * w[x] / w.sum))) :
    upperMean P (fun ω => graphProb env rng ν (xw w) (pos ω) alpha fun es => wedge es u v x) ≤ ENNReal.ofReal (F ^ 2 * m) ∧
    (w[u] ≤ w[v] → w[u] ≤ w[x] →
      ENNReal.ofReal (m / 4 ^ D) ≤ ∫⁻ ω, graphProb env rng ν (xw w) (pos ω) alpha (fun es => triangle es u v x) ∂P) := by
  subst hn
  have ha' : alpha = .pinf ∨ ∃ a : ℝ, alpha = fin a ∧ 1 < a := ha.imp (fun h => h.1) fun ⟨a, h1, h2, _⟩ => ⟨a, h1, h2⟩
  have hF : alphaFactor alpha = F := by
    rcases ha with ⟨rfl, rfl⟩ | ⟨a, rfl, _, rfl⟩ <;> rfl
  have hF1 := alphaFactor_one_le ha'
  rw [hF] at hF1
  obtain ⟨X, hX, hlaw, hXp⟩ := positions_random he hs hpos
  have sup : ∀ ω, SupportedInput D w (List.ofFn (X ω)) := fun ω => hw _ (by simp) (by
    intro p hp
    obtain ⟨i, rfl⟩ := List.mem_ofFn.1 hp
    exact (hXp ω).2 i)
  have s0 : SupportedInput D w (List.replicate w.length fun _ => 0) := hw _ (by simp) (by
    intro p hp d
    rw [List.eq_of_mem_replicate hp]; norm_num)
  have hW : 0 < w.sum := List.sum_pos w s0.wpos (by rintro rfl; exact absurd u.2 (by simp))
  have hw0 : ∀ b : Fin w.length, 0 < w[b.1] := fun b => s0.wpos _ (List.getElem_mem _)
  have hpos' : ∀ b : Fin w.length, 0 < w[u.1] * w[b.1] / w.sum := fun b => div_pos (mul_pos (hw0 u) (hw0 b)) hW
  have h2D : (0 : ℝ) < 2 ^ D := by positivity
  constructor
  · obtain ⟨m1, m2⟩ := two_links (D := D) s0.D1 huv hux hvx ha' (hpos' v) (hpos' x)
    have m1X : Measurable fun ω => (fun y : Fin w.length → Fin D → ℝ => ENNReal.ofReal (linkProb alpha D (w[u.1] * w[v.1] / w.sum) (torusDist (y u) (y v)) *
      linkProb alpha D (w[u.1] * w[x.1] / w.sum) (torusDist (y u) (y x)))) (X ω) := m1.comp hX
    refine (upperMean_le (F := fun ω => (fun y : Fin w.length → Fin D → ℝ => ENNReal.ofReal (linkProb alpha D (w[u.1] * w[v.1] / w.sum) (torusDist (y u) (y v)) *
      linkProb alpha D (w[u.1] * w[x.1] / w.sum) (torusDist (y u) (y x)))) (X ω)) m1X fun ω => ?_).trans ?_
    · rw [(hXp ω).1]
      exact wedge_le (sup ω) ha' env hr huv hux hvx
    · rw [← lintegral_map m1 hX, hlaw, m2]
      refine ENNReal.ofReal_le_ofReal ?_
      have l1 := linkMean_le_min ha' (mul_pos h2D (hpos' v))
      have l2 := linkMean_le_min ha' (mul_pos h2D (hpos' x))
      have n2 : 0 ≤ linkMean alpha (2 ^ D * (w[u.1] * w[x.1] / w.sum)) := by
        rw [← linkProb_expect ha' s0.D1 (q := fun _ => 0) (by intro d; norm_num) (hpos' x)]
        exact integral_nonneg fun p => (linkProb_mem alpha D (hpos' x) (torusDist_nonneg _ p)).1
      rw [hF] at l1 l2
      have p1 : 0 ≤ min 1 (2 ^ D * (w[u.1] * w[v.1] / w.sum)) := le_min zero_le_one (mul_pos h2D (hpos' v)).le
      refine (mul_le_mul l1 l2 n2 (mul_nonneg (by linarith) p1)).trans (le_of_eq ?_)
      rw [hm]
      simp only [Fin.getElem_fin]
      ring
  · intro huv' hux'
    have q1 : 0 < w[u.1] * w[v.1] / w.sum / 2 ^ D := div_pos (hpos' v) h2D
    have q2 : 0 < w[u.1] * w[x.1] / w.sum / 2 ^ D := div_pos (hpos' x) h2D
    obtain ⟨m1, m2⟩ := two_links (D := D) s0.D1 huv hux hvx (Or.inl rfl) q1 q2
    have hle : ∀ ω, ENNReal.ofReal (linkProb .pinf D (w[u.1] * w[v.1] / w.sum / 2 ^ D) (torusDist (X ω u) (X ω v)) *
        linkProb .pinf D (w[u.1] * w[x.1] / w.sum / 2 ^ D) (torusDist (X ω u) (X ω x))) ≤
        graphProb env rng ν (xw w) (pos ω) alpha (fun es => triangle es u v x) := by
      intro ω
      rw [(hXp ω).1]
      show ENNReal.ofReal ((if torusDist (X ω u) (X ω v) ^ D < w[u.1] * w[v.1] / w.sum / 2 ^ D then 1 else 0) *
        (if torusDist (X ω u) (X ω x) ^ D < w[u.1] * w[x.1] / w.sum / 2 ^ D then 1 else 0)) ≤ _
      by_cases k1 : torusDist (X ω u) (X ω v) ^ D < w[u.1] * w[v.1] / w.sum / 2 ^ D
      · by_cases k2 : torusDist (X ω u) (X ω x) ^ D < w[u.1] * w[x.1] / w.sum / 2 ^ D
        · rw [if_pos k1, if_pos k2, one_mul, ENNReal.ofReal_one]
          have hd : ∀ b : Fin w.length, w[u.1] * w[b.1] / w.sum / 2 ^ D ≤ w[u.1] * w[b.1] / w.sum := fun b =>
            div_le_self (hpos' b).le (one_le_pow₀ (by norm_num))
          exact triangle_ge (sup ω) ha' env hr huv hux hvx (k1.trans_le (hd v)) (k2.trans_le (hd x))
            (half_close ((hXp ω).2 u) ((hXp ω).2 v) ((hXp ω).2 x) (hw0 u) huv' hux' hW k1 k2)
        · rw [if_neg k2]; simp
      · rw [if_neg k1]; simp
    refine le_trans ?_ (lintegral_mono hle)
    rw [← lintegral_map (f := fun y : Fin w.length → Fin D → ℝ => ENNReal.ofReal (linkProb .pinf D (w[u.1] * w[v.1] / w.sum / 2 ^ D) (torusDist (y u) (y v)) *
        linkProb .pinf D (w[u.1] * w[x.1] / w.sum / 2 ^ D) (torusDist (y u) (y x)))) m1 hX, hlaw, m2]
    refine ENNReal.ofReal_le_ofReal ?_
    have hmin : ∀ t : ℝ, 0 < t → min 1 (2 ^ D * t) / 2 ^ D ≤ linkMean .pinf (2 ^ D * (t / 2 ^ D)) := by
      intro t ht
      show _ ≤ min 1 _
      have h1 : (1 : ℝ) ≤ 2 ^ D := one_le_pow₀ (by norm_num)
      refine le_min ?_ ?_
      · rw [div_le_one h2D]
        exact (min_le_left _ _).trans h1
      · rw [mul_div_cancel₀ _ h2D.ne', div_le_iff₀ h2D]
        exact (min_le_right _ _).trans (le_of_eq (mul_comm _ _))
    have e : m / 4 ^ D = min 1 (2 ^ D * (w[u.1] * w[v.1] / w.sum)) / 2 ^ D * (min 1 (2 ^ D * (w[u.1] * w[x.1] / w.sum)) / 2 ^ D) := by
      rw [hm, show (4 : ℝ) ^ D = 2 ^ D * 2 ^ D by rw [← mul_pow]; norm_num]
      simp only [Fin.getElem_fin]
      field_simp
    rw [e]
    have p2 : 0 ≤ min 1 (2 ^ D * (w[u.1] * w[x.1] / w.sum)) / 2 ^ D := div_nonneg (le_min zero_le_one (mul_pos h2D (hpos' x)).le) h2D.le
    exact mul_le_mul (hmin _ (hpos' v)) (hmin _ (hpos' x)) p2 (le_min zero_le_one (mul_pos h2D (div_pos (hpos' v) h2D)).le)

/-- C102, the clustering.  Two neighbours `v`, `x` of a node `u` of no larger weight are connected with probability at least `1/(4^D F²)`, independently of the
number of nodes: the probability of the triangle is at least this fraction of the probability of the two edges at `u`. -/
theorem C102_clustering (he : IdealEngine eng μ)
    (hs : (0 ≤ seed ∧ seed + nodeThreads omp n parallel ≤ 2147483648 ∧ IndependentStates P μ σ) ∨ (seed < 0 ∧ IndependentStates P μ device))
    (hpos : ∀ ω, GeneratePositions omp (withSeeds eng fun s => σ s ω) (fun k => device k ω) n D seed parallel (pos ω))
    (hr : IdealRng rng ν) (env : Env) (hw : SupportedWeights D w) (hn : w.length = n) {alpha : XR} {F : ℝ}
    (ha : (alpha = .pinf ∧ F = 1) ∨ ∃ a : ℝ, alpha = fin a ∧ 1 < a ∧ F = a / (a - 1)) {u v x : Fin w.length} (huv : u ≠ v) (hux : u ≠ x) (hvx : v ≠ x)
    (h1 : w[u] ≤ w[v]) (h2 : w[u] ≤ w[x]) :
    upperMean P (fun ω => graphProb env rng ν (xw w) (pos ω) alpha fun es => wedge es u v x) ≤
      ENNReal.ofReal (4 ^ D * F ^ 2) * ∫⁻ ω, graphProb env rng ν (xw w) (pos ω) alpha (fun es => triangle es u v x) ∂P := by
  obtain ⟨k1, k2⟩ := C102_probabilities he hs hpos hr env hw hn ha huv hux hvx rfl
  refine k1.trans (le_trans (le_of_eq ?_) (mul_le_mul le_rfl (k2 h1 h2) bot_le bot_le))
  rw [← ENNReal.ofReal_mul (by positivity)]
  congr 1
  field_simp

end Clustering

/-- C102 at work: 1000 nodes of weight 1 in dimension 1, `alpha = 2`: the neighbours 3 and 500 of node 7 are connected with probability at least 1/16 -/
example (n : ℕ) (hn : n = 1000) : ∃ (P : Measure (ℤ → ℕ → ℝ)) (ν : Measure idealRng.G) (pos : (ℤ → ℕ → ℝ) → List (List XR)),
    IsProbabilityMeasure P ∧
    (∀ ω, GeneratePositions exampleOmp (withSeeds streamEngine fun s => ω s) (fun _ => (fun _ => 0)) n 1 130 true (pos ω)) ∧
    upperMean P (fun ω => graphProb (exampleEnv true) idealRng ν (xw (List.replicate n 1)) (pos ω) (fin 2) fun es => wedge es 7 3 500) ≤
      16 * ∫⁻ ω, graphProb (exampleEnv true) idealRng ν (xw (List.replicate n 1)) (pos ω) (fin 2) (fun es => triangle es 7 3 500) ∂P ∧
    ENNReal.ofReal (1 / 1000000) ≤ ∫⁻ ω, graphProb (exampleEnv true) idealRng ν (xw (List.replicate n 1)) (pos ω) (fin 2) (fun es => triangle es 7 3 500) ∂P := by
  have hnR : (n : ℝ) = 1000 := by rw [hn]; norm_num
  have hsup : SupportedWeights 1 (List.replicate n 1) := by
    intro x hl hx
    have h1 : ∀ y ∈ List.replicate n (1 : ℝ), y = 1 := fun y hy => List.eq_of_mem_replicate hy
    refine ⟨by norm_num, by norm_num, hl, by rw [List.length_replicate]; omega, by rw [List.length_replicate]; omega, ?_, ?_, hx, ?_, ?_⟩
    · intro y hy; rw [h1 y hy]; norm_num
    · intro y hy; rw [h1 y hy]; exact one_lt_pow₀ (by norm_num) (by norm_num)
    · intro y hy; rw [h1 y hy, List.sum_replicate, nsmul_eq_mul, hnR]; norm_num
    · intro y hy z hz; rw [h1 y hy, h1 z hz]; norm_num
  have hthreads : nodeThreads exampleOmp n true ≤ 2147483518 := by rw [hn]; decide
  have hseed : (0 ≤ (130 : ℤ) ∧ (130 : ℤ) + nodeThreads exampleOmp n true ≤ 2147483648 ∧
      IndependentStates (Measure.infinitePi fun _ : ℤ => seqMeasure) seqMeasure fun (s : ℤ) (ω : ℤ → ℕ → ℝ) => ω s) := ⟨by norm_num, by omega, streamStates⟩
  obtain ⟨X, hX, _⟩ := C92_positions (D := 1) (omp := exampleOmp) (device := fun _ _ => (fun _ => 0 : ℕ → ℝ)) (n := n) (parallel := true)
    streamEngine_ideal (Or.inl hseed)
  have hpos := fun ω => (hX ω _).2 rfl
  have hlen : (List.replicate n (1 : ℝ)).length = n := List.length_replicate
  obtain ⟨u, hu⟩ : ∃ u : Fin (List.replicate n (1 : ℝ)).length, u.1 = 7 := ⟨⟨7, by rw [hlen]; omega⟩, rfl⟩
  obtain ⟨v, hv⟩ : ∃ u : Fin (List.replicate n (1 : ℝ)).length, u.1 = 3 := ⟨⟨3, by rw [hlen]; omega⟩, rfl⟩
  obtain ⟨x, hx⟩ : ∃ u : Fin (List.replicate n (1 : ℝ)).length, u.1 = 500 := ⟨⟨500, by rw [hlen]; omega⟩, rfl⟩
  have e : ∀ v : Fin (List.replicate n (1 : ℝ)).length, (List.replicate n (1 : ℝ))[v] = 1 := fun v => by simp
  have huv : u ≠ v := fun h => by rw [h] at hu; omega
  have hux : u ≠ x := fun h => by rw [h] at hu; omega
  have hvx : v ≠ x := fun h => by rw [h] at hv; omega
  have h1 := C102_clustering (w := List.replicate n 1) (alpha := fin 2) (F := 2) streamEngine_ideal (Or.inl hseed) hpos idealRng_ideal (exampleEnv true) hsup hlen
    (Or.inr ⟨2, rfl, by norm_num, by norm_num⟩) huv hux hvx (by rw [e, e]) (by rw [e, e])
  have h2 := (C102_probabilities (w := List.replicate n 1) (alpha := fin 2) (F := 2) streamEngine_ideal (Or.inl hseed) hpos idealRng_ideal (exampleEnv true) hsup hlen
    (Or.inr ⟨2, rfl, by norm_num, by norm_num⟩) huv hux hvx rfl).2 (by rw [e, e]) (by rw [e, e])
  simp only [e] at h2
  rw [hu, hv, hx] at h1 h2
  refine ⟨Measure.infinitePi fun _ : ℤ => seqMeasure, seqMeasure, _, inferInstance, hpos, ?_, ?_⟩
  · refine h1.trans (le_of_eq ?_)
    congr 1
    rw [show (4 : ℝ) ^ 1 * 2 ^ 2 = 16 by norm_num]
    simp
  · refine le_trans (ENNReal.ofReal_le_ofReal ?_) h2
    rw [List.sum_replicate, nsmul_eq_mul, hnR]
    norm_num

end Girgs.Props
