import Verif.Proofs.RowProd
import Verif.Props.Concentration
/-
C98: the degree of a node is concentrated around its expectation, for random positions.
-/
namespace Girgs.Props
open CFloat Spec MeasureTheory Tree Scaling
open XR (fin)
open scoped ENNReal

/-! ### helpers -/

theorem edgesIn_incident (u : ℕ) (es : List (ℕ × ℕ)) : edgesIn (incident u) es = degreeOf u es := by
  unfold edgesIn degreeOf incident
  congr 1
  funext e
  simp

theorem upperMean_le {Ω : Type} [MeasurableSpace Ω] {P : Measure Ω} {f F : Ω → ℝ≥0∞} (hF : Measurable F) (h : ∀ ω, f ω ≤ F ω) : upperMean P f ≤ ∫⁻ ω, F ω ∂P :=
  iInf_le_of_le F (iInf_le_of_le hF (iInf_le_of_le h le_rfl))

theorem lintegral_le_upperMean {Ω : Type} [MeasurableSpace Ω] {P : Measure Ω} (f : Ω → ℝ≥0∞) : ∫⁻ ω, f ω ∂P ≤ upperMean P f :=
  le_iInf fun _ => le_iInf fun _ => le_iInf fun h => lintegral_mono h

/-- exponential bounds for products over the other nodes, for independent uniform positions -/
theorem row_tail {D n : ℕ} {Ω : Type} [MeasurableSpace Ω] {P : Measure Ω} {X : Ω → Fin n → Fin D → ℝ} (hX : Measurable X) (hlaw : P.map X = uniformPositions n D)
    (u : Fin n) {f : Fin n → (Fin D → ℝ) → (Fin D → ℝ) → ℝ} (hm : ∀ v, Measurable fun z : (Fin D → ℝ) × (Fin D → ℝ) => f v z.1 z.2)
    (hb : ∀ v p q, 0 ≤ f v p q ∧ f v p q ≤ 1) {k : Fin n → ℝ}
    (hk : ∀ v, ∀ q : Fin D → ℝ, (∀ d, q d ∈ Set.Ico (0 : ℝ) 1) → ∫ p, f v q p ∂unitCube D = k v) {F : Ω → ℝ≥0∞} {s c : ℝ}
    (hF : ∀ ω, F ω ≤ ENNReal.ofReal (Real.exp (-(s * c))) * ∏ v, if u = v then 1 else ENNReal.ofReal (1 + f v (X ω u) (X ω v) * (Real.exp s - 1))) :
    upperMean P F ≤ ENNReal.ofReal (Real.exp ((Real.exp s - 1) * (∑ v, if u = v then 0 else k v) - s * c)) := by
  have hg : ∀ v, Measurable fun z : (Fin D → ℝ) × (Fin D → ℝ) => ENNReal.ofReal (1 + f v z.1 z.2 * (Real.exp s - 1)) := fun v =>
    (measurable_const.add ((hm v).mul_const _)).ennreal_ofReal
  have hpos : ∀ v p q, 0 ≤ 1 + f v p q * (Real.exp s - 1) := by
    intro v p q
    have := hb v p q
    nlinarith [Real.exp_pos s]
  have hint : ∀ v q, Integrable (fun p => f v q p) (unitCube D) := by
    intro v q
    have h1 : Measurable fun p : Fin D → ℝ => (q, p) := by fun_prop
    refine Integrable.of_bound ((hm v).comp h1).aestronglyMeasurable 1 (Filter.Eventually.of_forall fun p => ?_)
    rw [Real.norm_eq_abs, abs_of_nonneg (hb v q p).1]
    exact (hb v q p).2
  have hk' : ∀ v, ∀ᵐ q ∂unitCube D, ∫⁻ p, ENNReal.ofReal (1 + f v q p * (Real.exp s - 1)) ∂unitCube D = ENNReal.ofReal (1 + k v * (Real.exp s - 1)) := by
    intro v
    filter_upwards [unitCube_ae D] with q hq
    have hi : Integrable (fun p => 1 + f v q p * (Real.exp s - 1)) (unitCube D) := (integrable_const 1).add ((hint v q).mul_const _)
    rw [← ofReal_integral_eq_lintegral_ofReal hi (Filter.Eventually.of_forall fun p => hpos v q p)]
    congr 1
    rw [integral_add (integrable_const 1) ((hint v q).mul_const _), integral_mul_const, hk v q hq]
    simp
  have hfm : Measurable fun x : Fin n → Fin D → ℝ => ∏ v, if u = v then 1 else ENNReal.ofReal (1 + f v (x u) (x v) * (Real.exp s - 1)) := by
    refine Finset.measurable_prod _ fun v _ => ?_
    split_ifs
    · exact measurable_const
    · have h : Measurable fun x : Fin n → Fin D → ℝ => (x u, x v) := by fun_prop
      exact (hg v).comp h
  have hk01 : ∀ v, 0 ≤ k v ∧ k v ≤ 1 := by
    intro v
    have h0 := hk v (fun _ => 0) (by intro d; norm_num)
    rw [← h0]
    refine ⟨integral_nonneg fun p => (hb v _ p).1, (integral_mono (hint v _) (integrable_const 1) fun p => (hb v _ p).2).trans ?_⟩
    simp
  have hfX : Measurable fun ω => (fun x : Fin n → Fin D → ℝ => ∏ v, if u = v then 1 else ENNReal.ofReal (1 + f v (x u) (x v) * (Real.exp s - 1))) (X ω) :=
    hfm.comp hX
  refine (upperMean_le (F := fun ω => ENNReal.ofReal (Real.exp (-(s * c))) *
    (fun x : Fin n → Fin D → ℝ => ∏ v, if u = v then 1 else ENNReal.ofReal (1 + f v (x u) (x v) * (Real.exp s - 1))) (X ω))
    (measurable_const.mul hfX) hF).trans ?_
  rw [lintegral_const_mul _ hfX, ← lintegral_map hfm hX, hlaw, uniformPositions,
    row_prod (unitCube D) u hg hk']
  have e1 : ∀ v, (if u = v then (1 : ℝ≥0∞) else ENNReal.ofReal (1 + k v * (Real.exp s - 1))) =
      ENNReal.ofReal (1 + (if u = v then 0 else k v) * (Real.exp s - 1)) := by
    intro v; split_ifs <;> simp
  rw [Finset.prod_congr rfl fun v _ => e1 v]
  refine (mul_le_mul le_rfl (prod_le_exp _ (fun v => if u = v then 0 else k v) s fun v _ => ?_) bot_le bot_le).trans ?_
  · beta_reduce
    split_ifs
    · simp
    · have := hk01 v
      nlinarith [Real.exp_pos s]
  · rw [← ENNReal.ofReal_mul (Real.exp_pos _).le, ← Real.exp_add]
    exact ENNReal.ofReal_le_ofReal (Real.exp_le_exp.2 (by linarith))

section Positions
variable {Ω : Type} [MeasurableSpace Ω] {P : Measure Ω} {omp : Omp} {eng : Engine XR} [MeasurableSpace eng.G] {μ : Measure eng.G}
  {σ : ℤ → Ω → eng.G} {device : ℕ → Ω → eng.G} {n : ℕ} {seed : ℤ} {parallel : Bool} {D : ℕ} {w : List ℝ} {pos : Ω → List (List XR)}
  {rng : Rng XR} [MeasurableSpace rng.G] {ν : Measure rng.G}

/-- C98, `alpha = infinity`.  `n` positions are drawn by `generatePositions` (ideal engines, independently started), then `generateEdges` is run on weights `w`
(ideal random numbers).  The degree of node `u` exceeds its expectation `mean`, the sum over the other nodes `v` of `min(1, 2^D w_u w_v / W)`, by `t` with
probability at most `exp(-t²/(2(mean + t/3)))`, and falls short of it by `t` with probability at most `exp(-t²/(2 mean))`. -/
theorem C98_threshold (he : IdealEngine eng μ)
    (hs : (0 ≤ seed ∧ seed + nodeThreads omp n parallel ≤ 2147483648 ∧ IndependentStates P μ σ) ∨ (seed < 0 ∧ IndependentStates P μ device))
    (hpos : ∀ ω, GeneratePositions omp (withSeeds eng fun s => σ s ω) (fun k => device k ω) n D seed parallel (pos ω))
    (hr : IdealRng rng ν) (env : Env) (hw : SupportedWeights D w) (hn : w.length = n) (u : Fin w.length)
    {mean t : ℝ} (hmean : mean = ∑ v : Fin w.length, if u = v then 0 else min 1 (2 ^ D * (w[u] * w[v] / w.sum))) (ht : 0 ≤ t) :
    upperMean P (fun ω => edgesProb env rng ν (xw w) (pos ω) .pinf (incident u) fun k => mean + t ≤ k) ≤
      ENNReal.ofReal (Real.exp (-(t ^ 2 / (2 * (mean + t / 3))))) ∧
    upperMean P (fun ω => edgesProb env rng ν (xw w) (pos ω) .pinf (incident u) fun k => (k : ℝ) ≤ mean - t) ≤
      ENNReal.ofReal (Real.exp (-(t ^ 2 / (2 * mean)))) := by
  classical
  subst hn
  have hprob := hr.prob
  obtain ⟨X, hX, hlaw, hXp⟩ := positions_random he hs hpos
  have sup : ∀ ω, SupportedInput D w (List.ofFn (X ω)) := fun ω => hw _ (by simp) (by
    intro p hp
    obtain ⟨i, rfl⟩ := List.mem_ofFn.1 hp
    exact (hXp ω).2 i)
  have s0 : SupportedInput D w (List.replicate w.length fun _ => 0) := hw _ (by simp) (by
    intro p hp d
    rw [List.eq_of_mem_replicate hp]; norm_num)
  have hpos' : ∀ v : Fin w.length, 0 < w[u.1] * w[v.1] / w.sum := fun v =>
    div_pos (mul_pos (s0.wpos _ (List.getElem_mem _)) (s0.wpos _ (List.getElem_mem _)))
      (List.sum_pos w s0.wpos (by rintro rfl; exact absurd u.2 (by simp)))
  have hf : ∀ (x : Fin w.length → Fin D → ℝ) (v : Fin w.length), ThresholdRule w (List.ofFn x) u v ↔
      torusDist (x u) (x v) ^ D < w[u.1] * w[v.1] / w.sum := by
    intro x v
    unfold ThresholdRule
    constructor
    · rintro ⟨a, b, p, q, h1, h2, h3, h4, h5⟩
      rw [List.getElem?_eq_getElem u.2] at h1
      rw [List.getElem?_eq_getElem v.2] at h2
      rw [List.getElem?_eq_getElem (by simp)] at h3 h4
      simp only [List.getElem_ofFn, Option.some.injEq] at h1 h2 h3 h4
      subst h1 h2 h3 h4
      exact h5
    · intro h
      refine ⟨w[u.1], w[v.1], x u, x v, List.getElem?_eq_getElem u.2, List.getElem?_eq_getElem v.2, ?_, ?_, h⟩ <;>
        (rw [List.getElem?_eq_getElem (by simp)]; simp)
  set f : Fin w.length → (Fin D → ℝ) → (Fin D → ℝ) → ℝ := fun v q p => if torusDist q p ^ D < w[u.1] * w[v.1] / w.sum then 1 else 0 with hfd
  have main : ∀ (s c : ℝ) (Q : ℕ → Prop), (∀ N : ℕ, Q N → s * c ≤ s * N) →
      upperMean P (fun ω => edgesProb env rng ν (xw w) (pos ω) .pinf (incident u) Q) ≤ ENNReal.ofReal (Real.exp ((Real.exp s - 1) * mean - s * c)) := by
    intro s c Q hQ
    rw [hmean]
    refine row_tail hX hlaw u (f := f) (k := fun v => min 1 (2 ^ D * (w[u] * w[v] / w.sum))) ?_ ?_ ?_ ?_
    · intro v
      exact Measurable.ite (measurableSet_lt (torusDist_measurable.pow_const D) measurable_const) measurable_const measurable_const
    · intro v p q
      simp only [hfd]
      split_ifs <;> norm_num
    · intro v q hq
      have := threshold_expect s0.D1 hq (hpos' v)
      refine Eq.trans ?_ this
      refine integral_congr_ae (Filter.Eventually.of_forall fun p => ?_)
      simp only [hfd, Set.indicator_apply, Set.mem_setOf_eq, torusDist_comm q p]
    · intro ω
      have hlen : ∀ g : Fin env.threads → rng.G, ∀ out notice, GenerateEdges env rng (gensOf env.threads_pos g) (xw w) (pos ω) .pinf out notice →
          edgesIn (incident u) out = ∑ v : Fin w.length, if u.1 = v.1 then 0 else if ThresholdRule w (List.ofFn (X ω)) u v then 1 else 0 := by
        intro g out notice h
        rw [(hXp ω).1] at h
        rw [edgesIn_incident]
        exact degreeOf_graph u.2 (C18_threshold_exact (sup ω) env rng hr.bounded _ out notice h).1
      set d : ℕ := ∑ v : Fin w.length, if u.1 = v.1 then 0 else if ThresholdRule w (List.ofFn (X ω)) u v then 1 else 0 with hd
      have e1 : ∏ v : Fin w.length, (if u = v then 1 else ENNReal.ofReal (1 + f v (X ω u) (X ω v) * (Real.exp s - 1))) = ENNReal.ofReal (Real.exp (s * d)) := by
        have e2 : ∀ v : Fin w.length, (if u = v then 1 else ENNReal.ofReal (1 + f v (X ω u) (X ω v) * (Real.exp s - 1))) =
            ENNReal.ofReal (Real.exp (s * ((if u.1 = v.1 then 0 else if ThresholdRule w (List.ofFn (X ω)) u v then 1 else 0 : ℕ) : ℝ))) := by
          intro v
          simp only [Fin.ext_iff, hf, hfd]
          split_ifs <;> simp
        rw [Finset.prod_congr rfl fun v _ => e2 v, ← ENNReal.ofReal_prod_of_nonneg fun v _ => (Real.exp_pos _).le, ← Real.exp_sum, ← Finset.mul_sum, hd,
          Nat.cast_sum]
      rw [e1, ← ENNReal.ofReal_mul (Real.exp_pos _).le, ← Real.exp_add]
      by_cases hQd : Q d
      · refine (prob_le_one (μ := Measure.pi fun _ : Fin env.threads => ν)).trans ?_
        rw [ENNReal.one_le_ofReal]
        apply Real.one_le_exp
        have := hQ d hQd
        linarith
      · have : {g | ∃ out notice, GenerateEdges env rng (gensOf env.threads_pos g) (xw w) (pos ω) .pinf out notice ∧ Q (edgesIn (incident u) out)} = ∅ := by
          ext g
          simp only [Set.mem_setOf_eq, Set.mem_empty_iff_false, iff_false]
          rintro ⟨out, notice, h, hq⟩
          rw [hlen g out notice h] at hq
          exact hQd hq
        unfold edgesProb
        rw [this, measure_empty]
        exact bot_le
  have hM : 0 ≤ mean := by
    rw [hmean]
    refine Finset.sum_nonneg fun v _ => ?_
    split_ifs
    · exact le_rfl
    · have := hpos' v
      exact le_min zero_le_one (mul_nonneg (by positivity) this.le)
  constructor
  · obtain ⟨l, hl, hb⟩ := chernoff_up hM ht
    refine (main l (mean + t) _ fun N hN => mul_le_mul_of_nonneg_left hN hl).trans ?_
    exact ENNReal.ofReal_le_ofReal (Real.exp_le_exp.2 hb)
  · obtain ⟨l, hl, hb⟩ := chernoff_down hM ht
    refine (main (-l) (mean - t) _ fun N hN => by nlinarith).trans ?_
    exact ENNReal.ofReal_le_ofReal (Real.exp_le_exp.2 (by linarith))

open Classical in
/-- exponential tail bounds for the degree of a node -/
theorem girg_tail_node {w : List ℝ} {x : List (Fin D → ℝ)} (s : SupportedInput D w x) {a : ℝ} (ha : 0 < a) :
    ∃ pr : ℕ → ℕ → ℝ,
      (∀ u v, u < w.length → v < w.length → u ≠ v → pr u v = girgProb w x a u v ∨ (pr u v = 0 ∧ girgProb w x a u v < 1 / 1000000)) ∧
      ∀ (env : Env) (rng : Rng XR) [MeasurableSpace rng.G] (μ : Measure rng.G), IdealRng rng μ → ∀ u : Fin w.length,
        ∀ (l k : ℝ) (Q : ℕ → Prop), (∀ N : ℕ, Q N → l * k ≤ l * N) →
        edgesProb env rng μ (xw w) (xl x) (fin a) (incident u) Q ≤
          ENNReal.ofReal (Real.exp (-(l * k))) * ∏ v : Fin w.length, if u = v then 1 else ENNReal.ofReal (1 + pr u v * (Real.exp l - 1)) := by
  obtain ⟨pr, h1, h2, h3⟩ := girg_tail s ha
  refine ⟨pr, h2, fun env rng _ μ hid u l k Q hQ => ?_⟩
  refine (h3 env rng μ hid (incident u) (fun _ _ h => h.symm) l k Q hQ).trans (le_of_eq ?_)
  congr 1
  have h := prod_upairs_node u.2 (f := fun c d => ENNReal.ofReal (1 + pr c d * (Real.exp l - 1))) (fun c d => by rw [h1])
  simp only [Fin.ext_iff]
  rw [← h]
  refine Finset.prod_congr rfl fun e _ => ?_
  unfold incident
  congr 1

set_option maxHeartbeats 1000000 in
/-- C98, finite `alpha = a > 0`, same setting.  `mean` is the sum of the mean connection probabilities of `u` with the other nodes.  The degree of node `u`
exceeds `mean + t` with probability at most `exp(-t²/(2(mean + t/3)))`.  It falls below `mean - 10^-6*(n-1) - t` with probability at most
`exp(-t²/(2 mean))`, for `a > 1` also below `(1 - a/(a-1) * 10^(-6(1-1/a))) mean - t`. -/
theorem C98_alpha (he : IdealEngine eng μ)
    (hs : (0 ≤ seed ∧ seed + nodeThreads omp n parallel ≤ 2147483648 ∧ IndependentStates P μ σ) ∨ (seed < 0 ∧ IndependentStates P μ device))
    (hpos : ∀ ω, GeneratePositions omp (withSeeds eng fun s => σ s ω) (fun k => device k ω) n D seed parallel (pos ω))
    (hr : IdealRng rng ν) (env : Env) (hw : SupportedWeights D w) (hn : w.length = n) {a : ℝ} (ha : 0 < a) (u : Fin w.length)
    {mean t : ℝ} (hmean : mean = ∑ v : Fin w.length, if u = v then 0 else meanConnection a (2 ^ D * (w[u] * w[v] / w.sum))) (ht : 0 ≤ t) :
    upperMean P (fun ω => edgesProb env rng ν (xw w) (pos ω) (fin a) (incident u) fun k => mean + t ≤ k) ≤
      ENNReal.ofReal (Real.exp (-(t ^ 2 / (2 * (mean + t / 3))))) ∧
    upperMean P (fun ω => edgesProb env rng ν (xw w) (pos ω) (fin a) (incident u) fun k => (k : ℝ) ≤ mean - (n - 1) / 1000000 - t) ≤
      ENNReal.ofReal (Real.exp (-(t ^ 2 / (2 * mean)))) ∧
    (1 < a → upperMean P (fun ω => edgesProb env rng ν (xw w) (pos ω) (fin a) (incident u) fun k =>
        (k : ℝ) ≤ (1 - a / (a - 1) * (1 / 1000000 : ℝ) ^ (1 - 1 / a)) * mean - t) ≤
      ENNReal.ofReal (Real.exp (-(t ^ 2 / (2 * mean))))) := by
  subst hn
  obtain ⟨X, hX, hlaw, hXp⟩ := positions_random he hs hpos
  have sup : ∀ ω, SupportedInput D w (List.ofFn (X ω)) := fun ω => hw _ (by simp) (by
    intro p hp
    obtain ⟨i, rfl⟩ := List.mem_ofFn.1 hp
    exact (hXp ω).2 i)
  have s0 : SupportedInput D w (List.replicate w.length fun _ => 0) := hw _ (by simp) (by
    intro p hp d
    rw [List.eq_of_mem_replicate hp]; norm_num)
  have hpos' : ∀ v : Fin w.length, 0 < w[u.1] * w[v.1] / w.sum := fun v =>
    div_pos (mul_pos (s0.wpos _ (List.getElem_mem _)) (s0.wpos _ (List.getElem_mem _)))
      (List.sum_pos w s0.wpos (by rintro rfl; exact absurd u.2 (by simp)))
  obtain ⟨ε, hε⟩ : ∃ ε : ℝ, ε = 1 / 1000000 := ⟨_, rfl⟩
  have hε0 : 0 < ε := by rw [hε]; norm_num
  have hε1 : ε ≤ 1 := by rw [hε]; norm_num
  have hmem := fun (v : Fin w.length) (p q : Fin D → ℝ) => connProb_mem (D := D) a _ _ (hpos' v) (torusDist_nonneg p q)
  have hk : 0 < ε ^ (-(1 / a)) := Real.rpow_pos_of_pos hε0 _
  set f : Fin w.length → (Fin D → ℝ) → (Fin D → ℝ) → ℝ := fun v q p => connProb D a (w[u.1] * w[v.1] / w.sum) (torusDist q p) with hfd
  have hfm : ∀ v, Measurable fun z : (Fin D → ℝ) × (Fin D → ℝ) => f v z.1 z.2 := fun v => (connProb_measurable D a _).comp torusDist_measurable
  have hfk : ∀ v, ∀ q : Fin D → ℝ, (∀ d, q d ∈ Set.Ico (0 : ℝ) 1) → ∫ p, f v q p ∂unitCube D = meanConnection a (2 ^ D * (w[u] * w[v] / w.sum)) := by
    intro v q hq
    have := mean_expect s0.D1 hq ha (hpos' v)
    refine Eq.trans ?_ this
    simp only [hfd, torusDist_comm q]
  set loss : Fin w.length → ℝ := fun v => ε * meanConnection a (2 ^ D * (w[u.1] * w[v.1] / w.sum * ε ^ (-(1 / a)))) with hloss
  have hjk : ∀ v, ∀ q : Fin D → ℝ, (∀ d, q d ∈ Set.Ico (0 : ℝ) 1) → ∫ p, min (f v q p) ε ∂unitCube D = loss v := by
    intro v q hq
    have := mean_expect s0.D1 hq ha (mul_pos (hpos' v) hk)
    simp only [hfd, torusDist_comm q, min_connProb ha (hpos' v) (torusDist_nonneg _ q) hε0 hε1]
    rw [integral_const_mul, this]
  have hq1 : ∀ v q p, 0 ≤ f v q p - min (f v q p) ε ∧ f v q p - min (f v q p) ε ≤ 1 := by
    intro v q p
    obtain ⟨h1, h2⟩ := hmem v q p
    have := le_min h1 hε0.le
    have h3 := min_le_left (f v q p) ε
    simp only [hfd] at *
    constructor <;> linarith
  have hint : ∀ (h : (Fin D → ℝ) → ℝ), Measurable h → (∀ p, 0 ≤ h p ∧ h p ≤ 1) → Integrable h (unitCube D) := by
    intro h hm hb
    refine Integrable.of_bound hm.aestronglyMeasurable 1 (Filter.Eventually.of_forall fun p => ?_)
    rw [Real.norm_eq_abs, abs_of_nonneg (hb p).1]
    exact (hb p).2
  have hslice : ∀ v (q : Fin D → ℝ), Measurable fun p => f v q p := by
    intro v q
    have h1 : Measurable fun p : Fin D → ℝ => (q, p) := by fun_prop
    exact (hfm v).comp h1
  have hpr : ∀ ω, ∃ pr : ℕ → ℕ → ℝ, (∀ v : Fin w.length, u ≠ v → f v (X ω u) (X ω v) - min (f v (X ω u) (X ω v)) ε ≤ pr u v ∧ pr u v ≤ f v (X ω u) (X ω v)) ∧
      ∀ (l k : ℝ) (Q : ℕ → Prop), (∀ N : ℕ, Q N → l * k ≤ l * N) → edgesProb env rng ν (xw w) (pos ω) (fin a) (incident u) Q ≤
          ENNReal.ofReal (Real.exp (-(l * k))) * ∏ v : Fin w.length, if u = v then 1 else ENNReal.ofReal (1 + pr u v * (Real.exp l - 1)) := by
    intro ω
    obtain ⟨pr, h2, h3⟩ := girg_tail_node (sup ω) ha
    refine ⟨pr, fun v huv => ?_, ?_⟩
    · have hg : girgProb w (List.ofFn (X ω)) a u v = f v (X ω u) (X ω v) := girgProb_ofFn rfl _ _ _ _
      obtain ⟨h5, _⟩ := hmem v (X ω u) (X ω v)
      have h6 := le_min h5 hε0.le
      rcases h2 u v u.2 v.2 (fun h => huv (Fin.ext h)) with h4 | h4
      · rw [h4, hg]; simp only [hfd] at *; exact ⟨by linarith, le_rfl⟩
      · rw [hg] at h4
        rw [h4.1, min_eq_left (by rw [hε]; exact h4.2.le)]
        exact ⟨by simp, h5⟩
    · rw [(hXp ω).1]
      exact h3 env rng ν hr u
  have up : ∀ (s c : ℝ) (Q : ℕ → Prop), 0 ≤ s → (∀ N : ℕ, Q N → s * c ≤ s * N) →
      upperMean P (fun ω => edgesProb env rng ν (xw w) (pos ω) (fin a) (incident u) Q) ≤ ENNReal.ofReal (Real.exp ((Real.exp s - 1) * mean - s * c)) := by
    intro s c Q hs0 hQ
    rw [hmean]
    refine row_tail hX hlaw u (f := f) hfm (fun v p q => hmem v p q) hfk fun ω => ?_
    obtain ⟨pr, h1, h2⟩ := hpr ω
    refine (h2 s c Q hQ).trans (mul_le_mul le_rfl (Finset.prod_le_prod' fun v _ => ?_) bot_le bot_le)
    split_ifs with huv
    · exact le_rfl
    · have := h1 v huv
      have := Real.one_le_exp hs0
      exact ENNReal.ofReal_le_ofReal (by nlinarith)
  have down : ∀ (s c : ℝ) (Q : ℕ → Prop), s ≤ 0 → (∀ N : ℕ, Q N → s * c ≤ s * N) →
      upperMean P (fun ω => edgesProb env rng ν (xw w) (pos ω) (fin a) (incident u) Q) ≤
        ENNReal.ofReal (Real.exp ((Real.exp s - 1) * (∑ v, if u = v then 0 else (meanConnection a (2 ^ D * (w[u] * w[v] / w.sum)) - loss v)) - s * c)) := by
    intro s c Q hs0 hQ
    refine row_tail hX hlaw u (f := fun v q p => f v q p - min (f v q p) ε) (fun v => (hfm v).sub ((hfm v).min measurable_const)) hq1 ?_ fun ω => ?_
    · intro v q hq
      rw [integral_sub (hint _ (hslice v q) fun p => hmem v q p) (hint _ ((hslice v q).min measurable_const) fun p =>
        ⟨le_min (hmem v q p).1 hε0.le, (min_le_right _ _).trans hε1⟩), hfk v q hq, hjk v q hq]
    · obtain ⟨pr, h1, h2⟩ := hpr ω
      refine (h2 s c Q hQ).trans (mul_le_mul le_rfl (Finset.prod_le_prod' fun v _ => ?_) bot_le bot_le)
      split_ifs with huv
      · exact le_rfl
      · have := h1 v huv
        have : Real.exp s ≤ 1 := Real.exp_le_one_iff.2 hs0
        exact ENNReal.ofReal_le_ofReal (by nlinarith)
  have hM : 0 ≤ mean := by
    rw [hmean]
    refine Finset.sum_nonneg fun v _ => ?_
    split_ifs
    · exact le_rfl
    · have := hpos' v
      exact (meanConnection_mem ha (mul_pos (by positivity) this)).1
  set total : ℝ := ∑ v, if u = v then 0 else loss v with htotal
  have hsub : (∑ v, if u = v then 0 else (meanConnection a (2 ^ D * (w[u] * w[v] / w.sum)) - loss v)) = mean - total := by
    rw [hmean, htotal, ← Finset.sum_sub_distrib]
    refine Finset.sum_congr rfl fun v _ => ?_
    split_ifs <;> ring
  have hl01 : ∀ v, 0 ≤ loss v ∧ loss v ≤ ε := by
    intro v
    have := meanConnection_mem ha (show 0 < 2 ^ D * (w[u.1] * w[v.1] / w.sum * ε ^ (-(1 / a))) by have := hpos' v; positivity)
    simp only [hloss]
    constructor <;> nlinarith
  have htot0 : 0 ≤ total := Finset.sum_nonneg fun v _ => by
    split_ifs
    · exact le_rfl
    · exact (hl01 v).1
  have lower : ∀ m0, m0 ≤ mean - total → upperMean P (fun ω => edgesProb env rng ν (xw w) (pos ω) (fin a) (incident u) fun k => (k : ℝ) ≤ m0 - t) ≤
      ENNReal.ofReal (Real.exp (-(t ^ 2 / (2 * mean)))) := by
    intro m0 hm0
    obtain ⟨l, hl, hb⟩ := chernoff_down_le hM (show mean - total ≤ mean by linarith) ht
    refine (down (-l) (m0 - t) _ (by linarith) fun N hN => by nlinarith).trans ?_
    rw [hsub]
    refine ENNReal.ofReal_le_ofReal (Real.exp_le_exp.2 ?_)
    have := mul_le_mul_of_nonneg_left hm0 hl
    linarith
  refine ⟨?_, lower _ ?_, fun ha1 => lower _ ?_⟩
  · obtain ⟨l, hl, hb⟩ := chernoff_up hM ht
    refine (up l (mean + t) _ hl fun N hN => mul_le_mul_of_nonneg_left hN hl).trans ?_
    exact ENNReal.ofReal_le_ofReal (Real.exp_le_exp.2 hb)
  · have h1 : total ≤ ∑ v : Fin w.length, (if u = v then 0 else ε) := by
      refine Finset.sum_le_sum fun v _ => ?_
      split_ifs
      · exact le_rfl
      · exact (hl01 v).2
    have h2 : ∑ v : Fin w.length, (if u = v then 0 else ε) = (w.length - 1) * ε := by
      have h1 : ∀ v : Fin w.length, (if u = v then 0 else ε) = ε - if u = v then ε else 0 := by
        intro v; split_ifs <;> ring
      rw [Finset.sum_congr rfl fun v _ => h1 v, Finset.sum_sub_distrib, Finset.sum_ite_eq]
      simp; ring
    rw [h2, hε] at h1
    linarith
  · have h1 : total ≤ a / (a - 1) * ε ^ (1 - 1 / a) * mean := by
      rw [htotal, hmean, Finset.mul_sum]
      refine Finset.sum_le_sum fun v _ => ?_
      split_ifs
      · simp
      · simp only [hloss]
        rw [meanConnection_eq ha1.ne', meanConnection_eq ha1.ne']; exact small_part ha1 (hpos' v) hε0 hε1
    rw [← hε]
    linarith

end Positions

theorem edgesProb_mono {env : Env} {rng : Rng XR} [MeasurableSpace rng.G] {μ : Measure rng.G} {w : List XR} {x : List (List XR)} {a : XR} {A : ℕ → ℕ → Prop}
    {Q Q' : ℕ → Prop} (h : ∀ k, Q k → Q' k) : edgesProb env rng μ w x a A Q ≤ edgesProb env rng μ w x a A Q' :=
  measure_mono fun _ ⟨out, notice, h1, h2⟩ => ⟨out, notice, h1, h _ h2⟩

theorem upperMean_mono {Ω : Type} [MeasurableSpace Ω] {P : Measure Ω} {f g : Ω → ℝ≥0∞} (h : ∀ ω, f ω ≤ g ω) : upperMean P f ≤ upperMean P g :=
  le_iInf fun F => le_iInf fun hF => le_iInf fun hgF => iInf_le_of_le F (iInf_le_of_le hF (iInf_le_of_le (fun ω => (h ω).trans (hgF ω)) le_rfl))

/-- C98 at work: 1000 nodes of weight 1 in dimension 5 and `alpha = infinity`, ideal engines.  The expected degree is 31.968; a given node has degree 64 or more
with probability at most `exp(-11)`, and is isolated with probability at most `exp(-15)`. -/
example (n : ℕ) (hn : n = 1000) : ∃ (P : Measure (ℤ → ℕ → ℝ)) (ν : Measure idealRng.G) (pos : (ℤ → ℕ → ℝ) → List (List XR)),
    IsProbabilityMeasure P ∧
    (∀ ω, GeneratePositions exampleOmp (withSeeds streamEngine fun s => ω s) (fun _ => (fun _ => 0)) n 5 130 true (pos ω)) ∧
    upperMean P (fun ω => edgesProb (exampleEnv true) idealRng ν (xw (List.replicate n 1)) (pos ω) .pinf (incident 7) fun k => 64 ≤ k) ≤
      ENNReal.ofReal (Real.exp (-11)) ∧
    upperMean P (fun ω => edgesProb (exampleEnv true) idealRng ν (xw (List.replicate n 1)) (pos ω) .pinf (incident 7) fun k => k = 0) ≤
      ENNReal.ofReal (Real.exp (-15)) := by
  have hnR : (n : ℝ) = 1000 := by rw [hn]; norm_num
  have hsup : SupportedWeights 5 (List.replicate n 1) := by
    intro x hl hx
    have h1 : ∀ y ∈ List.replicate n (1 : ℝ), y = 1 := fun y hy => List.eq_of_mem_replicate hy
    refine ⟨by norm_num, by norm_num, hl, by rw [List.length_replicate]; omega, by rw [List.length_replicate]; omega, ?_, ?_, hx, ?_, ?_⟩
    · intro y hy; rw [h1 y hy]; norm_num
    · intro y hy; rw [h1 y hy]; exact one_lt_pow₀ (by norm_num) (by norm_num)
    · intro y hy; rw [h1 y hy, List.sum_replicate, nsmul_eq_mul, hnR]; norm_num
    · intro y hy z hz; rw [h1 y hy, h1 z hz]; norm_num
  have hthreads : nodeThreads exampleOmp n true ≤ 2147483518 := by rw [hn]; decide
  have hseed : (0 ≤ (130 : ℤ) ∧ (130 : ℤ) + nodeThreads exampleOmp n true ≤ 2147483648 ∧
      IndependentStates (Measure.infinitePi fun _ : ℤ => seqMeasure) seqMeasure fun (s : ℤ) (ω : ℤ → ℕ → ℝ) => ω s) := ⟨by norm_num, by omega, streamStates⟩
  obtain ⟨X, hX, _⟩ := C92_positions (D := 5) (omp := exampleOmp) (device := fun _ _ => (fun _ => 0 : ℕ → ℝ)) (n := n) (parallel := true)
    streamEngine_ideal (Or.inl hseed)
  have hpos := fun ω => (hX ω _).2 rfl
  have hlen : (List.replicate n (1 : ℝ)).length = n := List.length_replicate
  obtain ⟨u, hu⟩ : ∃ u : Fin (List.replicate n (1 : ℝ)).length, u.1 = 7 := ⟨⟨7, by rw [hlen]; omega⟩, rfl⟩
  have hmean : (31.968 : ℝ) = ∑ v : Fin (List.replicate n (1 : ℝ)).length, if u = v then 0 else
      min 1 (2 ^ 5 * ((List.replicate n (1 : ℝ))[u] * (List.replicate n (1 : ℝ))[v] / (List.replicate n (1 : ℝ)).sum)) := by
    have e : ∀ v : Fin (List.replicate n (1 : ℝ)).length, (List.replicate n (1 : ℝ))[v] = 1 := fun v => by simp
    have e2 : min (1 : ℝ) (2 ^ 5 * (1 * 1 / (List.replicate n (1 : ℝ)).sum)) = 0.032 := by
      rw [List.sum_replicate, nsmul_eq_mul, hnR]; norm_num
    simp only [e, e2]
    rw [Finset.sum_ite, Finset.sum_const_zero, zero_add, Finset.sum_const, Finset.filter_ne, Finset.card_erase_of_mem (Finset.mem_univ _), Finset.card_univ,
      Fintype.card_fin, hlen, nsmul_eq_mul, Nat.cast_sub (by omega), hnR]
    norm_num
  obtain ⟨h1, h2⟩ := C98_threshold (w := List.replicate n 1) streamEngine_ideal (Or.inl hseed) hpos idealRng_ideal (exampleEnv true) hsup hlen
      u hmean (t := 31.968) (by norm_num)
  rw [hu] at h1 h2
  refine ⟨Measure.infinitePi fun _ : ℤ => seqMeasure, seqMeasure, _, inferInstance, hpos, ?_, ?_⟩
  · refine (upperMean_mono fun ω => edgesProb_mono fun k hk => ?_).trans (h1.trans (ENNReal.ofReal_le_ofReal (Real.exp_le_exp.2 (by norm_num))))
    have : (64 : ℝ) ≤ k := by exact_mod_cast hk
    norm_num
    linarith
  · refine (upperMean_mono fun ω => edgesProb_mono fun k hk => ?_).trans (h2.trans (ENNReal.ofReal_le_ofReal (Real.exp_le_exp.2 (by norm_num))))
    simp only [hk]
    norm_num

end Girgs.Props
