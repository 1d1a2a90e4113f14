import Verif.Proofs.PowerLaw
import Verif.Props.DegreeConcentration
/-
C100: the degrees of generated GIRGs follow a power law.
-/
namespace Girgs.Props
open CFloat Spec MeasureTheory Tree Scaling PowerLaw ProbabilityTheory
open XR (fin)
open scoped ENNReal

/-! ### the connection probability -/

/-- the documented connection probability as a function of `t = w_u w_v / W` and the distance `r` -/
noncomputable def linkProb (alpha : XR) (D : ℕ) (t r : ℝ) : ℝ :=
  match alpha with
  | fin a => connProb D a t r
  | _ => if r ^ D < t then 1 else 0

/-- its mean, as a function of `2^D t` -/
noncomputable def linkMean (alpha : XR) (t : ℝ) : ℝ :=
  match alpha with
  | fin a => meanConnection a t
  | _ => min 1 t

theorem linkProb_measurable (alpha : XR) (D : ℕ) : Measurable fun z : ℝ × ℝ => linkProb alpha D z.1 z.2 := by
  unfold linkProb
  have h : Measurable fun z : ℝ × ℝ => if z.2 ^ D < z.1 then (1 : ℝ) else 0 :=
    Measurable.ite (measurableSet_lt (measurable_snd.pow_const D) measurable_fst) measurable_const measurable_const
  split
  · unfold connProb
    refine Measurable.ite (measurable_snd (measurableSet_singleton 0)) measurable_const ?_
    fun_prop
  · exact h

theorem linkProb_mem (alpha : XR) (D : ℕ) {t r : ℝ} (ht : 0 < t) (hr : 0 ≤ r) : 0 ≤ linkProb alpha D t r ∧ linkProb alpha D t r ≤ 1 := by
  unfold linkProb
  split
  · exact connProb_mem _ _ _ ht hr
  · split_ifs <;> norm_num

theorem linkProb_mono {alpha : XR} (ha : alpha = .pinf ∨ ∃ a : ℝ, alpha = fin a ∧ 1 < a) (D : ℕ) {t t' r : ℝ} (ht : 0 < t) (h : t ≤ t') (hr : 0 ≤ r) :
    linkProb alpha D t r ≤ linkProb alpha D t' r := by
  rcases ha with rfl | ⟨a, rfl, ha⟩
  · show (if r ^ D < t then (1 : ℝ) else 0) ≤ if r ^ D < t' then 1 else 0
    split_ifs with h1 h2
    · exact le_rfl
    · exact absurd (h1.trans_le h) h2
    · exact zero_le_one
    · exact le_rfl
  · show connProb D a t r ≤ connProb D a t' r
    unfold connProb
    split_ifs with h0
    · exact le_rfl
    · refine min_le_min le_rfl (Real.rpow_le_rpow (by positivity) ?_ (by linarith))
      exact div_le_div_of_nonneg_right h (by positivity)

theorem linkProb_expect {alpha : XR} (ha : alpha = .pinf ∨ ∃ a : ℝ, alpha = fin a ∧ 1 < a) {D : ℕ} (hD : 1 ≤ D) {q : Fin D → ℝ}
    (hq : ∀ d, q d ∈ Set.Ico (0 : ℝ) 1) {t : ℝ} (ht : 0 < t) : ∫ p, linkProb alpha D t (torusDist q p) ∂unitCube D = linkMean alpha (2 ^ D * t) := by
  rcases ha with rfl | ⟨a, rfl, ha⟩
  · have := threshold_expect hD hq ht
    refine Eq.trans ?_ this
    refine integral_congr_ae (Filter.Eventually.of_forall fun p => ?_)
    simp only [linkProb, Set.indicator_apply, Set.mem_setOf_eq, torusDist_comm q p]
  · have := mean_expect hD hq (show 0 < a by linarith) ht
    refine Eq.trans ?_ this
    simp only [linkProb, torusDist_comm q]

theorem alphaFactor_one_le {alpha : XR} (ha : alpha = .pinf ∨ ∃ a : ℝ, alpha = fin a ∧ 1 < a) : 1 ≤ alphaFactor alpha := by
  rcases ha with rfl | ⟨a, rfl, ha⟩
  · exact le_rfl
  · show 1 ≤ a / (a - 1)
    rw [le_div_iff₀ (by linarith)]; linarith

theorem linkMean_le {alpha : XR} (ha : alpha = .pinf ∨ ∃ a : ℝ, alpha = fin a ∧ 1 < a) {t : ℝ} (ht : 0 < t) : linkMean alpha t ≤ alphaFactor alpha * t := by
  rcases ha with rfl | ⟨a, rfl, ha⟩
  · show min 1 t ≤ 1 * t
    rw [one_mul]; exact min_le_right _ _
  · show meanConnection a t ≤ a / (a - 1) * t
    rw [meanConnection_eq ha.ne']
    refine (probAlpha_bounds ha ht).2.trans (mul_le_mul_of_nonneg_left (min_le_right _ _) (div_nonneg (by linarith) (by linarith)))

/-! ### fixed weights and positions -/

open Classical in
/-- exponential tail bounds for the degree of a node, for all `alpha > 1` -/
theorem node_tail {D n : ℕ} {wf : Fin n → ℝ} {xf : Fin n → Fin D → ℝ} (s : SupportedInput D (List.ofFn wf) (List.ofFn xf)) {alpha : XR}
    (ha : alpha = .pinf ∨ ∃ a : ℝ, alpha = fin a ∧ 1 < a) (env : Env) {rng : Rng XR} [MeasurableSpace rng.G] {ν : Measure rng.G} (hr : IdealRng rng ν) (u : Fin n) :
    ∃ pr : Fin n → ℝ, (∀ v, u ≠ v → (if torusDist (xf u) (xf v) ^ D < wf u * wf v / ∑ i, wf i then (1 : ℝ) else 0) ≤ pr v ∧
        pr v ≤ linkProb alpha D (wf u * wf v / ∑ i, wf i) (torusDist (xf u) (xf v))) ∧
      ∀ (l c : ℝ) (Q : ℕ → Prop), (∀ N : ℕ, Q N → l * c ≤ l * N) →
        edgesProb env rng ν (xw (List.ofFn wf)) (xl (List.ofFn xf)) alpha (incident u) Q ≤
          ENNReal.ofReal (Real.exp (-(l * c))) * ∏ v, if u = v then 1 else ENNReal.ofReal (1 + pr v * (Real.exp l - 1)) := by
  have hprob := hr.prob
  obtain ⟨w, hl, rfl⟩ : ∃ (w : List ℝ) (hl : w.length = n), wf = fun i => w[i.1]'(by omega) := ⟨List.ofFn wf, by simp, by funext i; simp⟩
  subst hl
  have ew : List.ofFn (fun i : Fin w.length => w[i.1]) = w := List.ofFn_getElem
  have es : ∑ i : Fin w.length, w[i.1] = w.sum := by rw [← List.sum_ofFn, ew]
  simp only [ew, es] at s ⊢
  have hpos' : ∀ v : Fin w.length, 0 < w[u.1] * w[v.1] / w.sum := fun v =>
    div_pos (mul_pos (s.wpos _ (List.getElem_mem _)) (s.wpos _ (List.getElem_mem _)))
      (List.sum_pos w s.wpos (by rintro rfl; exact absurd u.2 (by simp)))
  have hf : ∀ (v : Fin w.length), ThresholdRule w (List.ofFn xf) u v ↔ torusDist (xf u) (xf v) ^ D < w[u.1] * w[v.1] / w.sum := by
    intro v
    unfold ThresholdRule
    constructor
    · rintro ⟨a, b, p, q, h1, h2, h3, h4, h5⟩
      rw [List.getElem?_eq_getElem u.2] at h1
      rw [List.getElem?_eq_getElem v.2] at h2
      rw [List.getElem?_eq_getElem (by simp)] at h3 h4
      simp only [List.getElem_ofFn, Option.some.injEq] at h1 h2 h3 h4
      subst h1 h2 h3 h4
      exact h5
    · intro h
      refine ⟨w[u.1], w[v.1], xf u, xf v, List.getElem?_eq_getElem u.2, List.getElem?_eq_getElem v.2, ?_, ?_, h⟩ <;>
        (rw [List.getElem?_eq_getElem (by simp)]; simp)
  rcases ha with rfl | ⟨a, rfl, ha⟩
  · refine ⟨fun v => if torusDist (xf u) (xf v) ^ D < w[u.1] * w[v.1] / w.sum then 1 else 0, fun v _ => ⟨le_rfl, le_rfl⟩, ?_⟩
    intro l c Q hQ
    have hlen : ∀ g : Fin env.threads → rng.G, ∀ out notice, GenerateEdges env rng (gensOf env.threads_pos g) (xw w) (xl (List.ofFn xf)) .pinf out notice →
        edgesIn (incident u) out = ∑ v : Fin w.length, if u.1 = v.1 then 0 else if ThresholdRule w (List.ofFn xf) u v then 1 else 0 := by
      intro g out notice h
      rw [edgesIn_incident]
      exact degreeOf_graph u.2 (C18_threshold_exact s env rng hr.bounded _ out notice h).1
    set d : ℕ := ∑ v : Fin w.length, if u.1 = v.1 then 0 else if ThresholdRule w (List.ofFn xf) u v then 1 else 0 with hd
    have e1 : ∏ v : Fin w.length, (if u = v then 1 else ENNReal.ofReal
        (1 + (if torusDist (xf u) (xf v) ^ D < w[u.1] * w[v.1] / w.sum then 1 else 0) * (Real.exp l - 1))) = ENNReal.ofReal (Real.exp (l * d)) := by
      have e2 : ∀ v : Fin w.length, (if u = v then 1 else ENNReal.ofReal
          (1 + (if torusDist (xf u) (xf v) ^ D < w[u.1] * w[v.1] / w.sum then 1 else 0) * (Real.exp l - 1))) =
          ENNReal.ofReal (Real.exp (l * ((if u.1 = v.1 then 0 else if ThresholdRule w (List.ofFn xf) u v then 1 else 0 : ℕ) : ℝ))) := by
        intro v
        simp only [Fin.ext_iff, hf]
        split_ifs <;> simp
      rw [Finset.prod_congr rfl fun v _ => e2 v, ← ENNReal.ofReal_prod_of_nonneg fun v _ => (Real.exp_pos _).le, ← Real.exp_sum, ← Finset.mul_sum, hd,
        Nat.cast_sum]
    rw [e1, ← ENNReal.ofReal_mul (Real.exp_pos _).le, ← Real.exp_add]
    by_cases hQd : Q d
    · refine (prob_le_one (μ := Measure.pi fun _ : Fin env.threads => ν)).trans ?_
      rw [ENNReal.one_le_ofReal]
      apply Real.one_le_exp
      have := hQ d hQd
      linarith
    · have : {g | ∃ out notice, GenerateEdges env rng (gensOf env.threads_pos g) (xw w) (xl (List.ofFn xf)) .pinf out notice ∧ Q (edgesIn (incident u) out)} = ∅ := by
        ext g
        simp only [Set.mem_setOf_eq, Set.mem_empty_iff_false, iff_false]
        rintro ⟨out, notice, h, hq⟩
        rw [hlen g out notice h] at hq
        exact hQd hq
      unfold edgesProb
      rw [this, measure_empty]
      exact bot_le
  · obtain ⟨pr, h2, h3⟩ := girg_tail_node s (show 0 < a by linarith)
    refine ⟨fun v => pr u v, fun v huv => ?_, fun l c Q hQ => h3 env rng ν hr u l c Q hQ⟩
    have hg : girgProb w (List.ofFn xf) a u v = connProb D a (w[u.1] * w[v.1] / w.sum) (torusDist (xf u) (xf v)) := girgProb_ofFn rfl _ _ _ _
    obtain ⟨m1, m2⟩ := connProb_mem (D := D) a _ _ (hpos' v) (torusDist_nonneg (xf u) (xf v))
    have hone : torusDist (xf u) (xf v) ^ D < w[u.1] * w[v.1] / w.sum → connProb D a (w[u.1] * w[v.1] / w.sum) (torusDist (xf u) (xf v)) = 1 := by
      intro h
      unfold connProb
      split_ifs with h0
      · rfl
      · refine min_eq_left (Real.one_le_rpow ?_ (by linarith))
        have hp : 0 < torusDist (xf u) (xf v) ^ D := pow_pos (lt_of_le_of_ne (torusDist_nonneg _ _) (Ne.symm h0)) D
        rw [le_div_iff₀ hp]; linarith
    show (if torusDist (xf u) (xf v) ^ D < w[u.1] * w[v.1] / w.sum then (1 : ℝ) else 0) ≤ pr u v ∧ pr u v ≤ connProb D a (w[u.1] * w[v.1] / w.sum) (torusDist (xf u) (xf v))
    rcases h2 u v u.2 v.2 (fun h => huv (Fin.ext h)) with h4 | h4
    · rw [h4, hg]
      refine ⟨?_, le_rfl⟩
      split_ifs with h
      · rw [hone h]
      · exact m1
    · rw [hg] at h4
      rw [h4.1]
      refine ⟨?_, m1⟩
      rw [if_neg]
      intro h
      rw [hone h] at h4
      norm_num at h4

/-- all or nothing -/
theorem edgesProb_compl {D : ℕ} {w : List ℝ} {x : List (Fin D → ℝ)} (s : SupportedInput D w x) (alpha : XR) (env : Env) {rng : Rng XR} [MeasurableSpace rng.G]
    {ν : Measure rng.G} (hr : IdealRng rng ν) (A : ℕ → ℕ → Prop) (Q : ℕ → Prop) :
    1 ≤ edgesProb env rng ν (xw w) (xl x) alpha A Q + edgesProb env rng ν (xw w) (xl x) alpha A fun k => ¬ Q k := by
  have hprob := hr.prob
  unfold edgesProb
  refine le_trans (le_of_eq ?_) (measure_union_le _ _)
  rw [← measure_univ (μ := Measure.pi fun _ : Fin env.threads => ν)]
  congr 1
  ext g
  simp only [Set.mem_univ, Set.mem_union, Set.mem_setOf_eq, true_iff]
  obtain ⟨⟨out, notice, h⟩, _⟩ := C17_simple_graph s alpha env rng hr.bounded (gensOf env.threads_pos g)
  by_cases hq : Q (edgesIn A out)
  · exact Or.inl ⟨out, notice, h, hq⟩
  · exact Or.inr ⟨out, notice, h, hq⟩

/-- weights from 1 on: the scale factor is bounded by the average degree -/
theorem scale_le {D : ℕ} (hD : 1 ≤ D) {w : List ℝ} (h2 : 2 ≤ w.length) (hw : ∀ y ∈ w, 1 ≤ y) {k e : ℝ} (hk : 0 < k)
    (h : thresholdGirgDegree D (w.map (· * k)) < e) (he : e ≤ w.length - 1) : 2 ^ D * k / w.sum * (w.length - 1) ≤ e := by
  have hne : w ≠ [] := by rintro rfl; simp at h2
  have hp : ∀ y ∈ w, 0 < y := fun y hy => by linarith [hw y hy]
  have hW := List.sum_pos w hp hne
  have hn : (2 : ℝ) ≤ w.length := by exact_mod_cast h2
  rw [thresholdDegree_scaled hD hp hne hk] at h
  have hc : 0 < 2 ^ D * k / w.sum := by positivity
  have h1 : Scaling.pairSum w.length (fun _ _ => min 1 (2 ^ D * k / w.sum)) ≤
      Scaling.pairSum w.length (fun i j => probThreshold (2 ^ D * k / w.sum * bw w i * bw w j)) := by
    refine pairSum_mono fun i hi j hj => min_le_min le_rfl ?_
    have hi := hw _ (bw_mem w hi)
    have hj := hw _ (bw_mem w hj)
    have : 1 ≤ bw w i * bw w j := one_le_mul_of_one_le_of_one_le hi hj
    rw [mul_assoc]
    nlinarith
  have h3 : Scaling.pairSum w.length (fun _ _ => min 1 (2 ^ D * k / w.sum)) = w.length * (w.length - 1) * min 1 (2 ^ D * k / w.sum) := by
    unfold Scaling.pairSum
    simp only [Finset.sum_const, Finset.card_range, nsmul_eq_mul]
    ring
  rw [h3] at h1
  rw [div_lt_iff₀ (by linarith)] at h
  rcases le_total 1 (2 ^ D * k / w.sum) with h4 | h4
  · rw [min_eq_left h4] at h1
    nlinarith
  · rw [min_eq_right h4] at h1
    nlinarith

/-! ### random positions, fixed bounds for the connection probabilities -/

instance unitCube_prob (D : ℕ) : IsProbabilityMeasure (unitCube D) := by
  unfold unitCube
  haveI : IsProbabilityMeasure (volume.restrict (Set.Ico (0 : ℝ) 1)) := ⟨by simp⟩
  infer_instance

/-- the exponential bound used for the tails -/
noncomputable def rowBound (D : ℕ) {n : ℕ} (u : Fin n) (alpha : XR) (t : Fin n → ℝ) (l c : ℝ) (x : Fin n → Fin D → ℝ) : ℝ≥0∞ :=
  ENNReal.ofReal (Real.exp (-(l * c))) * ∏ v, if u = v then 1 else ENNReal.ofReal (1 + linkProb alpha D (t v) (torusDist (x u) (x v)) * (Real.exp l - 1))

theorem rowBound_measurable' {β : Type} [MeasurableSpace β] {D : ℕ} {n : ℕ} (u : Fin n) (alpha : XR) (l c : ℝ) {t : β → Fin n → ℝ} {x : β → Fin n → Fin D → ℝ}
    (ht : Measurable t) (hx : Measurable x) : Measurable fun b => rowBound D u alpha (t b) l c (x b) := by
  unfold rowBound
  refine Measurable.const_mul (Finset.measurable_prod _ fun v _ => ?_) _
  split_ifs
  · exact measurable_const
  · have h0 : ∀ i, Measurable fun b => x b i := fun i => (measurable_pi_apply i).comp hx
    have h2 : Measurable fun b => torusDist (x b u) (x b v) := torusDist_measurable.comp ((h0 u).prodMk (h0 v))
    have h3 : Measurable fun b => (t b v, torusDist (x b u) (x b v)) := ((measurable_pi_apply v).comp ht).prodMk h2
    have h4 : Measurable fun b => linkProb alpha D (t b v) (torusDist (x b u) (x b v)) := (linkProb_measurable alpha D).comp h3
    exact (measurable_const.add (h4.mul_const _)).ennreal_ofReal

theorem rowBound_mean {D n : ℕ} (hD : 1 ≤ D) (u : Fin n) {alpha : XR} (ha : alpha = .pinf ∨ ∃ a : ℝ, alpha = fin a ∧ 1 < a) {t : Fin n → ℝ} (ht : ∀ v, 0 < t v)
    (l c : ℝ) : ∫⁻ x, rowBound D u alpha t l c x ∂uniformPositions n D ≤
      ENNReal.ofReal (Real.exp ((Real.exp l - 1) * (∑ v, if u = v then 0 else linkMean alpha (2 ^ D * t v)) - l * c)) := by
  refine (lintegral_le_upperMean _).trans ?_
  refine row_tail (P := uniformPositions n D) (X := id) measurable_id Measure.map_id u
    (f := fun v q p => linkProb alpha D (t v) (torusDist q p)) (k := fun v => linkMean alpha (2 ^ D * t v)) ?_ ?_ ?_ fun x => le_rfl
  · intro v
    have h3 : Measurable fun z : (Fin D → ℝ) × (Fin D → ℝ) => (t v, torusDist z.1 z.2) := measurable_const.prodMk torusDist_measurable
    exact (linkProb_measurable alpha D).comp h3
  · intro v p q
    exact linkProb_mem alpha D (ht v) (torusDist_nonneg p q)
  · intro v q hq
    exact linkProb_expect ha hD hq (ht v)

theorem sum_ite_rest {n : ℕ} (u : Fin n) (g : Fin n → ℝ) : (∑ v, if u = v then 0 else g v) = ∑ v ∈ Finset.univ.erase u, g v := by
  rw [← Finset.sum_erase_add _ _ (Finset.mem_univ u), if_pos rfl, add_zero]
  refine Finset.sum_congr rfl fun v hv => ?_
  rw [if_neg (Finset.ne_of_mem_erase hv).symm]

theorem exp_log_two_sub : Real.exp (Real.log 2) - 1 = 1 := by
  rw [Real.exp_log two_pos]; norm_num

/-- upper tail: the mean is at most half of `K` -/
theorem rowBound_upper {D n : ℕ} (hD : 1 ≤ D) (u : Fin n) {alpha : XR} (ha : alpha = .pinf ∨ ∃ a : ℝ, alpha = fin a ∧ 1 < a) {t : Fin n → ℝ} (ht : ∀ v, 0 < t v)
    {K : ℝ} (hK : 0 ≤ K) (hsum : alphaFactor alpha * 2 ^ D * ∑ v ∈ Finset.univ.erase u, t v ≤ K / 2) :
    ∫⁻ x, rowBound D u alpha t (Real.log 2) K x ∂uniformPositions n D ≤ ENNReal.ofReal (Real.exp (-K / 6)) := by
  refine (rowBound_mean hD u ha ht _ _).trans (ENNReal.ofReal_le_ofReal (Real.exp_le_exp.2 ?_))
  rw [exp_log_two_sub, one_mul, sum_ite_rest]
  have h1 : ∑ v ∈ Finset.univ.erase u, linkMean alpha (2 ^ D * t v) ≤ alphaFactor alpha * 2 ^ D * ∑ v ∈ Finset.univ.erase u, t v := by
    rw [Finset.mul_sum]
    refine Finset.sum_le_sum fun v _ => (linkMean_le ha (by have := ht v; positivity)).trans (le_of_eq (by ring))
  have := Real.log_two_gt_d9
  nlinarith

/-- lower tail: the mean is at least twice `K` -/
theorem rowBound_lower {D n : ℕ} (hD : 1 ≤ D) (u : Fin n) {t : ℝ} (ht : 0 < t)
    {K : ℝ} (hK : 1 ≤ K) (hsum : 2 * K ≤ (n - 1) * min 1 (2 ^ D * t)) :
    ∫⁻ x, rowBound D u .pinf (fun _ => t) (-Real.log 2) K x ∂uniformPositions n D ≤ ENNReal.ofReal (3 / 4) := by
  have hn : 1 ≤ n := by have := u.2; omega
  refine (rowBound_mean hD u (Or.inl rfl) (fun _ => ht) _ _).trans (ENNReal.ofReal_le_ofReal ?_)
  rw [sum_ite_rest]
  have e1 : Real.exp (-Real.log 2) - 1 = -(1 / 2) := by rw [Real.exp_neg, Real.exp_log two_pos]; norm_num
  have e2 : ∑ v ∈ Finset.univ.erase u, linkMean .pinf (2 ^ D * t) = (n - 1) * min 1 (2 ^ D * t) := by
    rw [Finset.sum_const, Finset.card_erase_of_mem (Finset.mem_univ _), Finset.card_univ, Fintype.card_fin, nsmul_eq_mul, Nat.cast_sub hn, Nat.cast_one]
    rfl
  rw [e1, e2]
  have h1 : Real.exp (-(1 / 2) * ((n - 1) * min 1 (2 ^ D * t)) - -Real.log 2 * K) ≤ Real.exp (-1 + Real.log 2) := by
    refine Real.exp_le_exp.2 ?_
    have := Real.log_two_lt_d9
    nlinarith
  refine h1.trans ?_
  rw [Real.exp_add, Real.exp_log two_pos, Real.exp_neg]
  have := Real.exp_one_gt_d9
  have h2 : (Real.exp 1)⁻¹ ≤ 3 / 8 := by
    rw [inv_le_comm₀ (Real.exp_pos _) (by norm_num)]
    linarith
  linarith

/-! ### the whole pipeline -/

/-- means of functions of two independent random elements -/
theorem joint_mean {Ω E F : Type} [MeasurableSpace Ω] [MeasurableSpace E] [MeasurableSpace F] {P : Measure Ω} [IsProbabilityMeasure P] {A : Ω → E} {B : Ω → F}
    (hA : Measurable A) (hB : Measurable B) (hi : IndepFun A B P) {Q : Measure F} (hQ : P.map B = Q) {G : E × F → ℝ≥0∞} (hG : Measurable G) :
    ∫⁻ ω, G (A ω, B ω) ∂P = ∫⁻ ω, ∫⁻ y, G (A ω, y) ∂Q ∂P := by
  have hp : IsProbabilityMeasure (P.map B) := Measure.isProbabilityMeasure_map hB.aemeasurable
  rw [hQ] at hp
  have h1 : ∫⁻ ω, G (A ω, B ω) ∂P = ∫⁻ z, G z ∂P.map (fun ω => (A ω, B ω)) := (lintegral_map hG (hA.prodMk hB)).symm
  have h2 : Measurable fun a => ∫⁻ y, G (a, y) ∂Q := hG.lintegral_prod_right'
  rw [h1, (indepFun_iff_map_prod_eq_prod_map_map hA.aemeasurable hB.aemeasurable).1 hi, hQ, lintegral_prod _ hG.aemeasurable, lintegral_map h2 hA]

section Pipeline
variable {Ω : Type} [MeasurableSpace Ω] {P : Measure Ω} {omp : Omp} {eng : Engine XR} [MeasurableSpace eng.G] {μ : Measure eng.G}
  {σ : ℤ → Ω → eng.G} {device : ℕ → Ω → eng.G} {n : ℕ} {wseed pseed : ℤ} {wpar ppar : Bool} {D : ℕ} {wts ws : Ω → List XR} {pos : Ω → List (List XR)}
  {rng : Rng XR} [MeasurableSpace rng.G] {ν : Measure rng.G} {ple : ℝ}

/-- generated weights and positions -/
theorem nodes_random (he : IdealEngine eng μ) (hσ : IndependentStates P μ σ) (hn : 3 ≤ n) (hple : 2 < ple)
    (hw : 0 ≤ wseed ∧ wseed + nodeThreads omp n wpar ≤ 2147483648) (hp : 0 ≤ pseed ∧ pseed + nodeThreads omp n ppar ≤ 2147483648)
    (hd : wseed + nodeThreads omp n wpar ≤ pseed ∨ pseed + nodeThreads omp n ppar ≤ wseed)
    (hwts : ∀ ω, GenerateWeights omp (withSeeds eng fun s => σ s ω) (fun k => device k ω) n (fin ple) wseed wpar (wts ω))
    (hpos : ∀ ω, GeneratePositions omp (withSeeds eng fun s => σ s ω) (fun k => device k ω) n D pseed ppar (pos ω)) :
    ∃ (W : Fin n → Ω → ℝ) (X : Ω → Fin n → Fin D → ℝ), IsProbabilityMeasure P ∧ Tails P W (ple - 1) ∧ Measurable X ∧ P.map X = uniformPositions n D ∧
      IndepFun (fun ω i => W i ω) X P ∧ ∀ ω, wts ω = xw (List.ofFn fun i => W i ω) ∧ pos ω = xl (List.ofFn (X ω)) ∧ ∀ i d, 0 ≤ X ω i d ∧ X ω i d < 1 := by
  obtain ⟨W, w1, w2, w3, w4, w5⟩ := C92_weights (device := device) he hn (show 1 < ple by linarith) (Or.inl ⟨hw.1, hw.2, hσ⟩)
  obtain ⟨X, x1, x2, x3⟩ := positions_random he (Or.inl ⟨hp.1, hp.2, hσ⟩) hpos
  obtain ⟨W', X', y1, y2, _, _, _, y6⟩ := C92_nodes (D := D) (device := device) he hσ hn (show 1 < ple by linarith) hw hp hd
  have hWW : W' = W := by
    funext i ω
    have := (w1 ω _).1 ((y1 ω _).2 rfl)
    exact XR.fin.inj (congrFun (List.ofFn_injective this) i)
  have hXX : X' = X := by
    funext ω i d
    have h1 := (y2 ω _).1 (hpos ω)
    rw [(x3 ω).1] at h1
    unfold xl at h1
    rw [List.map_ofFn] at h1
    have h2 := congrFun (List.ofFn_injective h1) i
    exact (XR.fin.inj (congrFun (List.ofFn_injective h2) d)).symm
  subst hWW hXX
  have hprob : IsProbabilityMeasure P := by
    have hu : IsProbabilityMeasure (P.map X') := by rw [x2]; infer_instance
    exact ⟨by rw [← hu.measure_univ, Measure.map_apply x1 MeasurableSet.univ, Set.preimage_univ]⟩
  have hnR : (3 : ℝ) ≤ n := by exact_mod_cast hn
  have hN1 : 1 < (n : ℝ) / 2 := by linarith
  have hNp : ((n : ℝ) / 2) ^ (1 - ple) < 1 := Real.rpow_lt_one_of_one_lt_of_neg hN1 (by linarith)
  have hN0 : 0 < ((n : ℝ) / 2) ^ (1 - ple) := Real.rpow_pos_of_pos (by linarith) _
  have htail : ∀ i (y : ℝ), 1 ≤ y → y ≤ n / 2 → P {ω | y < W' i ω} =
      ENNReal.ofReal ((y ^ (1 - ple) - ((n : ℝ) / 2) ^ (1 - ple)) / (1 - ((n : ℝ) / 2) ^ (1 - ple))) := by
    intro i y h1 h2
    have hms : MeasurableSet {ω | W' i ω ≤ y} := measurableSet_le (w3 i) measurable_const
    have hc := prob_compl_eq_one_sub (μ := P) hms
    have e : {ω | W' i ω ≤ y}ᶜ = {ω | y < W' i ω} := by ext ω; simp
    rw [e, w5 i y h1 h2] at hc
    have hy1 : y ^ (1 - ple) ≤ 1 := Real.rpow_le_one_of_one_le_of_nonpos h1 (by linarith)
    rw [hc, ← ENNReal.ofReal_one, ← ENNReal.ofReal_sub _ (div_nonneg (by linarith) (by linarith))]
    congr 1
    have : 1 - ((n : ℝ) / 2) ^ (1 - ple) ≠ 0 := by linarith
    field_simp
    ring
  have hzero : ∀ i (y : ℝ), n / 2 < y → P {ω | y < W' i ω} = 0 := by
    intro i y h
    have : {ω | y < W' i ω} = ∅ := by
      ext ω
      simp only [Set.mem_setOf_eq, Set.mem_empty_iff_false, iff_false]
      have := (w4 i ω).2
      linarith
    rw [this, measure_empty]
  have hneg : -(ple - 1) = 1 - ple := by ring
  refine ⟨W', X', hprob, ⟨hn, by linarith, w2, w3, w4, ?_, ?_⟩, x1, x2, y6, fun ω => ⟨?_, (x3 ω).1, (x3 ω).2⟩⟩
  · intro i y hy
    rw [hneg]
    rcases lt_or_ge y 1 with h1 | h1
    · refine prob_le_one.trans ?_
      rw [ENNReal.one_le_ofReal]
      exact Real.one_le_rpow_of_pos_of_le_one_of_nonpos hy h1.le (by linarith)
    rcases le_or_gt y (n / 2) with h2 | h2
    · rw [htail i y h1 h2]
      refine ENNReal.ofReal_le_ofReal ?_
      have hy1 : y ^ (1 - ple) ≤ 1 := Real.rpow_le_one_of_one_le_of_nonpos h1 (by linarith)
      rw [div_le_iff₀ (by linarith)]
      nlinarith
    · rw [hzero i y h2]; exact bot_le
  · intro i y h1
    rw [hneg]
    rcases le_or_gt y (n / 2) with h2 | h2
    · rw [htail i y h1 h2]
      refine ENNReal.ofReal_le_ofReal ?_
      rw [le_div_iff₀ (by linarith)]
      have : ((n : ℝ) / 2) ^ (1 - ple) ≤ y ^ (1 - ple) := Real.rpow_le_rpow_of_nonpos (by linarith) h2 (by linarith)
      nlinarith
    · rw [ENNReal.ofReal_of_nonpos]
      · exact bot_le
      · have : y ^ (1 - ple) ≤ ((n : ℝ) / 2) ^ (1 - ple) := Real.rpow_le_rpow_of_nonpos (by linarith) h2.le (by linarith)
        linarith
  · rw [(w1 ω _).1 (hwts ω)]
    unfold xw
    rw [List.map_ofFn]
    rfl

/-- scaled weights -/
theorem scaled_path (hn : 3 ≤ n) (h31 : n < 2147483648) (hD1 : 1 ≤ D) (hD5 : D ≤ 5) {w : Fin n → ℝ} (hw : ∀ i, 1 ≤ w i ∧ w i ≤ n / 2)
    {part : List (List ℕ)} (hp : part.flatten.Perm (List.range n)) {alg : StdAlg XR} {ndebug : Bool} {alpha : XR}
    (ha : alpha = .pinf ∨ ∃ a : ℝ, alpha = fin a ∧ 1 < a) {desired : ℝ} (hd1 : 1 ≤ desired) (hdn : alphaFactor alpha * (desired + 1 / 2) ≤ n - 1) {s : XR} {ws : List XR}
    (h : ScaleWeights alg ndebug part (xw (List.ofFn w)) (fin desired) D alpha (.returned s ws)) :
    ∃ k : ℝ, 0 < k ∧ ws = xw (List.ofFn fun i => w i * k) ∧ 2 ^ D * k / (∑ i, w i) * (n - 1) ≤ alphaFactor alpha * (desired + 1 / 2) ∧
      (desired - 2 / 100) * n ≤ alphaFactor alpha * (2 ^ D * (∑ i, w i) * k) ∧
      (alphaFactor alpha * 2 ^ D * (∑ i, w i) ^ 2 < 2 ^ 29 * (desired - 2 / 100) * n → SupportedWeights D (List.ofFn fun i => w i * k)) := by
  have hA := alphaFactor_one_le ha
  have hl : (List.ofFn w).length = n := List.length_ofFn
  have hsum : (List.ofFn w).sum = ∑ i, w i := List.sum_ofFn
  have hmap : ∀ k : ℝ, (List.ofFn w).map (· * k) = List.ofFn fun i => w i * k := fun k => by rw [List.map_ofFn]; rfl
  have hmem : ∀ y ∈ List.ofFn w, 1 ≤ y ∧ y ≤ ((List.ofFn w).length : ℝ) / 2 := by
    intro y hy
    obtain ⟨i, rfl⟩ := List.mem_ofFn.1 hy
    rw [hl]; exact hw i
  have hnR : (3 : ℝ) ≤ n := by exact_mod_cast hn
  have hdes : desired ≤ ((List.ofFn w).length : ℝ) - 1 := by rw [hl]; nlinarith
  have hne : List.ofFn w ≠ [] := by intro h; rw [h] at hl; simp at hl; omega
  have hN := girg_normal (n := (List.ofFn w).length) (by omega) hmem
  have hp' : part.flatten.Perm (List.range (List.ofFn w).length) := by rw [hl]; exact hp
  obtain ⟨k, hk, rfl, hws, q1, q2, q3⟩ := C59_degree hN hne (by omega) hp' hD1 (by omega) h
  have hsup := scaled_supported hmem (by omega) (by omega) hD1 hD5 hp' ha hdes hk h
  obtain ⟨f1, f2⟩ := C59_factor hN (by omega) (by omega) hp' hD1 (by omega) hdes one_pos (fun y hy => (hmem y hy).1) h
  rw [hmap] at hsup
  rw [hl, hsum] at hsup
  rw [hl, hsum] at f1 f2
  refine ⟨k, hk, ?_, ?_, ?_, hsup⟩
  · rw [hws, hmap]; rfl
  · have hinv : (1 : ℝ) / n ≤ 1 / 3 := one_div_le_one_div_of_le (by norm_num) hnR
    have hthr : thresholdGirgDegree D ((List.ofFn w).map (· * k)) < alphaFactor alpha * (desired + 1 / 2) := by
      rw [hl] at q1 q2 q3
      have h1 : desired + 2 / 100 + 1 / (n : ℝ) ≤ desired + 1 / 2 := by linarith
      rcases ha with rfl | ⟨a, rfl, ha⟩
      · have := (q1 rfl).2
        show _ < 1 * _
        linarith
      · have h2 := (girgDegree_threshold hD1 (fun y hy => by linarith [(hmem y hy).1]) hne hk ha).1
        rcases le_or_gt a 8 with h8 | h8
        · have := (q2 a rfl h8).2
          nlinarith
        · have h4 := (q3 a rfl h8).2
          change _ < alphaFactor (fin a) * _ at h4
          nlinarith
    have := scale_le hD1 (by omega) (fun y hy => (hmem y hy).1) hk hthr (by rw [hl]; exact hdn)
    rwa [hl, hsum] at this
  · rcases ha with rfl | ⟨a, rfl, ha⟩
    · show _ ≤ 1 * _
      rw [one_mul]; exact (f1 rfl).2
    · have := (f2 a rfl ha).2
      have ha1 : 0 < a - 1 := by linarith
      have ha0 : a ≠ 0 := by linarith
      show _ ≤ a / (a - 1) * _
      have h5 := mul_le_mul_of_nonneg_left this (div_pos (by linarith : 0 < a) ha1).le
      have e : a / (a - 1) * ((desired - 2 / 100) * n * ((a - 1) / a)) = (desired - 2 / 100) * n := by
        field_simp
      rwa [e] at h5

theorem sum_split (w : Fin n → ℝ) (u : Fin n) : ∑ i, w i = w u + ∑ v ∈ Finset.univ.erase u, w v := (Finset.add_sum_erase _ _ (Finset.mem_univ u)).symm

theorem scaled_ratio (w : Fin n → ℝ) {k : ℝ} (hk : 0 < k) (u v : Fin n) : w u * k * (w v * k) / ∑ i, w i * k = k / (∑ i, w i) * (w u * w v) := by
  rw [← Finset.sum_mul]
  rcases eq_or_ne (∑ i, w i) 0 with h | h
  · simp [h]
  · field_simp

/-- the sum of the weights is rarely too large -/
theorem sum_large [IsProbabilityMeasure P] {W : Fin n → Ω → ℝ} {p : ℝ} (h : Tails P W p) {B : ℝ} (hB : 0 ≤ B) :
    P {ω | B ≤ (∑ i, W i ω) ^ 2} ≤ ENNReal.ofReal (Real.exp (3 / 2 * (p / (p - 1)) + 3 / 4 - √B / n)) := by
  have hn := h.n3R
  have hn1 : (0 : ℝ) < n - 1 := by linarith
  have hu : 0 < n := by have := h.n3; omega
  let u : Fin n := ⟨0, hu⟩
  have hm : Measurable fun ω => ENNReal.ofReal (Real.exp (rest W u ω / (n - 1))) :=
    (Real.measurable_exp.comp ((rest_meas h u).div_const _)).ennreal_ofReal
  set q : ℝ := √B / n - 3 / 4 with hq
  have hsub : {ω | B ≤ (∑ i, W i ω) ^ 2} ⊆ {ω | ENNReal.ofReal (Real.exp q) ≤ ENNReal.ofReal (Real.exp (rest W u ω / (n - 1)))} := by
    intro ω hω
    simp only [Set.mem_setOf_eq] at hω ⊢
    refine ENNReal.ofReal_le_ofReal (Real.exp_le_exp.2 ?_)
    have hs : 0 ≤ ∑ i, W i ω := Finset.sum_nonneg fun i _ => zero_le_one.trans (h.range i ω).1
    have h1 : √B ≤ ∑ i, W i ω := (Real.sqrt_le_left hs).2 hω
    rw [sum_split (fun i => W i ω) u] at h1
    have h2 := (h.range u ω).2
    have h3 : √B ≤ n / 2 + rest W u ω := by unfold rest; linarith
    rw [hq, le_div_iff₀ hn1]
    have h4 : √B / n * (n - 1) ≤ √B := by
      rw [div_mul_eq_mul_div, div_le_iff₀ (by linarith)]
      nlinarith [Real.sqrt_nonneg B]
    nlinarith
  refine (measure_mono hsub).trans ((meas_ge_le_lintegral_div hm.aemeasurable (by simpa using Real.exp_pos q) ENNReal.ofReal_ne_top).trans ?_)
  refine (ENNReal.div_le_div_right (rest_exp h u) _).trans ?_
  rw [← ENNReal.ofReal_div_of_pos (Real.exp_pos _), ← Real.exp_sub]
  refine ENNReal.ofReal_le_ofReal (Real.exp_le_exp.2 (le_of_eq ?_))
  rw [hq]; ring

set_option maxHeartbeats 1000000 in
/-- C100, upper bound.  Weights are drawn by `generateWeights` with power law exponent `ple > 2`, scaled by `scaleWeights` for a desired average degree, positions
are drawn by `generatePositions`, all with ideal engines and seeds that do not collide, and `generateEdges` is run (ideal random numbers, `alpha > 1` or
infinity, `A = alpha/(alpha-1)` or 1).  The probability that node `u` has degree at least `K` is at most a constant times `(desired/K)^(ple-1)`, up to a term
that decreases exponentially with `K` and one for a sum of weights that is too large for the data structure. -/
theorem C100_upper (he : IdealEngine eng μ) (hσ : IndependentStates P μ σ) (hn : 3 ≤ n) (h31 : n < 2147483648) (hD1 : 1 ≤ D) (hD5 : D ≤ 5) (hple : 2 < ple)
    (hw : 0 ≤ wseed ∧ wseed + nodeThreads omp n wpar ≤ 2147483648) (hp : 0 ≤ pseed ∧ pseed + nodeThreads omp n ppar ≤ 2147483648)
    (hd : wseed + nodeThreads omp n wpar ≤ pseed ∨ pseed + nodeThreads omp n ppar ≤ wseed)
    (hwts : ∀ ω, GenerateWeights omp (withSeeds eng fun s => σ s ω) (fun k => device k ω) n (fin ple) wseed wpar (wts ω))
    (hpos : ∀ ω, GeneratePositions omp (withSeeds eng fun s => σ s ω) (fun k => device k ω) n D pseed ppar (pos ω))
    {part : List (List ℕ)} (hpart : part.flatten.Perm (List.range n)) {alg : StdAlg XR} {ndebug : Bool} {alpha : XR}
    (ha : alpha = .pinf ∨ ∃ a : ℝ, alpha = fin a ∧ 1 < a) {desired : ℝ} (hd1 : 1 ≤ desired) (hdn : alphaFactor alpha * (desired + 1 / 2) ≤ n - 1) {sc : Ω → XR}
    (hsc : ∀ ω, ScaleWeights alg ndebug part (wts ω) (fin desired) D alpha (.returned (sc ω) (ws ω)))
    (hr : IdealRng rng ν) (env : Env) (u : Fin n) {K : ℕ} (hK : 1 ≤ K) :
    upperMean P (fun ω => edgesProb env rng ν (ws ω) (pos ω) alpha (incident u) fun k => K ≤ k) ≤
      ENNReal.ofReal (Real.exp (3 / 2 * ((ple - 1) / (ple - 2))) * (2 * (ple - 1) * alphaFactor alpha ^ 2 * (desired + 1 / 2) / (Real.exp 1 * K)) ^ (ple - 1)) +
      ENNReal.ofReal (Real.exp (-K / 6)) +
      ENNReal.ofReal (Real.exp (3 / 2 * ((ple - 1) / (ple - 2)) + 3 / 4 - √(2 ^ 29 * (desired - 2 / 100) / (alphaFactor alpha * 2 ^ D * n)))) := by
  have hprobν := hr.prob
  obtain ⟨W, X, hP, hT, hX, hlaw, hind, hout⟩ := nodes_random he hσ hn hple hw hp hd hwts hpos
  have hA := alphaFactor_one_le ha
  have hnR : (3 : ℝ) ≤ n := by exact_mod_cast hn
  have hn1 : (0 : ℝ) < n - 1 := by linarith
  have hKR : (1 : ℝ) ≤ K := by exact_mod_cast hK
  have hWm : Measurable fun ω (i : Fin n) => W i ω := measurable_pi_lambda _ hT.meas
  generalize hAdef : alphaFactor alpha = A at *
  set κ : ℝ := A * (desired + 1 / 2) / (n - 1) with hκ
  have hκ0 : 0 < κ := by positivity
  set B : ℝ := 2 ^ 29 * (desired - 2 / 100) * n / (A * 2 ^ D) with hBdef
  have hB : 0 ≤ B := by
    have : 0 ≤ desired - 2 / 100 := by linarith
    positivity
  set big : (Fin n → ℝ) → Prop := fun w => (K : ℝ) / 2 < A * κ * (w u * ∑ v ∈ Finset.univ.erase u, w v) with hbig
  have hbigm : MeasurableSet {w : Fin n → ℝ | big w} := by
    refine measurableSet_lt measurable_const (Measurable.const_mul ?_ _)
    exact (measurable_pi_apply u).mul (Finset.measurable_sum _ fun v _ => measurable_pi_apply v)
  classical
  set G : (Fin n → ℝ) × (Fin n → Fin D → ℝ) → ℝ≥0∞ := fun z =>
    if big z.1 then 1 else rowBound D u alpha (fun v => κ / 2 ^ D * (z.1 u * z.1 v)) (Real.log 2) K z.2 with hG
  have hGm : Measurable G := by
    refine Measurable.ite (measurable_fst hbigm) measurable_const ?_
    have h1 : Measurable fun z : (Fin n → ℝ) × (Fin n → Fin D → ℝ) => (fun v => κ / 2 ^ D * (z.1 u * z.1 v) : Fin n → ℝ) := by
      refine measurable_pi_lambda _ fun v => ?_
      fun_prop
    exact rowBound_measurable' u alpha (Real.log 2) K h1 measurable_snd
  have hsumm : Measurable fun ω => ∑ i, W i ω := Finset.measurable_sum _ fun v _ => hT.meas v
  have hlarge : MeasurableSet {ω | B ≤ (∑ i, W i ω) ^ 2} := measurableSet_le measurable_const (hsumm.pow_const 2)
  have hGW : Measurable fun ω => G (fun i => W i ω, X ω) := hGm.comp (hWm.prodMk hX)
  have hdom : ∀ ω, edgesProb env rng ν (ws ω) (pos ω) alpha (incident u) (fun k => K ≤ k) ≤
      G (fun i => W i ω, X ω) + {ω | B ≤ (∑ i, W i ω) ^ 2}.indicator 1 ω := by
    intro ω
    have hone : edgesProb env rng ν (ws ω) (pos ω) alpha (incident u) (fun k => K ≤ k) ≤ 1 := prob_le_one (μ := Measure.pi fun _ : Fin env.threads => ν)
    by_cases hl : B ≤ (∑ i, W i ω) ^ 2
    · rw [Set.indicator_of_mem (by exact hl)]
      exact hone.trans le_add_self
    rw [Set.indicator_of_notMem (by exact hl), add_zero]
    by_cases hb : big (fun i => W i ω)
    · rw [hG]
      simp only [hb, if_true]
      exact hone
    simp only [hG, if_neg hb]
    obtain ⟨o1, o2, o3⟩ := hout ω
    have hsω := hsc ω
    rw [o1] at hsω
    obtain ⟨k, hk, hws, k1, _, k3⟩ := scaled_path hn h31 hD1 hD5 (fun i => hT.range i ω) hpart ha hd1 (by rw [hAdef]; exact hdn) hsω
    rw [hAdef] at k1 k3
    have hsup := k3 (by
      push Not at hl
      rw [hBdef, lt_div_iff₀ (by positivity)] at hl
      linarith) (List.ofFn (X ω)) (by simp) (by
        intro q hq
        obtain ⟨i, rfl⟩ := List.mem_ofFn.1 hq
        exact o3 i)
    obtain ⟨pr, p1, p2⟩ := node_tail hsup ha env hr u
    rw [hws, o2]
    refine (p2 (Real.log 2) K _ fun N hN => mul_le_mul_of_nonneg_left (by exact_mod_cast hN) (Real.log_nonneg (by norm_num))).trans ?_
    unfold rowBound
    refine mul_le_mul le_rfl (Finset.prod_le_prod' fun v _ => ?_) bot_le bot_le
    split_ifs with huv
    · exact le_rfl
    refine ENNReal.ofReal_le_ofReal ?_
    rw [exp_log_two_sub, mul_one, mul_one]
    refine add_le_add le_rfl ((p1 v huv).2.trans ?_)
    rw [scaled_ratio (fun i => W i ω) hk]
    have hWu := (hT.range u ω).1
    have hWv := (hT.range v ω).1
    have hsp : 0 < ∑ i, W i ω := by
      refine Finset.sum_pos (fun i _ => by linarith [(hT.range i ω).1]) ⟨u, Finset.mem_univ _⟩
    refine linkProb_mono ha D (by positivity) (mul_le_mul_of_nonneg_right ?_ (by positivity)) (torusDist_nonneg _ _)
    rw [le_div_iff₀ (by positivity), hκ, le_div_iff₀ hn1]
    refine le_trans (le_of_eq ?_) k1
    ring
  refine (upperMean_le (F := fun ω => G (fun i => W i ω, X ω) + {ω | B ≤ (∑ i, W i ω) ^ 2}.indicator 1 ω)
    (hGW.add (measurable_one.indicator hlarge)) hdom).trans ?_
  rw [lintegral_add_left hGW, lintegral_indicator_one hlarge]
  refine add_le_add ?_ ?_
  · rw [joint_mean hWm hX hind hlaw hGm]
    have hbm : MeasurableSet {ω | big fun i => W i ω} := hWm hbigm
    have h1 : ∀ ω, ∫⁻ y, G (fun i => W i ω, y) ∂uniformPositions n D ≤ {ω | big fun i => W i ω}.indicator 1 ω + ENNReal.ofReal (Real.exp (-K / 6)) := by
      intro ω
      by_cases hb : big fun i => W i ω
      · rw [Set.indicator_of_mem (by exact hb)]
        simp only [hG, hb, if_true, lintegral_const, measure_univ, mul_one]
        exact le_self_add
      · rw [Set.indicator_of_notMem (by exact hb), zero_add]
        simp only [hG, if_neg hb]
        refine rowBound_upper hD1 u ha (fun v => ?_) (by linarith) ?_
        · have := (hT.range u ω).1
          have := (hT.range v ω).1
          positivity
        · simp only [hbig] at hb
          push Not at hb
          refine le_trans (le_of_eq ?_) hb
          rw [hAdef, ← Finset.mul_sum, ← Finset.mul_sum]
          field_simp
    refine (lintegral_mono h1).trans ?_
    rw [lintegral_add_right _ measurable_const, lintegral_indicator_one hbm, lintegral_const, measure_univ, mul_one]
    refine add_le_add ?_ le_rfl
    have hset : {ω | big fun i => W i ω} = {ω | (K : ℝ) / (2 * A * κ) < W u ω * rest W u ω} := by
      ext ω
      simp only [hbig, Set.mem_setOf_eq, rest]
      rw [div_lt_iff₀ (by positivity), div_lt_iff₀ (by positivity)]
      constructor <;> intro h <;> linarith
    rw [hset]
    refine (product_tail hT u (by positivity)).trans (ENNReal.ofReal_le_ofReal (le_of_eq ?_))
    rw [show ple - 1 - 1 = ple - 2 by ring, hκ]
    congr 2
    field_simp
  · refine (sum_large hT hB).trans (ENNReal.ofReal_le_ofReal (Real.exp_le_exp.2 (le_of_eq ?_)))
    rw [show ple - 1 - 1 = ple - 2 by ring]
    congr 1
    have e : √B / n = √(B / n ^ 2) := by
      rw [Real.sqrt_div hB, Real.sqrt_sq (by linarith)]
    rw [e, hBdef]
    congr 1
    field_simp

set_option maxHeartbeats 1000000 in
/-- C100, lower bound, same setting.  The probability that node `u` has degree at least `K` is at least a constant times `(desired/K)^(ple-1)`, up to a term that
comes from the bound `n/2` for the weights; the numbers are such that a sum of weights of three times its expectation is not too large for the data structure. -/
theorem C100_lower (he : IdealEngine eng μ) (hσ : IndependentStates P μ σ) (hn : 3 ≤ n) (h31 : n < 2147483648) (hD1 : 1 ≤ D) (hD5 : D ≤ 5) (hple : 2 < ple)
    (hw : 0 ≤ wseed ∧ wseed + nodeThreads omp n wpar ≤ 2147483648) (hp : 0 ≤ pseed ∧ pseed + nodeThreads omp n ppar ≤ 2147483648)
    (hd : wseed + nodeThreads omp n wpar ≤ pseed ∨ pseed + nodeThreads omp n ppar ≤ wseed)
    (hwts : ∀ ω, GenerateWeights omp (withSeeds eng fun s => σ s ω) (fun k => device k ω) n (fin ple) wseed wpar (wts ω))
    (hpos : ∀ ω, GeneratePositions omp (withSeeds eng fun s => σ s ω) (fun k => device k ω) n D pseed ppar (pos ω))
    {part : List (List ℕ)} (hpart : part.flatten.Perm (List.range n)) {alg : StdAlg XR} {ndebug : Bool} {alpha : XR}
    (ha : alpha = .pinf ∨ ∃ a : ℝ, alpha = fin a ∧ 1 < a) {desired : ℝ} (hd1 : 1 ≤ desired) (hdn : alphaFactor alpha * (desired + 1 / 2) ≤ n - 1) {sc : Ω → XR}
    (hsc : ∀ ω, ScaleWeights alg ndebug part (wts ω) (fin desired) D alpha (.returned (sc ω) (ws ω)))
    (hr : IdealRng rng ν) (env : Env) (u : Fin n) {K : ℕ} (hK : 1 ≤ K) (hKn : 2 * K < n)
    (hsize : alphaFactor alpha * 2 ^ D * (9 * ((ple - 1) / (ple - 2)) ^ 2 * n) < 2 ^ 29 * (desired - 2 / 100)) :
    ENNReal.ofReal (((max 1 (28 * alphaFactor alpha * ((ple - 1) / (ple - 2)) ^ 2 * K / desired)) ^ (-(ple - 1)) - ((n : ℝ) / 2) ^ (-(ple - 1))) / 8) ≤
      ∫⁻ ω, edgesProb env rng ν (ws ω) (pos ω) alpha (incident u) (fun k => K ≤ k) ∂P := by
  obtain ⟨W, X, hP, hT, hX, hlaw, hind, hout⟩ := nodes_random he hσ hn hple hw hp hd hwts hpos
  have hA := alphaFactor_one_le ha
  have hnR : (3 : ℝ) ≤ n := by exact_mod_cast hn
  have hKR : (1 : ℝ) ≤ K := by exact_mod_cast hK
  have hKnR : (2 : ℝ) * K ≤ n - 1 := by
    have : (2 * K + 1 : ℕ) ≤ n := hKn
    have h2 : ((2 * K + 1 : ℕ) : ℝ) ≤ n := by exact_mod_cast this
    push_cast at h2
    linarith
  have hWm : Measurable fun ω (i : Fin n) => W i ω := measurable_pi_lambda _ hT.meas
  generalize hAdef : alphaFactor alpha = A at *
  have hm1 : 1 ≤ (ple - 1) / (ple - 2) := by rw [le_div_iff₀ (by linarith)]; linarith
  generalize hm : (ple - 1) / (ple - 2) = m at *
  set y : ℝ := max 1 (28 * A * m ^ 2 * K / desired) with hy
  have hy1 : 1 ≤ y := le_max_left _ _
  have hy2 : 28 * A * m ^ 2 * K ≤ y * desired := by
    rw [← div_le_iff₀ (by linarith)]; exact le_max_right _ _
  set t : ℝ := 3 * K / n / 2 ^ D with ht
  have ht0 : 0 < t := by positivity
  set good : Set Ω := {ω | y < W u ω ∧ rest W u ω ≤ 2 * m * n} with hgood
  set GW : Set (Fin n → ℝ) := {w | y < w u ∧ ∑ v ∈ Finset.univ.erase u, w v ≤ 2 * m * n} with hGW
  have hGWm : MeasurableSet GW := by
    refine MeasurableSet.inter (measurableSet_lt measurable_const (measurable_pi_apply u)) ?_
    exact measurableSet_le (Finset.measurable_sum _ fun v _ => measurable_pi_apply v) measurable_const
  have hgm : MeasurableSet good := hWm hGWm
  have hbm : Measurable fun x : Fin n → Fin D → ℝ => rowBound D u .pinf (fun _ => t) (-Real.log 2) K x :=
    rowBound_measurable' u .pinf (-Real.log 2) K measurable_const measurable_id
  have hdom : ∀ ω, good.indicator 1 ω * (1 - rowBound D u .pinf (fun _ => t) (-Real.log 2) K (X ω)) ≤
      edgesProb env rng ν (ws ω) (pos ω) alpha (incident u) (fun k => K ≤ k) := by
    intro ω
    by_cases hg : ω ∈ good
    swap
    · rw [Set.indicator_of_notMem hg, zero_mul]; exact bot_le
    rw [Set.indicator_of_mem hg, Pi.one_apply, one_mul]
    obtain ⟨o1, o2, o3⟩ := hout ω
    have hsω := hsc ω
    rw [o1] at hsω
    obtain ⟨k, hk, hws, _, k2, k3⟩ := scaled_path hn h31 hD1 hD5 (fun i => hT.range i ω) hpart ha hd1 (by rw [hAdef]; exact hdn) hsω
    rw [hAdef] at k2 k3
    have hsp : 0 < ∑ i, W i ω := by
      refine Finset.sum_pos (fun i _ => by linarith [(hT.range i ω).1]) ⟨u, Finset.mem_univ _⟩
    have hs3 : ∑ i, W i ω ≤ 3 * m * n := by
      rw [sum_split (fun i => W i ω) u]
      have h1 := (hT.range u ω).2
      have h2 : ∑ v ∈ Finset.univ.erase u, W v ω ≤ 2 * m * n := hg.2
      nlinarith
    have hs9 : (∑ i, W i ω) ^ 2 ≤ 9 * m ^ 2 * n * n := by
      have := pow_le_pow_left₀ hsp.le hs3 2
      nlinarith
    have hsup := k3 (by
      have h1 : A * 2 ^ D * (∑ i, W i ω) ^ 2 ≤ A * 2 ^ D * (9 * m ^ 2 * n * n) := mul_le_mul_of_nonneg_left hs9 (by positivity)
      have h2 : A * 2 ^ D * (9 * m ^ 2 * n) * n < 2 ^ 29 * (desired - 2 / 100) * n := mul_lt_mul_of_pos_right hsize (by linarith)
      linarith) (List.ofFn (X ω)) (by simp) (by
        intro q hq
        obtain ⟨i, rfl⟩ := List.mem_ofFn.1 hq
        exact o3 i)
    obtain ⟨pr, p1, p2⟩ := node_tail hsup ha env hr u
    have hc := edgesProb_compl hsup alpha env hr (incident u) fun k => K ≤ k
    rw [hws, o2]
    have hlow : edgesProb env rng ν (xw (List.ofFn fun i => W i ω * k)) (xl (List.ofFn (X ω))) alpha (incident u) (fun k => ¬ K ≤ k) ≤
        rowBound D u .pinf (fun _ => t) (-Real.log 2) K (X ω) := by
      have hl2 : 0 ≤ Real.log 2 := Real.log_nonneg (by norm_num)
      refine (p2 (-Real.log 2) K _ fun N hN => ?_).trans ?_
      · have : (N : ℝ) ≤ K := by
          push Not at hN
          exact_mod_cast hN.le
        nlinarith
      unfold rowBound
      refine mul_le_mul le_rfl (Finset.prod_le_prod' fun v _ => ?_) bot_le bot_le
      split_ifs with huv
      · exact le_rfl
      refine ENNReal.ofReal_le_ofReal ?_
      have e1 : Real.exp (-Real.log 2) - 1 = -(1 / 2) := by rw [Real.exp_neg, Real.exp_log two_pos]; norm_num
      rw [e1]
      have hWu : y < W u ω := hg.1
      have hWv := (hT.range v ω).1
      have htt : t ≤ W u ω * k * (W v ω * k) / ∑ i, W i ω * k := by
        rw [scaled_ratio (fun i => W i ω) hk]
        have h1 : y ≤ W u ω * W v ω := by nlinarith
        have h2 : (desired - 2 / 100) * n / (A * 2 ^ D * (∑ i, W i ω) ^ 2) ≤ k / ∑ i, W i ω := by
          rw [div_le_div_iff₀ (by positivity) hsp]
          calc _ ≤ A * (2 ^ D * (∑ i, W i ω) * k) * ∑ i, W i ω := mul_le_mul_of_nonneg_right k2 hsp.le
            _ = _ := by ring
        have hdd : 0 < desired - 2 / 100 := by linarith
        have h3 : (desired - 2 / 100) * n / (A * 2 ^ D * (9 * m ^ 2 * n * n)) ≤ (desired - 2 / 100) * n / (A * 2 ^ D * (∑ i, W i ω) ^ 2) :=
          div_le_div_of_nonneg_left (by positivity) (by positivity) (mul_le_mul_of_nonneg_left hs9 (by positivity))
        have h4 : t ≤ (desired - 2 / 100) * n / (A * 2 ^ D * (9 * m ^ 2 * n * n)) * y := by
          have e : (desired - 2 / 100) * n / (A * 2 ^ D * (9 * m ^ 2 * n * n)) * y = (desired - 2 / 100) * y / (A * 9 * m ^ 2) / n / 2 ^ D := by
            field_simp
          rw [ht, e]
          refine div_le_div_of_nonneg_right (div_le_div_of_nonneg_right ?_ (by linarith)) (by positivity)
          rw [le_div_iff₀ (by positivity)]
          have h5 : desired * (49 / 50) ≤ desired - 2 / 100 := by linarith
          have h6 : desired * (49 / 50) * y ≤ (desired - 2 / 100) * y := mul_le_mul_of_nonneg_right h5 (by linarith)
          have h7 : 0 ≤ A * m ^ 2 * K := by positivity
          linarith
        refine h4.trans ((mul_le_mul_of_nonneg_right (h3.trans h2) (by linarith)).trans (mul_le_mul_of_nonneg_left h1 (by positivity)))
      have h8 : linkProb .pinf D t (torusDist (X ω u) (X ω v)) ≤ pr v := by
        refine le_trans ?_ (p1 v huv).1
        show (if _ then (1 : ℝ) else 0) ≤ _
        split_ifs with a1 a2
        · exact le_rfl
        · exact absurd (a1.trans_le htt) a2
        · exact zero_le_one
        · exact le_rfl
      linarith
    rw [tsub_le_iff_right]
    exact hc.trans (add_le_add le_rfl hlow)
  refine le_trans ?_ (lintegral_mono hdom)
  have hi : IndepFun (fun ω => good.indicator (1 : Ω → ℝ≥0∞) ω) (fun ω => 1 - rowBound D u .pinf (fun _ => t) (-Real.log 2) K (X ω)) P := by
    have := hind.comp (φ := GW.indicator (1 : (Fin n → ℝ) → ℝ≥0∞)) (ψ := fun x => 1 - rowBound D u .pinf (fun _ => t) (-Real.log 2) K x)
      (measurable_one.indicator hGWm) (measurable_const.sub hbm)
    exact this
  have hm1' : Measurable fun ω => good.indicator (1 : Ω → ℝ≥0∞) ω := measurable_one.indicator hgm
  have hbX : Measurable fun ω => rowBound D u .pinf (fun _ => t) (-Real.log 2) K (X ω) := hbm.comp hX
  have hm2' : Measurable fun ω => 1 - rowBound D u .pinf (fun _ => t) (-Real.log 2) K (X ω) := measurable_const.sub hbX
  have hmul := lintegral_mul_eq_lintegral_mul_lintegral_of_indepFun hm1' hm2' hi
  have hmul' : ∫⁻ ω, good.indicator (1 : Ω → ℝ≥0∞) ω * (1 - rowBound D u .pinf (fun _ => t) (-Real.log 2) K (X ω)) ∂P =
    (∫⁻ ω, good.indicator (1 : Ω → ℝ≥0∞) ω ∂P) * ∫⁻ ω, 1 - rowBound D u .pinf (fun _ => t) (-Real.log 2) K (X ω) ∂P := hmul
  rw [hmul', lintegral_indicator_one hgm]
  have hmean : ∫⁻ ω, rowBound D u .pinf (fun _ => t) (-Real.log 2) K (X ω) ∂P ≤ ENNReal.ofReal (3 / 4) := by
    have e : ∫⁻ ω, rowBound D u .pinf (fun _ => t) (-Real.log 2) K (X ω) ∂P = ∫⁻ x, rowBound D u .pinf (fun _ => t) (-Real.log 2) K x ∂uniformPositions n D := by
      rw [← hlaw, lintegral_map hbm hX]
    rw [e]
    refine rowBound_lower hD1 u ht0 hKR ?_
    have e2 : 2 ^ D * t = 3 * K / n := by rw [ht]; field_simp
    rw [e2]
    rcases le_total 1 (3 * (K : ℝ) / n) with h1 | h1
    · rw [min_eq_left h1]; linarith
    · rw [min_eq_right h1]
      rw [mul_div_assoc', le_div_iff₀ (by linarith)]
      nlinarith
  have hquarter : ENNReal.ofReal (1 / 4) ≤ ∫⁻ ω, 1 - rowBound D u .pinf (fun _ => t) (-Real.log 2) K (X ω) ∂P := by
    refine le_trans ?_ (lintegral_sub_le _ _ hbX)
    rw [lintegral_one, measure_univ]
    refine le_trans ?_ (tsub_le_tsub_left hmean 1)
    rw [← ENNReal.ofReal_one, ← ENNReal.ofReal_sub _ (by norm_num)]
    exact ENNReal.ofReal_le_ofReal (by norm_num)
  have hgl := product_lower hT u hy1
  rw [show ple - 1 - 1 = ple - 2 by ring, hm] at hgl
  refine le_trans ?_ (mul_le_mul hgl hquarter bot_le bot_le)
  rw [← ENNReal.ofReal_mul' (by norm_num)]
  exact ENNReal.ofReal_le_ofReal (le_of_eq (by ring))

end Pipeline

/-- C100 at work: a million nodes, power law exponent 3, dimension 1, `alpha = infinity`, desired average degree 10, ideal engines.  For all `K` from 1000 to
10000 the probability that node 7 has degree at least `K` is between `1/(1100 K²)` and `4800/K²`. -/
example (n : ℕ) (hn : n = 1000000) : ∃ (P : Measure (ℤ → ℕ → ℝ)) (ν : Measure idealRng.G) (wts ws : (ℤ → ℕ → ℝ) → List XR) (sc : (ℤ → ℕ → ℝ) → XR)
    (pos : (ℤ → ℕ → ℝ) → List (List XR)), IsProbabilityMeasure P ∧
    (∀ ω, GenerateWeights exampleOmp (withSeeds streamEngine fun s => ω s) (fun _ => (fun _ => 0)) n (fin 3) 12 true (wts ω)) ∧
    (∀ ω, ScaleWeights (mergeAlg XR) true [List.range n] (wts ω) (fin 10) 1 .pinf (.returned (sc ω) (ws ω))) ∧
    (∀ ω, GeneratePositions exampleOmp (withSeeds streamEngine fun s => ω s) (fun _ => (fun _ => 0)) n 1 130 true (pos ω)) ∧
    ∀ K : ℕ, 1000 ≤ K → K ≤ 10000 →
      ENNReal.ofReal (1 / (1100 * K ^ 2)) ≤ ∫⁻ ω, edgesProb (exampleEnv true) idealRng ν (ws ω) (pos ω) .pinf (incident 7) (fun k => K ≤ k) ∂P ∧
      upperMean P (fun ω => edgesProb (exampleEnv true) idealRng ν (ws ω) (pos ω) .pinf (incident 7) fun k => K ≤ k) ≤ ENNReal.ofReal (4800 / K ^ 2) := by
  have hnR : (n : ℝ) = 1000000 := by rw [hn]; norm_num
  have hthreads : nodeThreads exampleOmp n true ≤ 118 := by rw [hn]; decide
  obtain ⟨W, w1, _, _, w4, _⟩ := C92_weights (P := Measure.infinitePi fun _ : ℤ => seqMeasure) (σ := fun (s : ℤ) (ω : ℤ → ℕ → ℝ) => ω s) (omp := exampleOmp)
    (device := fun _ _ => (fun _ => 0 : ℕ → ℝ)) (n := n) (parallel := true) (seed := 12) (ple := 3)
    streamEngine_ideal (by omega) (by norm_num) (Or.inl ⟨by norm_num, by omega, streamStates⟩)
  obtain ⟨X, x1, _⟩ := C92_positions (P := Measure.infinitePi fun _ : ℤ => seqMeasure) (σ := fun (s : ℤ) (ω : ℤ → ℕ → ℝ) => ω s) (D := 1) (omp := exampleOmp)
    (device := fun _ _ => (fun _ => 0 : ℕ → ℝ)) (n := n) (parallel := true) (seed := 130)
    streamEngine_ideal (Or.inl ⟨by norm_num, by omega, streamStates⟩)
  have hwts := fun ω => (w1 ω _).2 rfl
  have hpos := fun ω => (x1 ω _).2 rfl
  have hret : ∀ ω, ∃ (s : XR) (ws : List XR), ScaleWeights (mergeAlg XR) true [List.range n] (List.ofFn fun i => fin (W i ω)) (fin 10) 1 .pinf (.returned s ws) := by
    intro ω
    have hl : (List.ofFn fun i => W i ω).length = n := List.length_ofFn
    have hN : NormalWeights (List.ofFn fun i => W i ω) := girg_normal (n := n) (by omega) (by
      intro y hy
      obtain ⟨i, rfl⟩ := List.mem_ofFn.1 hy
      exact w4 i ω)
    have := (C59_returns_iff (part := [List.range n]) (d := 1) hN (by omega) (by omega) (by rw [hl]; simp) (mergeAlg XR) le_rfl (by norm_num)
      (alpha := .pinf) (Or.inl rfl) 10).1.2 (by rw [hl, hnR]; norm_num)
    rw [List.map_ofFn] at this
    exact this
  choose sc ws hsc using hret
  refine ⟨Measure.infinitePi fun _ : ℤ => seqMeasure, seqMeasure, _, ws, sc, _, inferInstance, hwts, hsc, hpos, fun K h1 h2 => ?_⟩
  have hK1 : (1000 : ℝ) ≤ K := by exact_mod_cast h1
  have hK2 : (K : ℝ) ≤ 10000 := by exact_mod_cast h2
  obtain ⟨u, hu⟩ : ∃ u : Fin n, u.1 = 7 := ⟨⟨7, by omega⟩, rfl⟩
  rw [← hu]
  have hA : alphaFactor .pinf = 1 := rfl
  constructor
  · refine le_trans (ENNReal.ofReal_le_ofReal ?_) (C100_lower streamEngine_ideal streamStates (by omega) (by omega) le_rfl (by norm_num) (by norm_num)
      ⟨by norm_num, by omega⟩ ⟨by norm_num, by omega⟩ (Or.inl (by omega)) hwts hpos (by simp) (Or.inl rfl) (by norm_num)
      (by rw [hA, hnR]; norm_num) hsc idealRng_ideal (exampleEnv true) u (K := K) (by omega) (by omega) (by rw [hA, hnR]; norm_num))
    rw [hA, hnR, max_eq_right (by linarith)]
    rw [show (-(3 - 1) : ℝ) = -(2 : ℕ) by norm_num, Real.rpow_neg (by positivity), Real.rpow_neg (by norm_num), Real.rpow_natCast, Real.rpow_natCast]
    have e : (28 * 1 * ((3 - 1) / (3 - 2) : ℝ) ^ 2 * K / 10) ^ 2 = 125.44 * K ^ 2 := by ring
    rw [e]
    have hk : (K : ℝ) ^ 2 ≤ 10 ^ 8 := by nlinarith
    have hk0 : (0 : ℝ) < K ^ 2 := by positivity
    have h3 : (1 / 10 ^ 8 : ℝ) ≤ (K ^ 2 : ℝ)⁻¹ := by rw [one_div]; exact inv_anti₀ hk0 hk
    rw [mul_inv, one_div, mul_inv]
    linarith
  · refine (C100_upper streamEngine_ideal streamStates (by omega) (by omega) le_rfl (by norm_num) (by norm_num)
      ⟨by norm_num, by omega⟩ ⟨by norm_num, by omega⟩ (Or.inl (by omega)) hwts hpos (by simp) (Or.inl rfl) (by norm_num)
      (by rw [hA, hnR]; norm_num) hsc idealRng_ideal (exampleEnv true) u (K := K) (by omega)).trans ?_
    rw [hA, hnR, ← ENNReal.ofReal_add (by positivity) (by positivity), ← ENNReal.ofReal_add (by positivity) (by positivity)]
    refine ENNReal.ofReal_le_ofReal ?_
    have hk0 : (0 : ℝ) < K ^ 2 := by positivity
    have t1 : Real.exp (3 / 2 * ((3 - 1) / (3 - 2))) * (2 * (3 - 1) * 1 ^ 2 * (10 + 1 / 2) / (Real.exp 1 * K)) ^ (3 - 1 : ℝ) ≤ 4796 / K ^ 2 := by
      rw [show (3 - 1 : ℝ) = (2 : ℕ) by norm_num, Real.rpow_natCast, div_pow, mul_pow, show (3 / 2 * ((2 : ℕ) / (3 - 2)) : ℝ) = (3 : ℕ) * 1 by norm_num,
        Real.exp_nat_mul]
      have he := Real.exp_one_lt_d9
      have hp := Real.exp_pos 1
      rw [mul_div_assoc', div_le_div_iff₀ (by positivity) hk0]
      push_cast
      have : Real.exp 1 ^ 3 * (2 * 2 * 1 ^ 2 * (10 + 1 / 2)) ^ 2 ≤ 4796 * Real.exp 1 ^ 2 := by nlinarith [mul_pos hp hp]
      nlinarith
    have t2 : Real.exp (-K / 6) ≤ 1 / K ^ 2 := by
      rw [neg_div, Real.exp_neg, ← one_div]
      refine one_div_le_one_div_of_le hk0 ?_
      have := Real.pow_div_factorial_le_exp ((K : ℝ) / 6) (by positivity) 4
      refine le_trans ?_ this
      rw [show ((Nat.factorial 4 : ℕ) : ℝ) = 24 by norm_num [Nat.factorial], le_div_iff₀ (by norm_num)]
      have h4 : (1000 : ℝ) ^ 2 ≤ K ^ 2 := by nlinarith
      have e : ((K : ℝ) / 6) ^ 4 = K ^ 2 * (K ^ 2 / 1296) := by ring
      rw [e]
      refine mul_le_mul_of_nonneg_left ?_ hk0.le
      linarith
    have t3 : Real.exp (3 / 2 * ((3 - 1) / (3 - 2)) + 3 / 4 - √(2 ^ 29 * (10 - 2 / 100) / (1 * 2 ^ 1 * 1000000))) ≤ 1 / K ^ 2 := by
      have hs : (51.75 : ℝ) ≤ √(2 ^ 29 * (10 - 2 / 100) / (1 * 2 ^ 1 * 1000000)) := Real.le_sqrt_of_sq_le (by norm_num)
      have h5 : Real.exp (3 / 2 * ((3 - 1) / (3 - 2)) + 3 / 4 - √(2 ^ 29 * (10 - 2 / 100) / (1 * 2 ^ 1 * 1000000))) ≤ Real.exp (-48) :=
        Real.exp_le_exp.2 (by linarith)
      refine h5.trans ?_
      rw [Real.exp_neg, ← one_div]
      refine one_div_le_one_div_of_le hk0 ?_
      have := Real.pow_div_factorial_le_exp (48 : ℝ) (by norm_num) 8
      refine le_trans ?_ this
      rw [show ((Nat.factorial 8 : ℕ) : ℝ) = 40320 by norm_num [Nat.factorial]]
      nlinarith
    have : 4800 / (K : ℝ) ^ 2 = 4796 / K ^ 2 + 1 / K ^ 2 + 1 / K ^ 2 + 2 / K ^ 2 := by ring
    have h6 : 0 < 2 / (K : ℝ) ^ 2 := by positivity
    linarith

end Girgs.Props
