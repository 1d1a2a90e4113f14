import Verif.Spec.Degree
import Verif.Proofs.WorkLaw
import Verif.Proofs.ScalingReturns
import Verif.Spec.Inclusion
/-
The expected number of edges of the graph, for fixed and for random positions.
-/
namespace Girgs
open MeasureTheory Spec CFloat Tree
open scoped ENNReal

/-- the unordered pairs of distinct nodes -/
def upairs (n : ℕ) : Finset (ℕ × ℕ) := {e ∈ Finset.range n ×ˢ Finset.range n | e.1 < e.2}

theorem mem_upairs {n : ℕ} {e : ℕ × ℕ} : e ∈ upairs n ↔ e.1 < e.2 ∧ e.2 < n := by
  unfold upairs
  simp only [Finset.mem_filter, Finset.mem_product, Finset.mem_range]
  omega

/-- sums over a list of all unordered pairs -/
theorem sum_eachPair {n : ℕ} {es : List (ℕ × ℕ)} (h : EachPairOnce n es) (hs : IsSimpleGraph n es) (f : ℕ → ℕ → ℝ≥0∞) (hf : ∀ u v, f u v = f v u) :
    (es.map fun e => f e.1 e.2).sum = ∑ e ∈ upairs n, f e.1 e.2 := by
  set N : ℕ × ℕ → ℕ × ℕ := fun e => (min e.1 e.2, max e.1 e.2) with hN
  have e1 : (es.map fun e => f e.1 e.2) = (es.map N).map fun e => f e.1 e.2 := by
    rw [List.map_map]
    apply List.map_congr_left
    intro e _
    simp only [Function.comp, hN]
    rcases le_total e.1 e.2 with h | h
    · rw [min_eq_left h, max_eq_right h]
    · rw [min_eq_right h, max_eq_left h, hf]
  have hnd : (es.map N).Nodup := by
    refine List.Pairwise.map N (R := fun e f => e ≠ f ∧ e ≠ f.swap) ?_ hs.2
    rintro ⟨a, b⟩ ⟨c, d⟩ ⟨h1, h2⟩ h3
    simp only [hN, Prod.mk.injEq, Prod.swap_prod_mk, ne_eq] at h1 h2 h3
    omega
  rw [e1, ← List.sum_toFinset _ hnd]
  apply Finset.sum_congr _ (fun _ _ => rfl)
  ext ⟨u, v⟩
  simp only [List.mem_toFinset, List.mem_map, mem_upairs]
  constructor
  · rintro ⟨e, he, h2⟩
    have := h.1 e he
    simp only [hN, Prod.mk.injEq] at h2
    omega
  · rintro ⟨huv, hv⟩
    have h2 := h.2 u v (by omega) hv (by omega)
    unfold occurrences at h2
    by_cases h3 : (u, v) ∈ es
    · exact ⟨_, h3, by simp only [hN, Prod.mk.injEq]; omega⟩
    · have h4 : (v, u) ∈ es := by
        rw [List.count_eq_zero_of_not_mem h3, Nat.zero_add] at h2
        exact List.count_pos_iff.1 (by omega)
      exact ⟨_, h4, by simp only [hN, Prod.mk.injEq]; omega⟩

/-- ordered and unordered pairs -/
theorem sum_upairs {n : ℕ} {f : ℕ → ℕ → ℝ} (hf : ∀ u v, f u v = f v u) :
    ∑ u : Fin n, ∑ v : Fin n, (if u = v then 0 else f u v) = 2 * ∑ e ∈ upairs n, f e.1 e.2 := by
  have h1 : ∑ u : Fin n, ∑ v : Fin n, (if u = v then 0 else f u v) = ∑ u ∈ Finset.range n, ∑ v ∈ Finset.range n, (if u = v then 0 else f u v) := by
    rw [← Fin.sum_univ_eq_sum_range (fun u => ∑ v ∈ Finset.range n, (if u = v then 0 else f u v))]
    refine Finset.sum_congr rfl fun u _ => ?_
    rw [← Fin.sum_univ_eq_sum_range (fun v => if u.1 = v then 0 else f u v)]
    refine Finset.sum_congr rfl fun v _ => ?_
    simp only [Fin.ext_iff]
  rw [h1, ← Finset.sum_product', two_mul]
  have h2 : ∑ e ∈ upairs n, f e.1 e.2 = ∑ e ∈ Finset.range n ×ˢ Finset.range n, if e.1 < e.2 then f e.1 e.2 else 0 := by
    unfold upairs
    rw [Finset.sum_filter]
  have h3 : ∑ e ∈ upairs n, f e.1 e.2 = ∑ e ∈ Finset.range n ×ˢ Finset.range n, if e.2 < e.1 then f e.1 e.2 else 0 := by
    rw [h2, Finset.sum_product, Finset.sum_product, Finset.sum_comm]
    exact Finset.sum_congr rfl fun u _ => Finset.sum_congr rfl fun v _ => by simp only [hf v u]
  conv_rhs => enter [1]; rw [h2]
  rw [h3, ← Finset.sum_add_distrib]
  refine Finset.sum_congr rfl fun e _ => ?_
  rcases lt_trichotomy e.1 e.2 with h | h | h
  · simp [h, h.ne, h.not_gt]
  · simp [h]
  · simp [h, h.ne', h.not_gt]

variable {D : Nat} {ndebug : Bool} {w : List ℝ} {x : List (Fin D → ℝ)} {a : ℝ} {T : Tree XR D} {m : ℝ}
variable {rng : Rng XR} [MeasurableSpace rng.G] {μ : Measure rng.G}

theorem edgePr_unit (b : BuiltX D ndebug w x (XR.fin a) T m) (s : SupportedInput D w x) (ha : 0 < a) {u v : ℕ}
    (hu : u < w.length) (hv : v < w.length) (huv : u ≠ v) : 0 ≤ edgePr T u v ∧ edgePr T u v ≤ 1 := by
  have h3 := girgProb_nonneg (a := a) s u v
  rcases b.edgePr_spec s ha hu hv huv with h | h
  · rw [h]; exact h3
  · rw [h.1]; exact ⟨by norm_num, by norm_num⟩

/-- the expected number of edges for fixed positions -/
theorem edges_law (id : IdealRng rng μ) {env : Env} (b : BuiltX D env.ndebug w x (XR.fin a) T m) (hT : Constructed env.ndebug (xw w) (xp x) (XR.fin a) T)
    (s : SupportedInput D w x) (ha : 0 < a) :
    expectedEdges env rng μ (xw w) (xl x) (XR.fin a) = ENNReal.ofReal (∑ e ∈ upairs w.length, edgePr T e.1 e.2) := by
  obtain ⟨L, h1, h2⟩ := result_event id b hT s ha
  have hfst : (L.map Prod.fst).Perm ((allCoins T).map Prod.fst) := h1.map _
  have honce : EachPairOnce w.length (L.map Prod.fst) := eachPairOnce_perm hfst (b.allCoins_once (List.Perm.refl _))
  have hsim := EachPairOnce.simple honce (List.Subperm.refl _)
  unfold expectedEdges
  have e1 : ∀ k : ℕ, (k : ℝ≥0∞) * (Measure.pi fun _ : Fin env.threads => μ)
      {g | ∃ out notice, GenerateEdges env rng (gensOf env.threads_pos g) (xw w) (xl x) (XR.fin a) out notice ∧ out.length = k} =
      ∑' es, flips L es * (if es.length = k then (k : ℝ≥0∞) else 0) := by
    intro k
    rw [h2 (fun es => es.length = k) (fun es fs h => by rw [h.length_eq]), ← ENNReal.tsum_mul_left]
    refine tsum_congr fun es => ?_
    by_cases h : es.length = k
    · rw [Set.indicator_of_mem (by exact h), if_pos h, Pi.one_apply, mul_one, mul_comm]
    · rw [Set.indicator_of_notMem (by exact h), if_neg h, mul_zero, mul_zero]
  rw [tsum_congr e1, ENNReal.tsum_comm]
  have e2 : ∀ es : List (ℕ × ℕ), ∑' k : ℕ, flips L es * (if es.length = k then (k : ℝ≥0∞) else 0) = flips L es * es.length := by
    intro es
    rw [tsum_eq_single es.length]
    · rw [if_pos rfl]
    · intro k hk
      rw [if_neg (Ne.symm hk), mul_zero]
  rw [tsum_congr e2, flips_length, ENNReal.ofReal_sum_of_nonneg]
  · rw [← sum_eachPair honce hsim (fun u v => ENNReal.ofReal (edgePr T u v)) (fun u v => by rw [edgePr_comm]), List.map_map]
    congr 1
    apply List.map_congr_left
    rintro ⟨⟨u, v⟩, q⟩ hm
    have hin := honce.1 _ (List.mem_map.2 ⟨_, hm, rfl⟩)
    simp only at hin
    have e1 := b.edgePr_eq (h1.mem_iff.1 hm)
    have hb := edgePr_unit b s ha hin.1 hin.2.1 hin.2.2
    rw [e1] at hb
    simp only [Function.comp, e1, unit_eq hb.1 hb.2]
  · intro e he
    have := mem_upairs.1 he
    exact (edgePr_unit b s ha (by omega) this.2 (by omega)).1

/-! ### random positions -/

/-- a random number with values in `[0,∞]` below an integrable function of the positions -/
theorem lintegral_le_of {Ω : Type} [MeasurableSpace Ω] {P : Measure Ω} {E : Type} [MeasurableSpace E] {X : Ω → E} (hX : Measurable X) {F : Ω → ℝ≥0∞} {S : E → ℝ}
    (hm : Measurable S) (h0 : ∀ y, 0 ≤ S y) (hi : Integrable S (P.map X)) (h : ∀ ω, F ω ≤ ENNReal.ofReal (S (X ω))) :
    ∫⁻ ω, F ω ∂P ≤ ENNReal.ofReal (∫ y, S y ∂P.map X) := by
  refine (lintegral_mono h).trans ?_
  rw [← lintegral_map (f := fun y => ENNReal.ofReal (S y)) (by fun_prop) hX,
    ofReal_integral_eq_lintegral_ofReal hi (Filter.Eventually.of_forall h0)]

/-- a random number with values in `[0,∞]` above an integrable function of the positions -/
theorem le_lintegral_of {Ω : Type} [MeasurableSpace Ω] {P : Measure Ω} {E : Type} [MeasurableSpace E] {X : Ω → E} (hX : Measurable X) {F : Ω → ℝ≥0∞} {S : E → ℝ}
    (hm : Measurable S) (hi : Integrable S (P.map X)) (h : ∀ ω, ENNReal.ofReal (S (X ω)) ≤ F ω) :
    ENNReal.ofReal (∫ y, S y ∂P.map X) ≤ ∫⁻ ω, F ω ∂P := by
  refine le_trans ?_ (lintegral_mono h)
  rw [← lintegral_map (f := fun y => ENNReal.ofReal (S y)) (by fun_prop) hX]
  have h1 : ∫ y, S y ∂P.map X ≤ ∫ y, max (S y) 0 ∂P.map X := integral_mono hi (hi.pos_part) fun y => le_max_left _ _
  refine (ENNReal.ofReal_le_ofReal h1).trans ?_
  rw [ofReal_integral_eq_lintegral_ofReal hi.pos_part (Filter.Eventually.of_forall fun y => le_max_right _ _)]
  refine lintegral_mono fun y => ?_
  rw [ENNReal.ofReal_max]; simp

/-- the number of connected pairs is an integrable function of the positions -/
theorem pairs_integrable {n : ℕ} {f : Fin n → Fin n → (Fin D → ℝ) → (Fin D → ℝ) → ℝ}
    (hm : ∀ u v, Measurable fun z : (Fin D → ℝ) × (Fin D → ℝ) => f u v z.1 z.2) (hb : ∀ u v p q, |f u v p q| ≤ 1) (Q : Measure (Fin n → Fin D → ℝ))
    [IsFiniteMeasure Q] :
    Measurable (fun x : Fin n → Fin D → ℝ => ∑ u : Fin n, ∑ v : Fin n, (if u = v then 0 else f u v (x u) (x v))) ∧
    Integrable (fun x : Fin n → Fin D → ℝ => ∑ u : Fin n, ∑ v : Fin n, (if u = v then 0 else f u v (x u) (x v))) Q := by
  have h1 : ∀ u v : Fin n, Measurable (fun x : Fin n → Fin D → ℝ => if u = v then 0 else f u v (x u) (x v)) := by
    intro u v
    split_ifs
    · exact measurable_const
    · have hpair : Measurable fun x : Fin n → Fin D → ℝ => (x u, x v) := by fun_prop
      exact (hm u v).comp hpair
  refine ⟨Finset.measurable_sum _ fun u _ => Finset.measurable_sum _ fun v _ => h1 u v,
    integrable_finsetSum _ fun u _ => integrable_finsetSum _ fun v _ => ?_⟩
  refine Integrable.of_bound (h1 u v).aestronglyMeasurable 1 (Filter.Eventually.of_forall fun x => ?_)
  rw [Real.norm_eq_abs]
  split_ifs
  · simp
  · exact hb u v _ _

namespace Scaling

/-- the connection probability of the model, as a function of the positions of the pair -/
theorem girgProb_ofFn {w : List ℝ} {n : ℕ} (hn : n = w.length) (x : Fin n → Fin D → ℝ) (a : ℝ) (u v : Fin n) :
    girgProb w (List.ofFn x) a u v = connProb D a (w[u.1] * w[v.1] / w.sum) (torusDist (x u) (x v)) := by
  subst hn
  unfold girgProb
  rw [List.getElem?_eq_getElem u.2, List.getElem?_eq_getElem v.2, List.getElem?_eq_getElem (by simp), List.getElem?_eq_getElem (by simp)]
  simp only [List.getElem_ofFn]
  rfl

/-- the part of the connection probability below `ε` -/
theorem min_connProb {α t r ε : ℝ} (hα : 0 < α) (ht : 0 < t) (hr : 0 ≤ r) (h0 : 0 < ε) (h1 : ε ≤ 1) :
    min (connProb D α t r) ε = ε * connProb D α (t * ε ^ (-(1 / α))) r := by
  unfold connProb
  split_ifs with h
  · rw [min_eq_right h1, mul_one]
  · have hr0 : 0 < r := lt_of_le_of_ne hr (Ne.symm h)
    have e : (t * ε ^ (-(1 / α)) / r ^ D) ^ α = (t / r ^ D) ^ α / ε := by
      rw [show t * ε ^ (-(1 / α)) / r ^ D = t / r ^ D * ε ^ (-(1 / α)) by ring, Real.mul_rpow (by positivity) (by positivity),
        ← Real.rpow_mul h0.le, show -(1 / α) * α = -1 by field_simp, Real.rpow_neg_one, ← div_eq_mul_inv]
    rw [e, mul_min_of_nonneg _ _ h0.le, mul_one, mul_div_cancel₀ _ h0.ne']
    rw [min_assoc, min_comm ((t / r ^ D) ^ α) ε, ← min_assoc, min_eq_right h1]

/-- the expected number of pairs that are connected with probability below `ε` is small -/
theorem min_degree {w : List ℝ} (hD : 1 ≤ D) (hw : ∀ y ∈ w, 0 < y) {α ε : ℝ} (hα : 1 < α) (h0 : 0 < ε) (h1 : ε ≤ 1) :
    expectedAverageDegree w.length D (fun x u v => min (girgProb w x α u v) ε) ≤ α / (α - 1) * ε ^ (1 - 1 / α) * girgDegree D α w := by
  have hα0 : 0 < α := by linarith
  have hpos : ∀ u v : Fin w.length, 0 < w[u] * w[v] / w.sum := fun u v =>
    div_pos (mul_pos (hw _ (List.getElem_mem _)) (hw _ (List.getElem_mem _)))
      (List.sum_pos w hw (by rintro rfl; exact absurd u.2 (by simp)))
  have hk : 0 < ε ^ (-(1 / α)) := Real.rpow_pos_of_pos h0 _
  have hk1 : 1 ≤ ε ^ (-(1 / α)) := Real.one_le_rpow_of_pos_of_le_one_of_nonpos h0 h1 (by simp; linarith)
  have e : expectedAverageDegree w.length D (fun x u v => min (girgProb w x α u v) ε) =
      (∑ u : Fin w.length, ∑ v : Fin w.length, if u = v then 0 else ε * probAlpha α (2 ^ D * (w[u] * w[v] / w.sum * ε ^ (-(1 / α))))) / w.length := by
    refine expected_pairs (f := fun u v p q => min (connProb D α (w[u] * w[v] / w.sum) (torusDist p q)) ε) ?_ ?_ ?_ ?_
    · intro x u v _
      rw [girgProb_ofFn rfl]; rfl
    · intro u v
      exact ((connProb_measurable D α _).comp torusDist_measurable).min measurable_const
    · intro u v p q
      obtain ⟨h2, h3⟩ := connProb_mem (D := D) α _ _ (hpos u v) (torusDist_nonneg p q)
      beta_reduce
      rw [abs_of_nonneg (le_min h2 h0.le)]
      exact (min_le_left _ _).trans h3
    · intro u v q hq
      beta_reduce
      simp only [min_connProb hα0 (hpos u v) (torusDist_nonneg _ q) h0 h1]
      rw [integral_const_mul, conn_expect hD hq hα0 hα.ne' (mul_pos (hpos u v) hk)]
  have e2 : girgDegree D α w = (∑ u : Fin w.length, ∑ v : Fin w.length, if u = v then 0 else probAlpha α (2 ^ D * (w[u] * w[v] / w.sum))) / w.length := by
    rw [girgDegree_eq hD hw hα0 hα.ne', ← listPairs_fin]
  rw [e, e2, ← mul_div_assoc]
  refine div_le_div_of_nonneg_right ?_ (Nat.cast_nonneg _)
  rw [Finset.mul_sum]
  refine Finset.sum_le_sum fun u _ => ?_
  rw [Finset.mul_sum]
  refine Finset.sum_le_sum fun v _ => ?_
  split_ifs with h
  · simp
  · have hp := hpos u v
    generalize w[u] * w[v] / w.sum = t at hp
    have p1 := (probAlpha_bounds hα (show 0 < 2 ^ D * (t * ε ^ (-(1 / α))) by positivity)).2
    have p2 := (probAlpha_bounds hα (show 0 < 2 ^ D * t by positivity)).1
    have hf : 0 < α / (α - 1) := div_pos hα0 (by linarith)
    have p3 : probThreshold (2 ^ D * (t * ε ^ (-(1 / α)))) ≤ ε ^ (-(1 / α)) * probThreshold (2 ^ D * t) := by
      unfold probThreshold
      rw [mul_min_of_nonneg _ _ hk.le]
      refine le_min ((min_le_left _ _).trans (by linarith)) ((min_le_right _ _).trans (le_of_eq (by ring)))
    have e3 : ε ^ (1 - 1 / α) = ε * ε ^ (-(1 / α)) := by
      rw [sub_eq_add_neg, Real.rpow_add h0, Real.rpow_one]
    rw [e3]
    calc ε * probAlpha α (2 ^ D * (t * ε ^ (-(1 / α)))) ≤ ε * (α / (α - 1) * (ε ^ (-(1 / α)) * probAlpha α (2 ^ D * t))) := by
          gcongr
          refine p1.trans ?_
          gcongr
          exact p3.trans (by gcongr)
      _ = _ := by ring

end Scaling

end Girgs
