import Verif.Proofs.ExpectedDegree
/-
The expected average degree of the scaled weights.
-/
namespace Girgs.Scaling
open Spec MeasureTheory Set

variable {D : ℕ}

/-- sum over the ordered pairs of distinct entries -/
noncomputable def listPairs (w : List ℝ) (g : ℝ → ℝ → ℝ) : ℝ :=
  (w.map fun a => (w.map fun b => g a b).sum).sum - (w.map fun a => g a a).sum

theorem listPairs_fin (w : List ℝ) (g : ℝ → ℝ → ℝ) :
    ∑ u : Fin w.length, ∑ v : Fin w.length, (if u = v then 0 else g w[u] w[v]) = listPairs w g := by
  have hs : ∀ h : ℝ → ℝ, ∑ v : Fin w.length, h w[v] = (w.map h).sum := fun h => by
    rw [← List.sum_ofFn]
    congr 1
    conv_rhs => rw [← List.ofFn_getElem (xs := w), List.map_ofFn]
    rfl
  have h1 : ∀ u : Fin w.length, ∑ v : Fin w.length, (if u = v then 0 else g w[u] w[v]) =
      (w.map fun b => g w[u] b).sum - g w[u] w[u] := by
    intro u
    rw [← hs, ← Finset.sum_erase_eq_sub (Finset.mem_univ u), ← Finset.sum_erase (a := u) _ (by simp)]
    refine Finset.sum_congr rfl fun v hv => ?_
    rw [if_neg (Ne.symm (Finset.mem_erase.1 hv).1)]
  rw [Finset.sum_congr rfl fun u _ => h1 u, Finset.sum_sub_distrib]
  unfold listPairs
  rw [← hs, ← hs (fun a => g a a)]

theorem listPairs_bw (w : List ℝ) (g : ℝ → ℝ → ℝ) :
    listPairs w g = pairSum w.length fun i j => g (bw w i) (bw w j) := by
  unfold listPairs pairSum
  rw [sum_bw w (fun a => g a a), ← sum_bw w (fun a => (w.map fun b => g a b).sum)]
  congr 1
  exact Finset.sum_congr rfl fun i _ => (sum_bw w _).symm

theorem listPairs_scale (w : List ℝ) (s : ℝ) (g : ℝ → ℝ → ℝ) :
    listPairs (w.map (· * s)) g = listPairs w fun a b => g (a * s) (b * s) := by
  unfold listPairs
  simp only [List.map_map, Function.comp_def]

/-- a pairwise connection probability -/
theorem expected_pairs {n : ℕ} {p : List (Fin D → ℝ) → ℕ → ℕ → ℝ} {f : Fin n → Fin n → (Fin D → ℝ) → (Fin D → ℝ) → ℝ} {k : Fin n → Fin n → ℝ}
    (hp : ∀ x : Fin n → Fin D → ℝ, ∀ u v : Fin n, u ≠ v → p (List.ofFn x) u v = f u v (x u) (x v))
    (hm : ∀ u v, Measurable fun z : (Fin D → ℝ) × (Fin D → ℝ) => f u v z.1 z.2) (hb : ∀ u v p q, |f u v p q| ≤ 1)
    (hk : ∀ u v, ∀ q : Fin D → ℝ, (∀ d, q d ∈ Ico (0 : ℝ) 1) → ∫ p, f u v p q ∂unitCube D = k u v) :
    expectedAverageDegree n D p = (∑ u, ∑ v, if u = v then 0 else k u v) / n := by
  unfold expectedAverageDegree
  congr 1
  have e : ∀ x : Fin n → Fin D → ℝ, ∑ u : Fin n, ∑ v : Fin n, (if u = v then 0 else p (List.ofFn x) u v) =
      ∑ u : Fin n, ∑ v : Fin n, (if u = v then 0 else f u v (x u) (x v)) := by
    intro x
    refine Finset.sum_congr rfl fun u _ => Finset.sum_congr rfl fun v _ => ?_
    split_ifs with h
    · rfl
    · exact hp x u v h
  rw [integral_congr_ae (Filter.Eventually.of_forall e)]
  have hint : ∀ u v : Fin n, Integrable (fun x : Fin n → Fin D → ℝ => if u = v then 0 else f u v (x u) (x v)) (uniformPositions n D) := by
    intro u v
    split_ifs
    · exact integrable_zero _ _ _
    · have hpair : Measurable fun x : Fin n → Fin D → ℝ => (x u, x v) := by fun_prop
      have hme : Measurable fun x : Fin n → Fin D → ℝ => f u v (x u) (x v) :=
        (hm u v).comp hpair
      exact Integrable.of_bound hme.aestronglyMeasurable 1
        (Filter.Eventually.of_forall fun x => hb u v _ _)
  rw [integral_finsetSum _ fun u _ => integrable_finsetSum _ fun v _ => hint u v]
  refine Finset.sum_congr rfl fun u _ => ?_
  rw [integral_finsetSum _ fun v _ => hint u v]
  refine Finset.sum_congr rfl fun v _ => ?_
  split_ifs with h
  · simp
  · exact pair_expect (hm u v) (hb u v) (hk u v) h

theorem thresholdDegree_eq (hD : 1 ≤ D) {w : List ℝ} (hw : ∀ y ∈ w, 0 < y) :
    thresholdGirgDegree D w = listPairs w (fun a b => probThreshold (2 ^ D * (a * b / w.sum))) / w.length := by
  classical
  unfold Spec.thresholdGirgDegree
  rw [← listPairs_fin]
  have hpos : ∀ u v : Fin w.length, 0 < w[u] * w[v] / w.sum := fun u v =>
    div_pos (mul_pos (hw _ (List.getElem_mem _)) (hw _ (List.getElem_mem _)))
      (List.sum_pos w hw (by rintro rfl; exact absurd u.2 (by simp)))
  refine expected_pairs (f := fun u v p q => ({p | torusDist p q ^ D < w[u] * w[v] / w.sum} : Set (Fin D → ℝ)).indicator (fun _ => (1 : ℝ)) p)
    ?_ ?_ ?_ ?_
  · intro x u v _
    unfold thresholdProb
    rw [Set.indicator_apply]
    have : ThresholdRule w (List.ofFn x) u v ↔ x u ∈ {p | torusDist p (x v) ^ D < w[u] * w[v] / w.sum} := by
      unfold ThresholdRule
      constructor
      · rintro ⟨a, b, p, q, h1, h2, h3, h4, h5⟩
        rw [List.getElem?_eq_getElem u.2] at h1
        rw [List.getElem?_eq_getElem v.2] at h2
        rw [List.getElem?_eq_getElem (by simp)] at h3 h4
        simp only [List.getElem_ofFn, Option.some.injEq] at h1 h2 h3 h4
        subst h1 h2 h3 h4
        exact h5
      · intro h
        refine ⟨w[u], w[v], x u, x v, List.getElem?_eq_getElem u.2, List.getElem?_eq_getElem v.2, ?_, ?_, h⟩ <;>
          (rw [List.getElem?_eq_getElem (by simp)]; simp)
    simp only [this]
  · intro u v
    have : (fun z : (Fin D → ℝ) × (Fin D → ℝ) => ({p | torusDist p z.2 ^ D < w[u] * w[v] / w.sum} : Set (Fin D → ℝ)).indicator (fun _ => (1 : ℝ)) z.1) =
        ({z | torusDist z.1 z.2 ^ D < w[u] * w[v] / w.sum} : Set ((Fin D → ℝ) × (Fin D → ℝ))).indicator (fun _ => (1 : ℝ)) := by
      ext z; simp only [Set.indicator_apply, mem_setOf_eq]
    show Measurable fun z : (Fin D → ℝ) × (Fin D → ℝ) => ({p | torusDist p z.2 ^ D < w[u] * w[v] / w.sum} : Set (Fin D → ℝ)).indicator (fun _ => (1 : ℝ)) z.1
    rw [this]
    exact measurable_const.indicator (measurableSet_lt (torusDist_measurable.pow_const D) measurable_const)
  · intro u v p q
    beta_reduce
    rw [Set.indicator_apply]
    split_ifs <;> simp
  · intro u v q hq
    exact threshold_expect hD hq (hpos u v)

theorem girgDegree_eq (hD : 1 ≤ D) {w : List ℝ} (hw : ∀ y ∈ w, 0 < y) {α : ℝ} (hα : 0 < α) (hα1 : α ≠ 1) :
    girgDegree D α w = listPairs w (fun a b => probAlpha α (2 ^ D * (a * b / w.sum))) / w.length := by
  unfold Spec.girgDegree
  rw [← listPairs_fin]
  have hpos : ∀ u v : Fin w.length, 0 < w[u] * w[v] / w.sum := fun u v =>
    div_pos (mul_pos (hw _ (List.getElem_mem _)) (hw _ (List.getElem_mem _)))
      (List.sum_pos w hw (by rintro rfl; exact absurd u.2 (by simp)))
  refine expected_pairs (f := fun u v p q => connProb D α (w[u] * w[v] / w.sum) (torusDist p q)) ?_ ?_ ?_ ?_
  · intro x u v _
    unfold girgProb
    rw [List.getElem?_eq_getElem u.2, List.getElem?_eq_getElem v.2, List.getElem?_eq_getElem (by simp), List.getElem?_eq_getElem (by simp)]
    simp only [List.getElem_ofFn]
    rfl
  · intro u v
    exact (connProb_measurable D α _).comp torusDist_measurable
  · intro u v p q
    obtain ⟨h1, h2⟩ := connProb_mem (D := D) α _ _ (hpos u v) (torusDist_nonneg p q)
    beta_reduce
    rw [abs_of_nonneg h1]; exact h2
  · intro u v q hq
    exact conn_expect hD hq hα hα1 (hpos u v)

theorem scaled_arg (w : List ℝ) {s : ℝ} (hs : s ≠ 0) (hW : w.sum ≠ 0) (k a b : ℝ) :
    k * (a * s * (b * s) / (w.map (· * s)).sum) = k * s / w.sum * a * b := by
  have : (w.map (· * s)).sum = w.sum * s := by rw [List.sum_map_mul_right]; simp
  rw [this]
  field_simp

theorem sum_ne {w : List ℝ} (hw : ∀ y ∈ w, 0 < y) (hne : w ≠ []) : w.sum ≠ 0 := (List.sum_pos w hw hne).ne'

/-- the expected average degree of the scaled threshold GIRG -/
theorem thresholdDegree_scaled (hD : 1 ≤ D) {w : List ℝ} (hw : ∀ y ∈ w, 0 < y) (hne : w ≠ []) {s : ℝ} (hs : 0 < s) :
    thresholdGirgDegree D (w.map (· * s)) =
      pairSum w.length (fun i j => probThreshold (2 ^ D * s / w.sum * bw w i * bw w j)) / w.length := by
  rw [thresholdDegree_eq hD, listPairs_scale, List.length_map]
  · simp only [scaled_arg w hs.ne' (sum_ne hw hne)]
    rw [listPairs_bw]
  · intro y hy
    obtain ⟨z, hz, rfl⟩ := List.mem_map.1 hy
    exact mul_pos (hw z hz) hs

theorem girgDegree_scaled (hD : 1 ≤ D) {w : List ℝ} (hw : ∀ y ∈ w, 0 < y) (hne : w ≠ []) {s : ℝ} (hs : 0 < s)
    {α : ℝ} (hα : 0 < α) (hα1 : α ≠ 1) :
    girgDegree D α (w.map (· * s)) =
      pairSum w.length (fun i j => probAlpha α (2 ^ D * s / w.sum * bw w i * bw w j)) / w.length := by
  rw [girgDegree_eq hD _ hα hα1, listPairs_scale, List.length_map]
  · simp only [scaled_arg w hs.ne' (sum_ne hw hne)]
    rw [listPairs_bw]
  · intro y hy
    obtain ⟨z, hz, rfl⟩ := List.mem_map.1 hy
    exact mul_pos (hw z hz) hs

end Girgs.Scaling
