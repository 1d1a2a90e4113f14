import Verif.Proofs.Chernoff
import Verif.Proofs.ExpectedDegree
import Mathlib.Probability.Independence.Integration
/-
Means of products over the other nodes, for independent positions.
-/
namespace Girgs
open MeasureTheory Spec ProbabilityTheory
open scoped ENNReal

/-- means of products of functions of independent random elements -/
theorem lintegral_pi_prod {m : ℕ} {E : Type} [MeasurableSpace E] (μ : Measure E) [IsProbabilityMeasure μ] {h : Fin m → E → ℝ≥0∞} (hm : ∀ j, Measurable (h j)) :
    ∫⁻ y : Fin m → E, ∏ j, h j (y j) ∂Measure.pi (fun _ => μ) = ∏ j, ∫⁻ p, h j p ∂μ := by
  have hi : iIndepFun (fun j (y : Fin m → E) => h j (y j)) (Measure.pi fun _ => μ) := iIndepFun_pi (X := h) fun j => (hm j).aemeasurable
  have h1 := lintegral_prod_eq_prod_lintegral_of_indepFun Finset.univ (fun j (y : Fin m → E) => h j (y j)) hi fun j => (hm j).comp (measurable_pi_apply j)
  rw [h1]
  refine Finset.prod_congr rfl fun j _ => ?_
  exact (measurePreserving_eval (fun _ : Fin m => μ) j).lintegral_comp (hm j)

/-- the mean of a product over the other nodes, given the own position -/
theorem row_prod_set {E : Type} [MeasurableSpace E] (μ : Measure E) [IsProbabilityMeasure μ] {n : ℕ} (u : Fin n) {g : Fin n → E → E → ℝ≥0∞}
    (hm : ∀ v, Measurable fun z : E × E => g v z.1 z.2) {S : Set E} (hS : MeasurableSet S) :
    ∫⁻ x in {x : Fin n → E | x u ∈ S}, ∏ v, (if u = v then 1 else g v (x u) (x v)) ∂Measure.pi (fun _ => μ) =
      ∫⁻ q in S, ∏ v, (if u = v then 1 else ∫⁻ p, g v q p ∂μ) ∂μ := by
  obtain ⟨m, rfl⟩ : ∃ m, n = m + 1 := ⟨n - 1, by have := u.2; omega⟩
  have mp := measurePreserving_piFinSuccAbove (fun _ : Fin (m + 1) => μ) u
  have hmr : ∀ j, Measurable fun z : E × (Fin m → E) => g (u.succAbove j) z.1 (z.2 j) := fun j => by
    have h : Measurable fun z : E × (Fin m → E) => (z.1, z.2 j) := by fun_prop
    exact (hm _).comp h
  have hmp : Measurable fun z : E × (Fin m → E) => ∏ j, g (u.succAbove j) z.1 (z.2 j) := Finset.measurable_prod _ fun j _ => hmr j
  have e1 : ∀ x : Fin (m + 1) → E, ({x : Fin (m + 1) → E | x u ∈ S}.indicator (fun x => ∏ v, (if u = v then 1 else g v (x u) (x v))) x) =
      (Prod.fst ⁻¹' S).indicator (fun z : E × (Fin m → E) => ∏ j, g (u.succAbove j) z.1 (z.2 j)) (MeasurableEquiv.piFinSuccAbove (fun _ => E) u x) := by
    intro x
    have e : ∏ v, (if u = v then 1 else g v (x u) (x v)) = ∏ j, g (u.succAbove j) (x u) (x (u.succAbove j)) := by
      rw [Fin.prod_univ_succAbove _ u, if_pos rfl, one_mul]
      exact Finset.prod_congr rfl fun j _ => by rw [if_neg (Fin.succAbove_ne u j).symm]
    by_cases h : x u ∈ S
    · rw [Set.indicator_of_mem (by exact h), Set.indicator_of_mem (by exact h), e]
      rfl
    · rw [Set.indicator_of_notMem (by exact h), Set.indicator_of_notMem (by exact h)]
  have e2 : ∀ q : E, ∏ v, (if u = v then 1 else ∫⁻ p, g v q p ∂μ) = ∏ j, ∫⁻ p, g (u.succAbove j) q p ∂μ := by
    intro q
    rw [Fin.prod_univ_succAbove _ u, if_pos rfl, one_mul]
    exact Finset.prod_congr rfl fun j _ => by rw [if_neg (Fin.succAbove_ne u j).symm]
  have hSm : MeasurableSet {x : Fin (m + 1) → E | x u ∈ S} := measurable_pi_apply u hS
  rw [← lintegral_indicator hSm, lintegral_congr e1, mp.lintegral_comp (hmp.indicator (measurable_fst hS)),
    lintegral_prod _ (hmp.indicator (measurable_fst hS)).aemeasurable, ← lintegral_indicator hS]
  refine lintegral_congr fun q => ?_
  by_cases h : q ∈ S
  · have e3 : ∀ y : Fin m → E, (Prod.fst ⁻¹' S).indicator (fun z : E × (Fin m → E) => ∏ j, g (u.succAbove j) z.1 (z.2 j)) (q, y) =
        ∏ j, g (u.succAbove j) q (y j) := fun y => Set.indicator_of_mem (by exact h) _
    rw [lintegral_congr e3, Set.indicator_of_mem h, e2]
    exact lintegral_pi_prod μ fun j => by
      have h : Measurable fun p : E => (q, p) := by fun_prop
      exact (hm _).comp h
  · have e3 : ∀ y : Fin m → E, (Prod.fst ⁻¹' S).indicator (fun z : E × (Fin m → E) => ∏ j, g (u.succAbove j) z.1 (z.2 j)) (q, y) = 0 :=
      fun y => Set.indicator_of_notMem (by exact h) _
    rw [lintegral_congr e3, Set.indicator_of_notMem h, lintegral_zero]

/-- the same without a condition on the own position -/
theorem row_prod {E : Type} [MeasurableSpace E] (μ : Measure E) [IsProbabilityMeasure μ] {n : ℕ} (u : Fin n) {g : Fin n → E → E → ℝ≥0∞}
    (hm : ∀ v, Measurable fun z : E × E => g v z.1 z.2) {k : Fin n → ℝ≥0∞} (hk : ∀ v, ∀ᵐ q ∂μ, ∫⁻ p, g v q p ∂μ = k v) :
    ∫⁻ x : Fin n → E, ∏ v, (if u = v then 1 else g v (x u) (x v)) ∂Measure.pi (fun _ => μ) = ∏ v, if u = v then 1 else k v := by
  have h := row_prod_set μ u hm MeasurableSet.univ
  simp only [Set.mem_univ, Set.setOf_true, Measure.restrict_univ] at h
  rw [h]
  have h2 : ∀ᵐ q ∂μ, ∏ v, (if u = v then 1 else ∫⁻ p, g v q p ∂μ) = ∏ v, if u = v then 1 else k v := by
    filter_upwards [ae_all_iff.2 hk] with q hq
    simp only [hq]
  rw [lintegral_congr_ae h2]
  simp

/-- sums to products, for the pairs with a given node -/
theorem prod_upairs_node {M : Type} [CommMonoid M] {n u : ℕ} (hu : u < n) {f : ℕ → ℕ → M} (hf : ∀ u v, f u v = f v u) :
    ∏ e ∈ upairs n, (if e.1 = u ∨ e.2 = u then f e.1 e.2 else 1) = ∏ v : Fin n, if u = v.1 then 1 else f u v :=
  sum_upairs_node (M := Additive M) hu hf

end Girgs
