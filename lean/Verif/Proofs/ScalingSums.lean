import Mathlib.Algebra.BigOperators.Intervals
import Mathlib.Data.Real.Basic
import Mathlib.Tactic.Linarith
import Mathlib.Tactic.Ring
/-
The sums computed by the degree estimators of WeightScaling.cpp (real arithmetic).
-/
namespace Girgs.Scaling
open Finset

/-- descending positive weights `b 0 ≥ b 1 ≥ …` of which the first `re` form the rich club for the factor `x`; `g i` is
where the inner loop stops for the `i`-th weight -/
structure Club (n re : ℕ) (b : ℕ → ℝ) (x : ℝ) (g : ℕ → ℕ) : Prop where
  re_le : re ≤ n
  x_pos : 0 < x
  pos : ∀ i < n, 0 < b i
  anti : ∀ i j, i ≤ j → j < n → b j ≤ b i
  inside : ∀ i < re, 1 ≤ x * b 0 * b i
  outside : ∀ i, re ≤ i → i < n → x * b 0 * b i ≤ 1
  g_le : ∀ i < re, g i ≤ re
  g_iff : ∀ i < re, ∀ j < re, (j < g i ↔ 1 ≤ x * b i * b j)

variable {n re : ℕ} {b : ℕ → ℝ} {x : ℝ} {g : ℕ → ℕ}

theorem Club.g_anti (h : Club n re b x g) {i j : ℕ} (hij : i ≤ j) (hj : j < re) : g j ≤ g i := by
  by_contra hc
  push Not at hc
  have h1 : g i < re := hc.trans_le (h.g_le j hj)
  have h2 := (h.g_iff j hj (g i) h1).1 hc
  have h3 : ¬ (1 ≤ x * b i * b (g i)) := fun hh => absurd ((h.g_iff i (by omega) (g i) h1).2 hh) (lt_irrefl _)
  apply h3
  refine h2.trans ?_
  have := h.re_le
  have hb := h.anti i j hij (by omega)
  have := h.pos (g i) (by omega)
  have := h.x_pos
  gcongr

/-- the sum of the error loop for the error function `E` -/
noncomputable def loopSum (re : ℕ) (b : ℕ → ℝ) (x : ℝ) (g : ℕ → ℕ) (E : ℝ → ℝ) : ℝ :=
  ∑ i ∈ range re, ((∑ j ∈ range (g i), E (x * b i * b j)) - if i ≤ g i then E (x * b i * b i) else 0)

/-- the sum over all ordered pairs of different indices -/
noncomputable def pairSum (n : ℕ) (f : ℕ → ℕ → ℝ) : ℝ := (∑ i ∈ range n, ∑ j ∈ range n, f i j) - ∑ i ∈ range n, f i i

open Classical in
theorem Club.loopSum_eq (h : Club n re b x g) {E : ℝ → ℝ} (hE : E 1 = 0) :
    loopSum re b x g E = pairSum n (fun i j => if 1 ≤ x * b i * b j then E (x * b i * b j) else 0) -
      ∑ i ∈ range n, if i < re ∧ g i = i then E (x * b i * b i) else 0 := by
  have hre := h.re_le
  -- outside the club nothing is saturated
  have hout : ∀ i < n, ∀ j < n, re ≤ j → (if 1 ≤ x * b i * b j then E (x * b i * b j) else 0) = 0 := by
    intro i hi j hj hrj
    split
    · rename_i h1
      have h2 : x * b i * b j ≤ x * b 0 * b j := by
        have := h.anti 0 i (Nat.zero_le _) hi
        have := h.pos j hj
        have := h.x_pos
        gcongr
      have : x * b i * b j = 1 := le_antisymm (h2.trans (h.outside j hrj hj)) h1
      rw [this, hE]
    · rfl
  have hsym : ∀ i j, x * b i * b j = x * b j * b i := fun i j => by ring
  have hrow : ∀ i < n, ∑ j ∈ range n, (if 1 ≤ x * b i * b j then E (x * b i * b j) else 0) =
      if i < re then ∑ j ∈ range (g i), E (x * b i * b j) else 0 := by
    intro i hi
    split
    · rename_i hir
      have hg := h.g_le i hir
      rw [← sum_subset (range_subset_range.2 hre)]
      · rw [← sum_subset (range_subset_range.2 hg)]
        · refine sum_congr rfl fun j hj => ?_
          rw [mem_range] at hj
          rw [if_pos ((h.g_iff i hir j (by omega)).1 hj)]
        · intro j hj hj'
          rw [mem_range] at hj hj'
          rw [if_neg fun hh => hj' ((h.g_iff i hir j hj).2 hh)]
      · intro j hj hj'
        rw [mem_range] at hj hj'
        exact hout i hi j hj (by omega)
    · rename_i hir
      refine sum_eq_zero fun j hj => ?_
      rw [mem_range] at hj
      rw [hsym]
      exact hout j hj i hi (by omega)
  have hdiag : ∀ i < n, (if 1 ≤ x * b i * b i then E (x * b i * b i) else 0) +
      (if i < re ∧ g i = i then E (x * b i * b i) else 0) =
      if i < re then (if i ≤ g i then E (x * b i * b i) else 0) else 0 := by
    intro i hi
    by_cases hir : i < re
    · rw [if_pos hir]
      have hk := h.g_iff i hir i hir
      rcases lt_trichotomy i (g i) with h1 | h1 | h1
      · rw [if_pos (hk.1 h1), if_neg (by omega), if_pos h1.le, add_zero]
      · rw [if_neg fun hh => absurd (hk.2 hh) (by omega), if_pos ⟨hir, h1.symm⟩, if_pos h1.le, zero_add]
      · rw [if_neg fun hh => absurd (hk.2 hh) (by omega), if_neg (by omega), if_neg (by omega), add_zero]
    · rw [if_neg hir, if_neg (fun hh : i < re ∧ g i = i => hir hh.1), add_zero]
      exact hout i hi i hi (by omega)
  unfold loopSum pairSum
  rw [sum_congr rfl fun i hi => hrow i (mem_range.1 hi)]
  rw [sub_sub, ← sum_add_distrib, sum_congr rfl fun i hi => hdiag i (mem_range.1 hi), ← sum_sub_distrib]
  rw [← sum_subset (range_subset_range.2 hre) (f := fun i =>
    (if i < re then ∑ j ∈ range (g i), E (x * b i * b j) else 0) -
      if i < re then (if i ≤ g i then E (x * b i * b i) else 0) else 0)]
  · refine sum_congr rfl fun i hi => ?_
    rw [mem_range] at hi
    rw [if_pos hi, if_pos hi]
  · intro i hi hi'
    rw [mem_range] at hi hi'
    simp [hi']

/-- the value computed by an estimator whose raw pair term is `raw` -/
theorem Club.value_eq (h : Club n re b x g) {raw P : ℝ → ℝ} (hraw : raw 1 = 1)
    (hP : ∀ t, 0 < t → P t = if 1 ≤ t then 1 else raw t) :
    pairSum n (fun i j => raw (x * b i * b j)) - loopSum re b x g (fun t => raw t - 1) =
      pairSum n (fun i j => P (x * b i * b j)) -
        ∑ i ∈ range n, if i < re ∧ g i = i then 1 - P (x * b i * b i) else 0 := by
  classical
  rw [h.loopSum_eq (E := fun t => raw t - 1) (by simp [hraw])]
  have hpos : ∀ i < n, ∀ j < n, 0 < x * b i * b j := fun i hi j hj =>
    mul_pos (mul_pos h.x_pos (h.pos i hi)) (h.pos j hj)
  have hterm : ∀ i < n, ∀ j < n, raw (x * b i * b j) - (if 1 ≤ x * b i * b j then raw (x * b i * b j) - 1 else 0) =
      P (x * b i * b j) := by
    intro i hi j hj
    rw [hP _ (hpos i hi j hj)]
    split <;> ring
  have hpair : pairSum n (fun i j => raw (x * b i * b j)) -
      pairSum n (fun i j => if 1 ≤ x * b i * b j then raw (x * b i * b j) - 1 else 0) =
      pairSum n (fun i j => P (x * b i * b j)) := by
    unfold pairSum
    have e1 : ∑ i ∈ range n, ∑ j ∈ range n, P (x * b i * b j) = (∑ i ∈ range n, ∑ j ∈ range n, raw (x * b i * b j)) -
        ∑ i ∈ range n, ∑ j ∈ range n, (if 1 ≤ x * b i * b j then raw (x * b i * b j) - 1 else 0) := by
      rw [← sum_sub_distrib]
      refine sum_congr rfl fun i hi => ?_
      rw [← sum_sub_distrib]
      exact sum_congr rfl fun j hj => (hterm i (mem_range.1 hi) j (mem_range.1 hj)).symm
    have e2 : ∑ i ∈ range n, P (x * b i * b i) = (∑ i ∈ range n, raw (x * b i * b i)) -
        ∑ i ∈ range n, (if 1 ≤ x * b i * b i then raw (x * b i * b i) - 1 else 0) := by
      rw [← sum_sub_distrib]
      exact sum_congr rfl fun i hi => (hterm i (mem_range.1 hi) i (mem_range.1 hi)).symm
    rw [e1, e2]; ring
  have hcross : (∑ i ∈ range n, if i < re ∧ g i = i then raw (x * b i * b i) - 1 else 0) =
      -∑ i ∈ range n, if i < re ∧ g i = i then 1 - P (x * b i * b i) else 0 := by
    rw [← sum_neg_distrib]
    refine sum_congr rfl fun i hi => ?_
    split
    · rename_i hc
      have hlt : ¬ (1 ≤ x * b i * b i) := fun hh => absurd ((h.g_iff i hc.1 i hc.1).2 hh) (by omega)
      rw [hP _ (hpos i (mem_range.1 hi) i (mem_range.1 hi)), if_neg hlt]; ring
    · rw [neg_zero]
  rw [hcross, ← hpair]; ring

/-- where the inner loop stops exactly at the diagonal -/
theorem Club.cross_iff (h : Club n re b x g) {i : ℕ} (hi : i < re) :
    g i = i ↔ x * b i * b i < 1 ∧ 0 < i ∧ 1 ≤ x * b i * b (i - 1) := by
  constructor
  · intro hg
    have h1 : x * b i * b i < 1 := by
      by_contra hc
      push Not at hc
      have := (h.g_iff i hi i hi).2 hc; omega
    have h0 : 0 < i := by
      rcases Nat.eq_zero_or_pos i with rfl | h0
      · exact absurd (h.inside 0 hi) (not_le.2 h1)
      · exact h0
    exact ⟨h1, h0, (h.g_iff i hi (i - 1) (by omega)).1 (by omega)⟩
  · rintro ⟨h1, h0, h2⟩
    have a1 : ¬ i < g i := fun hh => absurd ((h.g_iff i hi i hi).1 hh) (not_le.2 h1)
    have a2 : i - 1 < g i := (h.g_iff i hi (i - 1) (by omega)).2 h2
    omega

end Girgs.Scaling
