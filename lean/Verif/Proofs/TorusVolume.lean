import Verif.Spec.Scaling
import Mathlib.MeasureTheory.Integral.Layercake
import Mathlib.Analysis.SpecialFunctions.Integrals.Basic
/-
Volume of balls on the torus with the max-norm, and the expected connection probability.
-/
namespace Girgs.Scaling
open Spec MeasureTheory Set

/-- the points of the unit interval that are close to `y` -/
theorem circle_volume {y r : ℝ} (hy : y ∈ Ico (0 : ℝ) 1) (hr : 0 < r) :
    (volume.restrict (Ico (0 : ℝ) 1)) {x | circleDist x y < r} = ENNReal.ofReal (min 1 (2 * r)) := by
  obtain ⟨hy0, hy1⟩ := hy
  have hm : MeasurableSet {x : ℝ | circleDist x y < r} := by
    unfold circleDist
    exact (isOpen_lt (by fun_prop) continuous_const).measurableSet
  rw [Measure.restrict_apply hm]
  rcases lt_or_ge (1 / 2) r with h | h
  · rw [min_eq_left (by linarith)]
    have : {x : ℝ | circleDist x y < r} ∩ Ico 0 1 = Ico 0 1 := by
      apply inter_eq_right.2
      rintro x ⟨hx0, hx1⟩
      simp only [mem_setOf_eq, circleDist, min_lt_iff]
      by_contra hc
      push Not at hc
      linarith
    rw [this, Real.volume_Ico]; norm_num
  rw [min_eq_right (by linarith)]
  rcases lt_or_ge y r with h1 | h1
  · have : {x : ℝ | circleDist x y < r} ∩ Ico 0 1 = Ico 0 (y + r) ∪ Ioo (1 - r + y) 1 := by
      ext x
      simp only [mem_inter_iff, mem_setOf_eq, circleDist, min_lt_iff, mem_Ico, mem_union, mem_Ioo]
      constructor
      · rintro ⟨h2, hx0, hx1⟩
        rcases h2 with h2 | h2
        · exact Or.inl ⟨hx0, by linarith [(abs_lt.1 h2).2]⟩
        · have h3 : 1 - r < |x - y| := by linarith
          rcases lt_abs.1 h3 with h4 | h4
          · exact Or.inr ⟨by linarith, hx1⟩
          · linarith
      · rintro (⟨hx0, h2⟩ | ⟨h2, h3⟩)
        · exact ⟨Or.inl (abs_lt.2 ⟨by linarith, by linarith⟩), hx0, by linarith⟩
        · exact ⟨Or.inr (by have := le_abs_self (x - y); linarith), by linarith, h3⟩
    rw [this, measure_union _ measurableSet_Ioo, Real.volume_Ico, Real.volume_Ioo, ← ENNReal.ofReal_add (by linarith) (by linarith)]
    · congr 1; ring
    · rw [Set.disjoint_left]
      rintro x ⟨_, h2⟩ ⟨h3, _⟩
      linarith
  rcases le_or_gt y (1 - r) with h2 | h2
  · have : {x : ℝ | circleDist x y < r} ∩ Ico 0 1 = Ioo (y - r) (y + r) := by
      ext x
      simp only [mem_inter_iff, mem_setOf_eq, circleDist, min_lt_iff, mem_Ico, mem_Ioo]
      constructor
      · rintro ⟨h3, hx0, hx1⟩
        rcases h3 with h3 | h3
        · obtain ⟨a, b⟩ := abs_lt.1 h3
          exact ⟨by linarith, by linarith⟩
        · have h4 : 1 - r < |x - y| := by linarith
          rcases lt_abs.1 h4 with h5 | h5 <;> linarith
      · rintro ⟨a, b⟩
        exact ⟨Or.inl (abs_lt.2 ⟨by linarith, by linarith⟩), by linarith, by linarith⟩
    rw [this, Real.volume_Ioo]; congr 1; ring
  · have : {x : ℝ | circleDist x y < r} ∩ Ico 0 1 = Ioo (y - r) 1 ∪ Ico 0 (y + r - 1) := by
      ext x
      simp only [mem_inter_iff, mem_setOf_eq, circleDist, min_lt_iff, mem_Ico, mem_union, mem_Ioo]
      constructor
      · rintro ⟨h3, hx0, hx1⟩
        rcases h3 with h3 | h3
        · exact Or.inl ⟨by linarith [(abs_lt.1 h3).1], hx1⟩
        · have h4 : 1 - r < |x - y| := by linarith
          rcases lt_abs.1 h4 with h5 | h5
          · linarith
          · exact Or.inr ⟨hx0, by linarith⟩
      · rintro (⟨a, b⟩ | ⟨a, b⟩)
        · exact ⟨Or.inl (abs_lt.2 ⟨by linarith, by linarith⟩), by linarith, b⟩
        · exact ⟨Or.inr (by have := neg_abs_le (x - y); linarith), a, by linarith⟩
    rw [this, measure_union _ measurableSet_Ico, Real.volume_Ico, Real.volume_Ioo, ← ENNReal.ofReal_add (by linarith) (by linarith)]
    · congr 1; ring
    · rw [Set.disjoint_left]
      rintro x ⟨h3, _⟩ ⟨_, h4⟩
      linarith

theorem torusDist_lt_iff {D : ℕ} (p q : Fin D → ℝ) {r : ℝ} (hr : 0 < r) :
    torusDist p q < r ↔ ∀ d, circleDist (p d) (q d) < r := by
  unfold torusDist
  have : ∀ l : List (Fin D), l.foldr (fun d r => max (circleDist (p d) (q d)) r) 0 < r ↔ ∀ d ∈ l, circleDist (p d) (q d) < r := by
    intro l
    induction l with
    | nil => simpa using hr
    | cons a l ih => simp [ih]
  rw [this]
  simp

instance (D : ℕ) : IsProbabilityMeasure (unitCube D) := by
  unfold unitCube
  haveI : IsProbabilityMeasure (volume.restrict (Ico (0 : ℝ) 1)) := ⟨by simp⟩
  infer_instance

instance (n D : ℕ) : IsProbabilityMeasure (uniformPositions n D) := by unfold uniformPositions; infer_instance

/-- the volume of a ball on the torus -/
theorem torus_volume {D : ℕ} {q : Fin D → ℝ} (hq : ∀ d, q d ∈ Ico (0 : ℝ) 1) {r : ℝ} (hr : 0 < r) :
    (unitCube D).real {p | torusDist p q < r} = (min 1 (2 * r)) ^ D := by
  have : {p : Fin D → ℝ | torusDist p q < r} = Set.univ.pi fun d => {x | circleDist x (q d) < r} := by
    ext p; simp [torusDist_lt_iff p q hr]
  rw [Measure.real, this, unitCube, Measure.pi_pi]
  simp only [circle_volume (hq _) hr]
  rw [Finset.prod_const, Finset.card_univ, Fintype.card_fin, ENNReal.toReal_pow,
    ENNReal.toReal_ofReal (le_min zero_le_one (by linarith))]

theorem circleDist_measurable (y : ℝ) : Measurable fun x => circleDist x y := by
  unfold circleDist; fun_prop

theorem torusDist_measurable {D : ℕ} : Measurable fun z : (Fin D → ℝ) × (Fin D → ℝ) => torusDist z.1 z.2 := by
  unfold torusDist
  have : ∀ l : List (Fin D), Measurable fun z : (Fin D → ℝ) × (Fin D → ℝ) =>
      l.foldr (fun d r => max (circleDist (z.1 d) (z.2 d)) r) 0 := by
    intro l
    induction l with
    | nil => exact measurable_const
    | cons a l ih =>
      refine Measurable.max ?_ ih
      unfold circleDist
      fun_prop
  exact this _

theorem torusDist_nonneg {D : ℕ} (p q : Fin D → ℝ) : 0 ≤ torusDist p q := by
  unfold torusDist
  induction List.finRange D with
  | nil => exact le_rfl
  | cons a l ih => exact ih.trans (le_max_right _ _)

/-- `dist^D < t` with uniform positions -/
theorem torus_pow_volume {D : ℕ} (hD : 1 ≤ D) {q : Fin D → ℝ} (hq : ∀ d, q d ∈ Ico (0 : ℝ) 1) {t : ℝ} (ht : 0 < t) :
    (unitCube D).real {p | torusDist p q ^ D < t} = min 1 (2 ^ D * t) := by
  have hD0 : (D : ℝ) ≠ 0 := by exact_mod_cast (by omega : D ≠ 0)
  have hr : 0 < t ^ (1 / D : ℝ) := Real.rpow_pos_of_pos ht _
  have hrt : (t ^ (1 / D : ℝ)) ^ D = t := by
    rw [← Real.rpow_natCast, ← Real.rpow_mul ht.le, one_div_mul_cancel hD0, Real.rpow_one]
  have : {p : Fin D → ℝ | torusDist p q ^ D < t} = {p | torusDist p q < t ^ (1 / D : ℝ)} := by
    ext p
    simp only [mem_setOf_eq]
    conv_lhs => rw [← hrt]
    exact pow_lt_pow_iff_left₀ (torusDist_nonneg p q) hr.le (by omega)
  rw [this, torus_volume hq hr]
  rcases le_total 1 (2 * t ^ (1 / D : ℝ)) with h | h
  · rw [min_eq_left h, one_pow, min_eq_left]
    rw [← hrt, ← mul_pow]; exact one_le_pow₀ h
  · rw [min_eq_right h, mul_pow, hrt, min_eq_right]
    rw [← hrt, ← mul_pow]; exact pow_le_one₀ (by positivity) h

end Girgs.Scaling
