import Mathlib.MeasureTheory.Constructions.Pi
import Mathlib.MeasureTheory.Integral.Pi
import Mathlib.MeasureTheory.Integral.Prod
/-
The variance of a bounded function of independent points is at most half the sum, over the points, of the mean squared change when one point is drawn anew (Efron and Stein).
-/
namespace Girgs
open MeasureTheory

/-- bounded and measurable -/
def BM {A : Type} [MeasurableSpace A] (f : A → ℝ) : Prop := Measurable f ∧ ∃ M, ∀ x, |f x| ≤ M

namespace BM
variable {A B : Type} [MeasurableSpace A] [MeasurableSpace B] {f g : A → ℝ}

theorem int (h : BM f) (μ : Measure A) [IsProbabilityMeasure μ] : Integrable f μ := by
  obtain ⟨M, hM⟩ := h.2
  exact Integrable.of_bound h.1.aestronglyMeasurable M (Filter.Eventually.of_forall hM)

theorem sub (h : BM f) (k : BM g) : BM fun x => f x - g x := by
  obtain ⟨M, hM⟩ := h.2
  obtain ⟨N, hN⟩ := k.2
  exact ⟨h.1.sub k.1, M + N, fun x => (abs_sub _ _).trans (add_le_add (hM x) (hN x))⟩

theorem mul (h : BM f) (k : BM g) : BM fun x => f x * g x := by
  obtain ⟨M, hM⟩ := h.2
  obtain ⟨N, hN⟩ := k.2
  exact ⟨h.1.mul k.1, M * N, fun x => by
    rw [abs_mul]
    exact mul_le_mul (hM x) (hN x) (abs_nonneg _) ((abs_nonneg _).trans (hM x))⟩

theorem sq (h : BM f) : BM fun x => f x ^ 2 := by
  simp only [pow_two]
  exact h.mul h

theorem const (c : ℝ) : BM fun _ : A => c := ⟨measurable_const, |c|, fun _ => le_rfl⟩

theorem comp (h : BM f) {φ : B → A} (hφ : Measurable φ) : BM fun y => f (φ y) := by
  obtain ⟨M, hM⟩ := h.2
  exact ⟨h.1.comp hφ, M, fun y => hM _⟩

theorem intR {g : A × B → ℝ} (h : BM g) (ν : Measure B) [IsProbabilityMeasure ν] : BM fun a => ∫ b, g (a, b) ∂ν := by
  obtain ⟨M, hM⟩ := h.2
  refine ⟨(h.1.stronglyMeasurable.integral_prod_right' (ν := ν)).measurable, M, fun a => ?_⟩
  have := norm_integral_le_of_norm_le_const (μ := ν) (f := fun b => g (a, b)) (C := M) (Filter.Eventually.of_forall fun b => hM (a, b))
  simpa using this

end BM

variable {A B : Type} [MeasurableSpace A] [MeasurableSpace B] (μ : Measure A) (ν : Measure B) [IsProbabilityMeasure μ] [IsProbabilityMeasure ν]

theorem quad {f : A → ℝ} (h : BM f) (b c : ℝ) : ∫ x, (f x ^ 2 - (b * f x - c)) ∂μ = (∫ x, f x ^ 2 ∂μ) - (b * (∫ x, f x ∂μ) - c) := by
  have h1 : Integrable (fun x => b * f x) μ := (h.int μ).const_mul b
  have h2 : Integrable (fun x => b * f x - c) μ := h1.sub (integrable_const c)
  rw [integral_sub (h.sq.int μ) h2, integral_sub h1 (integrable_const c), integral_const_mul]
  simp

theorem quad' {f : A → ℝ} (h : BM f) (b c : ℝ) : ∫ x, (c - (b * f x - f x ^ 2)) ∂μ = c - (b * (∫ x, f x ∂μ) - ∫ x, f x ^ 2 ∂μ) := by
  have h1 : Integrable (fun x => b * f x) μ := (h.int μ).const_mul b
  have h2 : Integrable (fun x => b * f x - f x ^ 2) μ := h1.sub (h.sq.int μ)
  rw [integral_sub (integrable_const c) h2, integral_sub h1 (h.sq.int μ), integral_const_mul]
  simp

/-- the variance, expanded -/
theorem var_eq {f : A → ℝ} (h : BM f) : ∫ x, (f x - ∫ y, f y ∂μ) ^ 2 ∂μ = (∫ x, f x ^ 2 ∂μ) - (∫ x, f x ∂μ) ^ 2 := by
  obtain ⟨m, hm⟩ : ∃ m, m = ∫ y, f y ∂μ := ⟨_, rfl⟩
  rw [← hm]
  have e : ∀ x, (f x - m) ^ 2 = f x ^ 2 - (2 * m * f x - m ^ 2) := fun x => by ring
  rw [integral_congr_ae (Filter.Eventually.of_forall e), quad μ h, ← hm]
  ring

/-- the square of the mean is at most the mean of the square -/
theorem sq_mean_le {f : A → ℝ} (h : BM f) : (∫ x, f x ∂μ) ^ 2 ≤ ∫ x, f x ^ 2 ∂μ := by
  have h1 := var_eq μ h
  have h2 : 0 ≤ ∫ x, (f x - ∫ y, f y ∂μ) ^ 2 ∂μ := integral_nonneg fun x => sq_nonneg _
  linarith

/-- no constant is nearer than the mean -/
theorem var_le {f : A → ℝ} (h : BM f) (c : ℝ) : ∫ x, (f x - ∫ y, f y ∂μ) ^ 2 ∂μ ≤ ∫ x, (f x - c) ^ 2 ∂μ := by
  have e : ∀ x, (f x - c) ^ 2 = f x ^ 2 - (2 * c * f x - c ^ 2) := fun x => by ring
  rw [integral_congr_ae (Filter.Eventually.of_forall e), quad μ h, var_eq μ h]
  nlinarith [sq_nonneg ((∫ x, f x ∂μ) - c)]

/-- the variance of a function of two independent arguments -/
theorem var_prod {g : A × B → ℝ} (h : BM g) :
    ∫ z, (g z - ∫ y, g y ∂μ.prod ν) ^ 2 ∂μ.prod ν ≤
      (∫ a, (∫ b, (g (a, b) - ∫ b', g (a, b') ∂ν) ^ 2 ∂ν) ∂μ) + ∫ b, (∫ a, (g (a, b) - ∫ a', g (a', b) ∂μ) ^ 2 ∂μ) ∂ν := by
  have hB := h.intR ν
  have hs : BM fun z : B × A => g z.swap := h.comp measurable_swap
  have hA : BM fun b => ∫ a, g (a, b) ∂μ := hs.intR μ
  have m2 : ∀ {k : A × B → ℝ}, BM k → ∫ z, k z ∂μ.prod ν = ∫ a, (∫ b, k (a, b) ∂ν) ∂μ := fun hk => integral_prod _ (hk.int _)
  rw [var_eq _ h, m2 h, m2 h.sq]
  have e1 : ∀ a, ∫ b, (g (a, b) - ∫ b', g (a, b') ∂ν) ^ 2 ∂ν = (∫ b, g (a, b) ^ 2 ∂ν) - (∫ b, g (a, b) ∂ν) ^ 2 := fun a =>
    var_eq ν (h.comp measurable_prodMk_left)
  rw [integral_congr_ae (Filter.Eventually.of_forall e1), integral_sub ((h.sq.intR ν).int μ) (hB.sq.int μ)]
  have hk : BM fun z : A × B => g z - ∫ a, g (a, z.2) ∂μ := h.sub (hA.comp measurable_snd)
  have e2 : ∫ b, (∫ a, (g (a, b) - ∫ a', g (a', b) ∂μ) ^ 2 ∂μ) ∂ν = ∫ a, (∫ b, (g (a, b) - ∫ a', g (a', b) ∂μ) ^ 2 ∂ν) ∂μ :=
    (integral_integral_swap (f := fun a b => (g (a, b) - ∫ a', g (a', b) ∂μ) ^ 2) (hk.sq.int _)).symm
  rw [e2]
  have e3 : ∫ b, (∫ a, g (a, b) ∂μ) ∂ν = ∫ a, (∫ b, g (a, b) ∂ν) ∂μ := (integral_integral_swap (f := fun a b => g (a, b)) (h.int _)).symm
  have h4 : ∫ a, ((∫ b, g (a, b) ∂ν) - ∫ a', (∫ b, g (a', b) ∂ν) ∂μ) ^ 2 ∂μ ≤ ∫ a, (∫ b, (g (a, b) - ∫ a', g (a', b) ∂μ) ^ 2 ∂ν) ∂μ := by
    refine integral_mono ((hB.sub (BM.const _)).sq.int μ) ((hk.sq.intR ν).int μ) fun a => ?_
    show ((∫ b, g (a, b) ∂ν) - ∫ a', (∫ b, g (a', b) ∂ν) ∂μ) ^ 2 ≤ ∫ b, (g (a, b) - ∫ a', g (a', b) ∂μ) ^ 2 ∂ν
    rw [← e3, ← integral_sub ((h.comp measurable_prodMk_left).int ν) (hA.int ν)]
    exact sq_mean_le ν (hk.comp measurable_prodMk_left)
  rw [var_eq μ hB] at h4
  linarith

/-- Efron and Stein's inequality: `g i` does not depend on point `i` -/
theorem efron_stein {E : Type} [MeasurableSpace E] (κ : Measure E) [IsProbabilityMeasure κ] : ∀ (n : ℕ) {f : (Fin n → E) → ℝ} {g : Fin n → (Fin n → E) → ℝ},
    BM f → (∀ i, BM (g i)) → (∀ i x y, g i (Function.update x i y) = g i x) →
    ∫ x, (f x - ∫ y, f y ∂Measure.pi fun _ : Fin n => κ) ^ 2 ∂(Measure.pi fun _ : Fin n => κ) ≤
      ∑ i, ∫ x, (f x - g i x) ^ 2 ∂(Measure.pi fun _ : Fin n => κ) := by
  intro n
  induction n with
  | zero =>
    intro f g hf _ _
    have : ∀ x : Fin 0 → E, f x = f default := fun x => congrArg f (Subsingleton.elim _ _)
    simp [this]
  | succ n ih =>
    intro f g hf hgm hgi
    obtain ⟨π, hπ⟩ : ∃ π : Measure (Fin n → E), π = Measure.pi fun _ => κ := ⟨_, rfl⟩
    haveI : IsProbabilityMeasure π := by rw [hπ]; infer_instance
    have hmp := measurePreserving_piFinSuccAbove (fun _ : Fin (n + 1) => κ) 0
    have tr : ∀ F : (Fin (n + 1) → E) → ℝ, ∫ x, F x ∂(Measure.pi fun _ : Fin (n + 1) => κ) = ∫ z : E × (Fin n → E), F (Fin.cons z.1 z.2) ∂κ.prod π := by
      intro F
      rw [hπ, ← hmp.symm.integral_comp' F]
      refine integral_congr_ae (Filter.Eventually.of_forall fun z => ?_)
      show F _ = F _
      congr 1
      simp [MeasurableEquiv.piFinSuccAbove]
      rfl
    have hcons : Measurable fun z : E × (Fin n → E) => (Fin.cons z.1 z.2 : Fin (n + 1) → E) := by
      refine measurable_pi_lambda _ fun i => ?_
      refine Fin.cases ?_ (fun j => ?_) i
      · exact measurable_fst
      · simp only [Fin.cons_succ]
        exact (measurable_pi_apply j).comp measurable_snd
    have hg : BM fun z : E × (Fin n → E) => f (Fin.cons z.1 z.2) := hf.comp hcons
    have hd : ∀ i, BM fun z : E × (Fin n → E) => (f (Fin.cons z.1 z.2) - g i (Fin.cons z.1 z.2)) ^ 2 := fun i => (hg.sub ((hgm i).comp hcons)).sq
    rw [tr, tr, Fin.sum_univ_succ]
    simp only [tr]
    refine (var_prod κ π hg).trans ?_
    rw [add_comm]
    refine add_le_add ?_ ?_
    · rw [integral_prod_symm _ ((hd 0).int _)]
      have hs : BM fun z : (Fin n → E) × E => f (Fin.cons z.2 z.1) := hg.comp measurable_swap
      have hs' : BM fun z : (Fin n → E) × E => (f (Fin.cons z.2 z.1) - g 0 (Fin.cons z.2 z.1)) ^ 2 := (hd 0).comp measurable_swap
      refine integral_mono (((hs.sub ((hs.intR κ).comp measurable_fst)).sq.intR κ).int π) ((hs'.intR κ).int π) fun b => ?_
      obtain ⟨a⟩ : Nonempty E := by
        by_contra h
        rw [not_nonempty_iff] at h
        have := measure_univ (μ := κ)
        rw [Set.univ_eq_empty_iff.2 h, measure_empty] at this
        exact zero_ne_one this
      refine (var_le κ (hg.comp (measurable_id.prodMk measurable_const)) (g 0 (Fin.cons a b))).trans (le_of_eq ?_)
      refine integral_congr_ae (Filter.Eventually.of_forall fun a' => ?_)
      show _ = (f (Fin.cons a' b) - g 0 (Fin.cons a' b)) ^ 2
      rw [← hgi 0 (Fin.cons a b) a', Fin.update_cons_zero]
      rfl
    · have hI : ∀ i : Fin n, Integrable (fun a => ∫ b, (f (Fin.cons a b) - g i.succ (Fin.cons a b)) ^ 2 ∂π) κ := fun i => ((hd i.succ).intR π).int κ
      have e2 : ∀ a, ∫ b, (f (Fin.cons a b) - ∫ b', f (Fin.cons a b') ∂π) ^ 2 ∂π ≤ ∑ i : Fin n, ∫ b, (f (Fin.cons a b) - g i.succ (Fin.cons a b)) ^ 2 ∂π := by
        intro a
        have := ih (f := fun b => f (Fin.cons a b)) (g := fun i b => g i.succ (Fin.cons a b)) (hg.comp measurable_prodMk_left)
          (fun i => ((hgm i.succ).comp hcons).comp measurable_prodMk_left)
          (fun i b y => by rw [Fin.cons_update, hgi])
        rw [hπ]
        exact this
      refine (integral_mono ?_ (integrable_finsetSum _ fun i _ => hI i) e2).trans (le_of_eq ?_)
      · exact (((hg.sub ((hg.intR π).comp measurable_fst)).sq).intR π).int κ
      · rw [integral_finsetSum _ fun i _ => hI i]
        exact Finset.sum_congr rfl fun i _ => (integral_prod _ ((hd i.succ).int _)).symm

end Girgs
