import Verif.Proofs.EfronStein
import Verif.Proofs.NeighbourLaw
/-
The variance of the number of nodes with a property of their degrees.
-/
namespace Girgs.Props
open CFloat Spec MeasureTheory
open scoped ENNReal

section
variable {E : Type} [MeasurableSpace E] {n : ℕ} (K : Fin n → Fin n → Set (E × E))

open Classical in
/-- the connection of two nodes as a number -/
noncomputable def link (x : Fin n → E) (u v : Fin n) : ℕ := if (x u, x v) ∈ K u v then 1 else 0

variable {K}

theorem link_le (x : Fin n → E) (u v : Fin n) : link K x u v ≤ 1 := by unfold link; split_ifs <;> simp

theorem link_sq (x : Fin n → E) (u v : Fin n) : link K x u v * link K x u v = link K x u v := by unfold link; split_ifs <;> simp

theorem link_bm (hK : ∀ u v, MeasurableSet (K u v)) (u v : Fin n) : BM fun x : Fin n → E => (link K x u v : ℝ) := by
  classical
  have h : Measurable fun x : Fin n → E => (x u, x v) := by fun_prop
  refine ⟨?_, 1, fun x => ?_⟩
  · have : (fun x : Fin n → E => (link K x u v : ℝ)) = fun x => if (x u, x v) ∈ K u v then 1 else 0 := by
      funext x; unfold link; split_ifs <;> simp
    rw [this]
    exact Measurable.ite (h (hK u v)) measurable_const measurable_const
  · rw [abs_of_nonneg (Nat.cast_nonneg _)]
    have h1 : ((link K x u v : ℕ) : ℝ) ≤ (1 : ℕ) := Nat.cast_le.2 (link_le x u v)
    simpa using h1

theorem BM.sum {A ι : Type} [MeasurableSpace A] {f : ι → A → ℝ} (s : Finset ι) (h : ∀ i ∈ s, BM (f i)) : BM fun x => ∑ i ∈ s, f i x := by
  classical
  induction s using Finset.induction_on with
  | empty => simpa using BM.const (A := A) 0
  | insert i s hi ih =>
    have h1 := h i (Finset.mem_insert_self _ _)
    have h2 := ih fun j hj => h j (Finset.mem_insert_of_mem hj)
    have h3 := h1.sub ((BM.const (A := A) 0).sub h2)
    simp only [Finset.sum_insert hi]
    simpa using h3

theorem row_bm (hK : ∀ u v, MeasurableSet (K u v)) (u : Fin n) (s : Finset (Fin n)) {φ : ℕ → ℝ} (hφ : ∀ d, 0 ≤ φ d ∧ φ d ≤ 1) :
    BM fun x : Fin n → E => φ (∑ v ∈ s, link K x u v) := by
  refine ⟨?_, 1, fun x => by rw [abs_of_nonneg (hφ _).1]; exact (hφ _).2⟩
  have h1 : Measurable fun x : Fin n → E => ∑ v ∈ s, link K x u v := by
    refine Finset.measurable_sum _ fun v _ => ?_
    classical
    have h : Measurable fun x : Fin n → E => (x u, x v) := by fun_prop
    exact Measurable.ite (h (hK u v)) measurable_const measurable_const
  exact (measurable_of_countable φ).comp h1

/-- the variance of a sum of functions of the degrees -/
theorem degree_spread (κ : Measure E) [IsProbabilityMeasure κ] (hK : ∀ u v, MeasurableSet (K u v)) (hsym : ∀ u v p q, (p, q) ∈ K u v ↔ (q, p) ∈ K v u)
    {φ : Fin n → ℕ → ℝ} (hφ : ∀ u d, 0 ≤ φ u d ∧ φ u d ≤ 1) {f : (Fin n → E) → ℝ}
    (hf : ∀ x, f x = ∑ u, φ u (∑ v ∈ Finset.univ.erase u, link K x u v)) :
    BM f ∧ ∫ x, (f x - ∫ y, f y ∂Measure.pi fun _ : Fin n => κ) ^ 2 ∂(Measure.pi fun _ : Fin n => κ) ≤
      ∑ u, ∫ x, (1 + ∑ v ∈ Finset.univ.erase u, (link K x u v : ℝ)) ^ 2 ∂(Measure.pi fun _ : Fin n => κ) := by
  classical
  have hfm : BM f := by
    rw [show f = fun x => ∑ u, φ u (∑ v ∈ Finset.univ.erase u, link K x u v) from funext hf]
    exact BM.sum _ fun u _ => row_bm hK u _ (hφ u)
  have hgm : ∀ i : Fin n, BM fun x : Fin n → E => ∑ u ∈ Finset.univ.erase i, φ u (∑ v ∈ (Finset.univ.erase u).erase i, link K x u v) := fun i =>
    BM.sum _ fun u _ => row_bm hK u _ (hφ u)
  refine ⟨hfm, (efron_stein κ n hfm (g := fun i x => ∑ u ∈ Finset.univ.erase i, φ u (∑ v ∈ (Finset.univ.erase u).erase i, link K x u v)) hgm ?_).trans ?_⟩
  · intro i x y
    refine Finset.sum_congr rfl fun u hu => ?_
    congr 1
    refine Finset.sum_congr rfl fun v hv => ?_
    unfold link
    rw [Function.update_of_ne (Finset.ne_of_mem_erase hu), Function.update_of_ne (Finset.ne_of_mem_erase hv)]
  · refine Finset.sum_le_sum fun i _ => ?_
    have hr : BM fun x : Fin n → E => 1 + ∑ v ∈ Finset.univ.erase i, (link K x i v : ℝ) := by
      have h := (BM.const (A := Fin n → E) 1).sub ((BM.const (A := Fin n → E) 0).sub (BM.sum (Finset.univ.erase i) fun v _ => link_bm hK i v))
      simpa only [zero_sub, sub_neg_eq_add] using h
    refine integral_mono ((hfm.sub (hgm i)).sq.int _) (hr.sq.int _) fun x => ?_
    refine sq_le_sq' ?_ ?_
    all_goals
      rw [hf x, ← Finset.add_sum_erase _ _ (Finset.mem_univ i), add_sub_assoc, ← Finset.sum_sub_distrib]
      have h1 := hφ i (∑ v ∈ Finset.univ.erase i, link K x i v)
      have h2 : |∑ u ∈ Finset.univ.erase i, (φ u (∑ v ∈ Finset.univ.erase u, link K x u v) - φ u (∑ v ∈ (Finset.univ.erase u).erase i, link K x u v))| ≤
          ∑ u ∈ Finset.univ.erase i, (link K x i u : ℝ) := by
        refine (Finset.abs_sum_le_sum_abs _ _).trans (Finset.sum_le_sum fun u hu => ?_)
        have hiu : i ∈ Finset.univ.erase u := Finset.mem_erase.2 ⟨(Finset.ne_of_mem_erase hu).symm, Finset.mem_univ _⟩
        rw [← Finset.sum_erase_add _ _ hiu]
        have e : link K x u i = link K x i u := by
          unfold link
          rw [if_congr (hsym u i _ _) rfl rfl]
        rw [e]
        rcases Nat.le_one_iff_eq_zero_or_eq_one.1 (link_le (K := K) x i u) with h | h
        · simp [h]
        · rw [h]
          have h3 := hφ u (∑ v ∈ (Finset.univ.erase u).erase i, link K x u v + 1)
          have h4 := hφ u (∑ v ∈ (Finset.univ.erase u).erase i, link K x u v)
          rw [abs_le]
          push_cast
          constructor <;> linarith
      have h5 := abs_le.1 h2
      linarith

/-- the second moment of one more than a degree -/
theorem degree_second {π : Measure (Fin n → E)} [IsProbabilityMeasure π] (hK : ∀ u v, MeasurableSet (K u v)) (u : Fin n) {a : Fin n → ℝ} {b : Fin n → Fin n → ℝ}
    (ha : ∀ v, v ≠ u → ∫ x, (link K x u v : ℝ) ∂π ≤ a v)
    (hb : ∀ v v', v ≠ u → v' ≠ u → v' ≠ v → ∫ x, (link K x u v : ℝ) * link K x u v' ∂π ≤ b v v') :
    ∫ x, (1 + ∑ v ∈ Finset.univ.erase u, (link K x u v : ℝ)) ^ 2 ∂π ≤
      1 + 3 * (∑ v ∈ Finset.univ.erase u, a v) + ∑ v ∈ Finset.univ.erase u, ∑ v' ∈ (Finset.univ.erase u).erase v, b v v' := by
  classical
  have e : ∀ x : Fin n → E, (1 + ∑ v ∈ Finset.univ.erase u, (link K x u v : ℝ)) ^ 2 =
      1 + (3 * (∑ v ∈ Finset.univ.erase u, (link K x u v : ℝ)) +
        ∑ v ∈ Finset.univ.erase u, ∑ v' ∈ (Finset.univ.erase u).erase v, (link K x u v : ℝ) * link K x u v') := by
    intro x
    have h1 : (∑ v ∈ Finset.univ.erase u, (link K x u v : ℝ)) * (∑ v ∈ Finset.univ.erase u, (link K x u v : ℝ)) =
        (∑ v ∈ Finset.univ.erase u, (link K x u v : ℝ)) +
          ∑ v ∈ Finset.univ.erase u, ∑ v' ∈ (Finset.univ.erase u).erase v, (link K x u v : ℝ) * link K x u v' := by
      rw [Finset.sum_mul_sum, ← Finset.sum_add_distrib]
      refine Finset.sum_congr rfl fun v hv => ?_
      rw [← Finset.add_sum_erase _ _ hv]
      congr 1
      exact_mod_cast link_sq x u v
    rw [add_sq, pow_two (∑ v ∈ Finset.univ.erase u, (link K x u v : ℝ)), h1]
    ring
  have i1 : Integrable (fun x : Fin n → E => 3 * ∑ v ∈ Finset.univ.erase u, (link K x u v : ℝ)) π := ((BM.sum _ fun v _ => link_bm hK u v).int π).const_mul 3
  have i2 : Integrable (fun x : Fin n → E => ∑ v ∈ Finset.univ.erase u, ∑ v' ∈ (Finset.univ.erase u).erase v, (link K x u v : ℝ) * link K x u v') π :=
    (BM.sum _ fun v _ => BM.sum _ fun v' _ => (link_bm hK u v).mul (link_bm hK u v')).int π
  have i3 : Integrable (fun x : Fin n → E => 3 * (∑ v ∈ Finset.univ.erase u, (link K x u v : ℝ)) +
      ∑ v ∈ Finset.univ.erase u, ∑ v' ∈ (Finset.univ.erase u).erase v, (link K x u v : ℝ) * link K x u v') π := i1.add i2
  rw [integral_congr_ae (Filter.Eventually.of_forall e), integral_add (integrable_const 1) i3, integral_add i1 i2, integral_const_mul,
    integral_finsetSum _ fun v _ => (link_bm hK u v).int π,
    integral_finsetSum _ fun v _ => (BM.sum _ fun v' _ => (link_bm hK u v).mul (link_bm hK u v')).int π]
  have h1 : ∑ v ∈ Finset.univ.erase u, ∫ x, (link K x u v : ℝ) ∂π ≤ ∑ v ∈ Finset.univ.erase u, a v :=
    Finset.sum_le_sum fun v hv => ha v (Finset.ne_of_mem_erase hv)
  have h2 : ∑ v ∈ Finset.univ.erase u, ∫ x, (∑ v' ∈ (Finset.univ.erase u).erase v, (link K x u v : ℝ) * link K x u v') ∂π ≤
      ∑ v ∈ Finset.univ.erase u, ∑ v' ∈ (Finset.univ.erase u).erase v, b v v' := by
    refine Finset.sum_le_sum fun v hv => ?_
    rw [integral_finsetSum _ fun v' _ => ((link_bm hK u v).mul (link_bm hK u v')).int π]
    exact Finset.sum_le_sum fun v' hv' => hb v v' (Finset.ne_of_mem_erase hv) (Finset.ne_of_mem_erase (Finset.mem_of_mem_erase hv')) (Finset.ne_of_mem_erase hv')
  simp only [integral_const, probReal_univ, smul_eq_mul, mul_one]
  linarith

/-- the mean of a product of connections -/
theorem link_mean {κ : Measure E} [IsProbabilityMeasure κ] (hK : ∀ u v, MeasurableSet (K u v)) (u : Fin n) {S : Finset (Fin n)} (hS : u ∉ S) :
    ∫ x, (∏ v ∈ S, (link K x u v : ℝ)) ∂(Measure.pi fun _ : Fin n => κ) = (∫⁻ q, ∏ v ∈ S, κ {p | (q, p) ∈ K u v} ∂κ).toReal := by
  classical
  have h1 := neighbours_prob (P := Measure.pi fun _ : Fin n => κ) (X := fun x => x) measurable_id (κ := κ) Measure.map_id hS (Finset.notMem_empty u) (Finset.disjoint_empty_right S)
    MeasurableSet.univ (hK u)
  simp only [Set.mem_univ, true_and, Finset.notMem_empty, false_imp_iff, implies_true, and_true, Finset.prod_empty, mul_one, Measure.restrict_univ] at h1
  rw [← h1]
  have hm : MeasurableSet {x : Fin n → E | ∀ v ∈ S, (x u, x v) ∈ K u v} := by
    have : {x : Fin n → E | ∀ v ∈ S, (x u, x v) ∈ K u v} = ⋂ v ∈ S, {x | (x u, x v) ∈ K u v} := by ext; simp
    rw [this]
    refine Finset.measurableSet_biInter S fun v _ => ?_
    have h : Measurable fun x : Fin n → E => (x u, x v) := by fun_prop
    exact h (hK u v)
  have e : ∀ x : Fin n → E, (∏ v ∈ S, (link K x u v : ℝ)) = ({x : Fin n → E | ∀ v ∈ S, (x u, x v) ∈ K u v}).indicator (fun _ => 1) x := by
    intro x
    by_cases h : ∀ v ∈ S, (x u, x v) ∈ K u v
    · rw [Set.indicator_of_mem (show x ∈ {x : Fin n → E | ∀ v ∈ S, (x u, x v) ∈ K u v} from h)]
      refine Finset.prod_eq_one fun v hv => ?_
      unfold link
      rw [if_pos (h v hv)]; simp
    · rw [Set.indicator_of_notMem (show x ∉ {x : Fin n → E | ∀ v ∈ S, (x u, x v) ∈ K u v} from h)]
      push Not at h
      obtain ⟨v, hv, hv'⟩ := h
      refine Finset.prod_eq_zero hv ?_
      unfold link
      rw [if_neg hv']; simp
  rw [integral_congr_ae (Filter.Eventually.of_forall e), integral_indicator_const _ hm]
  simp [Measure.real]

end

end Girgs.Props
