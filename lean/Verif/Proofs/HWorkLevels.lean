import Verif.Proofs.HWorkVisits
import Verif.Proofs.HFilterXR
import Verif.Proofs.WorkIntegral
/-
C90: the number of cells and of cell pairs of the hyperbolic structure is at most a constant times `exp (R / 2)`.
-/
open Real
namespace Girgs
open Spec

/-- two layers: the comparison level in terms of the radii -/
theorem pair_level_sq {R : ℝ} (hR : (⌈R⌉ : ℝ) ≤ 3 / 2 * R) {i j : ℕ} (hi : i < ⌈R⌉.toNat) (hj : j < ⌈R⌉.toNat) (ht : 1 ≤ hpair R i j)
    {c : ℝ} (hc0 : 0 < c) (hcR : 1 < R → c * Real.exp R ≤ Real.cosh R - Real.cosh (R - 1)) :
    ((2 : ℝ) ^ hpair R i j) ^ 2 * c < π ^ 2 / 2 * Real.exp (R - 2 - i - j) := by
  unfold hpair at ht ⊢
  obtain ⟨t, e⟩ : ∃ t, hpbl (R - i - 1) (R - j - 1) R = t + 1 := ⟨_, (Nat.succ_pred_eq_of_pos ht).symm⟩
  have h := hpbl_pos_lt (show t < hpbl (R - i - 1) (R - j - 1) R by omega)
  obtain ⟨h1, h2⟩ := layers_pos hR hi hj h
  rw [e]
  unfold hc at h
  have hi0 : (0 : ℝ) ≤ i := Nat.cast_nonneg _
  have hj0 : (0 : ℝ) ≤ j := Nat.cast_nonneg _
  have hcosh : Real.cosh (R - i - 1 - (R - j - 1)) ≤ Real.cosh (R - 1) := by
    apply Real.cosh_le_cosh.2
    rw [abs_of_pos (show 0 < R - 1 by linarith), abs_le]; constructor <;> linarith
  have hcos := Real.one_sub_sq_div_two_le_cos (x := π / 2 ^ t)
  have hs1 : Real.sinh (R - i - 1) ≤ Real.exp (R - i - 1) / 2 := by
    rw [Real.sinh_eq]; linarith [Real.exp_pos (-(R - i - 1))]
  have hs2 : Real.sinh (R - j - 1) ≤ Real.exp (R - j - 1) / 2 := by
    rw [Real.sinh_eq]; linarith [Real.exp_pos (-(R - j - 1))]
  have hp1 : 0 < Real.sinh (R - i - 1) := Real.sinh_pos_iff.2 h1
  have hp2 : 0 < Real.sinh (R - j - 1) := Real.sinh_pos_iff.2 h2
  have hss : Real.sinh (R - i - 1) * Real.sinh (R - j - 1) ≤ Real.exp (R - 2 - i - j) * Real.exp R / 4 := by
    have := mul_le_mul hs1 hs2 hp2.le (by positivity)
    have e2 : Real.exp (R - i - 1) / 2 * (Real.exp (R - j - 1) / 2) = Real.exp (R - 2 - i - j) * Real.exp R / 4 := by
      rw [← Real.exp_add, div_mul_div_comm, ← Real.exp_add]; congr 2 <;> ring_nf
    linarith
  have hφ : (1 - Real.cos (π / 2 ^ t)) ≤ (π / 2 ^ t) ^ 2 / 2 := by linarith
  have hprod : (1 - Real.cos (π / 2 ^ t)) * (Real.sinh (R - i - 1) * Real.sinh (R - j - 1)) ≤
      (π / 2 ^ t) ^ 2 / 2 * (Real.exp (R - 2 - i - j) * Real.exp R / 4) :=
    mul_le_mul hφ hss (mul_pos hp1 hp2).le (by positivity)
  have hlt : c * Real.exp R < (π / 2 ^ t) ^ 2 / 2 * (Real.exp (R - 2 - i - j) * Real.exp R / 4) := by
    have := hcR (by linarith)
    rw [mul_assoc] at h
    linarith
  have hX := Real.exp_pos R
  have h5 : c < (π / 2 ^ t) ^ 2 / 2 * Real.exp (R - 2 - i - j) / 4 := by
    by_contra hn
    have := mul_le_mul_of_nonneg_right (not_lt.1 hn) hX.le
    linarith
  have h6 : ((2 : ℝ) ^ (t + 1)) ^ 2 * c < ((2 : ℝ) ^ (t + 1)) ^ 2 * ((π / 2 ^ t) ^ 2 / 2 * Real.exp (R - 2 - i - j) / 4) :=
    mul_lt_mul_of_pos_left h5 (by positivity)
  refine h6.trans_eq ?_
  rw [pow_succ]; field_simp; ring

theorem coshdiff_one {R : ℝ} (h1 : 1 < R) : 0.19 * Real.exp R ≤ Real.cosh R - Real.cosh (R - 1) := by
  have hE1 := Real.exp_one_gt_d9
  have hE2 := Real.exp_one_lt_d9
  have hEi : (Real.exp 1)⁻¹ ≤ 0.36788 := by
    rw [inv_le_comm₀ (Real.exp_pos 1) (by norm_num)]
    refine le_trans ?_ hE1.le
    norm_num
  apply coshdiff _ rfl
  have h3 : Real.exp 1 ≤ Real.exp R := Real.exp_le_exp.2 h1.le
  have h4 : (7.389 : ℝ) ≤ Real.exp R ^ 2 := by
    have h8 : ((2.7182818283 : ℝ)) ^ 2 ≤ Real.exp R ^ 2 := pow_le_pow_left₀ (by positivity) (hE1.le.trans h3) 2
    refine le_trans (by norm_num) h8
  have h9 : (0.25212 : ℝ) ≤ 1 - (Real.exp 1)⁻¹ - 2 * 0.19 := by linarith
  have := mul_le_mul h9 h4 (by norm_num) (by linarith)
  refine le_trans ?_ this
  refine le_trans (sub_le_sub_right hE2.le 1) (by norm_num)

/-- the number of cells on the comparison level of two layers -/
theorem pair_cells_le {R : ℝ} (hR : (⌈R⌉ : ℝ) ≤ 3 / 2 * R) {i j : ℕ} (hi : i < ⌈R⌉.toNat) (hj : j < ⌈R⌉.toNat) :
    (2 : ℝ) ^ hpair R i j ≤ 1 + 2 * (Real.exp (R / 2) * (Real.exp (-(1 / 2)) ^ i * Real.exp (-(1 / 2)) ^ j)) := by
  have hpos : 0 ≤ 2 * (Real.exp (R / 2) * (Real.exp (-(1 / 2)) ^ i * Real.exp (-(1 / 2)) ^ j)) := by positivity
  rcases Nat.eq_zero_or_pos (hpair R i j) with h0 | h0
  · rw [h0, pow_zero]; linarith
  have h := pair_level_sq hR hi hj h0 (by norm_num) coshdiff_one
  have hpi := Real.pi_lt_d4
  have hpi0 := Real.pi_pos
  have hpi2 : π ^ 2 < 9.8702 := by nlinarith
  have hE1 := Real.exp_one_gt_d9
  have e1 : Real.exp (R / 2) * (Real.exp (-(1 / 2)) ^ i * Real.exp (-(1 / 2)) ^ j) = Real.exp ((R - i - j) / 2) := by
    rw [← Real.exp_nat_mul, ← Real.exp_nat_mul, ← Real.exp_add, ← Real.exp_add]; congr 1; ring
  rw [e1]
  have e2 : Real.exp (R - 2 - i - j) = Real.exp ((R - i - j) / 2) ^ 2 / Real.exp 1 ^ 2 := by
    rw [← Real.exp_nat_mul, ← Real.exp_nat_mul, ← Real.exp_sub]; congr 1; push_cast; ring
  rw [e2] at h
  set X := Real.exp ((R - i - j) / 2) with hX
  have hX0 : 0 < X := Real.exp_pos _
  have hEE : (7.38 : ℝ) ≤ Real.exp 1 ^ 2 := by
    refine le_trans (by norm_num) (pow_le_pow_left₀ (by norm_num) hE1.le 2)
  have h2 : X ^ 2 / Real.exp 1 ^ 2 ≤ X ^ 2 / 7.38 := div_le_div_of_nonneg_left (by positivity) (by norm_num) hEE
  have h3 : ((2 : ℝ) ^ hpair R i j) ^ 2 ≤ (2 * X) ^ 2 := by
    have h4 : π ^ 2 / 2 * (X ^ 2 / Real.exp 1 ^ 2) ≤ 9.8702 / 2 * (X ^ 2 / 7.38) :=
      mul_le_mul (by linarith) h2 (by positivity) (by norm_num)
    have h5 : (0 : ℝ) ≤ X ^ 2 := by positivity
    rw [mul_pow]
    clear_value X
    generalize ((2 : ℝ) ^ hpair R i j) ^ 2 = P at *
    generalize X ^ 2 = Y at *
    generalize π ^ 2 / 2 * (Y / Real.exp 1 ^ 2) = Z at *
    norm_num at h h4 ⊢
    linarith
  have := le_of_sq_le_sq h3 (by positivity)
  linarith

theorem exp_half_sum (L : ℕ) : ∑ i ∈ Finset.range L, Real.exp (-(1 / 2)) ^ i ≤ 2.55 := by
  have hE1 := Real.exp_one_gt_d9
  have h0 : 0 < Real.exp (-(1 / 2)) := Real.exp_pos _
  have hsq : Real.exp (-(1 / 2)) ^ 2 = (Real.exp 1)⁻¹ := by
    rw [← Real.exp_nat_mul, ← Real.exp_neg]; congr 1; norm_num
  have hEi : (Real.exp 1)⁻¹ ≤ 0.36788 := by
    rw [inv_le_comm₀ (Real.exp_pos 1) (by norm_num)]
    refine le_trans ?_ hE1.le
    norm_num
  have hlt : Real.exp (-(1 / 2)) ≤ 0.6066 := by
    by_contra hn
    have := not_le.1 hn
    nlinarith
  have h1 : ∑ i ∈ Finset.range L, Real.exp (-(1 / 2)) ^ i = (1 - Real.exp (-(1 / 2)) ^ L) / (1 - Real.exp (-(1 / 2))) := by
    rw [geom_sum_eq (by linarith), ← neg_div_neg_eq]; congr 1 <;> ring
  rw [h1, div_le_iff₀ (by linarith)]
  have : 0 < Real.exp (-(1 / 2)) ^ L := by positivity
  linarith

theorem ceil_sq_le {R : ℝ} (h0 : 0 < R) (hR : (⌈R⌉ : ℝ) ≤ 3 / 2 * R) : ((⌈R⌉.toNat : ℕ) : ℝ) ^ 2 ≤ 4.9 * Real.exp (R / 2) := by
  have h1 : R / 4 - 1 + 1 ≤ Real.exp (R / 4 - 1) := Real.add_one_le_exp _
  have hc : (0 : ℤ) < ⌈R⌉ := Int.ceil_pos.2 h0
  have e : ((⌈R⌉.toNat : ℕ) : ℝ) = (⌈R⌉ : ℝ) := by
    have : ((⌈R⌉.toNat : ℕ) : ℤ) = ⌈R⌉ := Int.toNat_of_nonneg hc.le
    exact_mod_cast this
  have hc' : (0 : ℝ) < ⌈R⌉ := by exact_mod_cast hc
  rw [e]
  have hE1 := Real.exp_one_gt_d9
  have e2 : Real.exp (R / 4 - 1) ^ 2 = Real.exp (R / 2) / Real.exp 1 ^ 2 := by
    rw [← Real.exp_nat_mul, ← Real.exp_nat_mul, ← Real.exp_sub]; congr 1; push_cast; ring
  have hEE : (7.38 : ℝ) ≤ Real.exp 1 ^ 2 := by
    refine le_trans (by norm_num) (pow_le_pow_left₀ (by norm_num) hE1.le 2)
  have h2 : Real.exp (R / 2) / Real.exp 1 ^ 2 ≤ Real.exp (R / 2) / 7.38 := div_le_div_of_nonneg_left (Real.exp_pos _).le (by norm_num) hEE
  have h3 : (R / 4) ^ 2 ≤ Real.exp (R / 4 - 1) ^ 2 := pow_le_pow_left₀ (by linarith) (by linarith) 2
  have h4 : (⌈R⌉ : ℝ) ^ 2 ≤ (3 / 2 * R) ^ 2 := pow_le_pow_left₀ hc'.le hR 2
  have := Real.exp_pos (R / 2)
  rw [e2] at h3
  have h5 : (R / 4) ^ 2 ≤ Real.exp (R / 2) / 7.38 := h3.trans h2
  have h6 : (3 / 2 * R) ^ 2 = 36 * (R / 4) ^ 2 := by ring
  rw [h6] at h4
  have h7 : 36 * (R / 4) ^ 2 ≤ 36 * (Real.exp (R / 2) / 7.38) := mul_le_mul_of_nonneg_left h5 (by norm_num)
  have h8 : 36 * (Real.exp (R / 2) / 7.38) ≤ 4.9 * Real.exp (R / 2) := by
    norm_num
    linarith
  exact (h4.trans h7).trans h8

variable {ndebug : Bool} {radii angles : List ℝ} {T R : ℝ} {H : HTree XR}

theorem Spec.HypInput.R_pos (hin : HypInput radii angles T R) : 0 < R := by
  rcases hin.disk with h | h <;> linarith [h.1]

theorem sum_pair_cells (hR0 : 0 < R) (hR : (⌈R⌉ : ℝ) ≤ 3 / 2 * R) {L : ℕ} (hL : L ≤ ⌈R⌉.toNat) :
    ∑ i ∈ Finset.range L, ∑ j ∈ Finset.range L, (2 : ℝ) ^ hpair R i j ≤ 18 * Real.exp (R / 2) := by
  have h1 : ∑ i ∈ Finset.range L, ∑ j ∈ Finset.range L, (2 : ℝ) ^ hpair R i j ≤
      ∑ i ∈ Finset.range L, ∑ j ∈ Finset.range L, (1 + 2 * (Real.exp (R / 2) * (Real.exp (-(1 / 2)) ^ i * Real.exp (-(1 / 2)) ^ j))) := by
    refine Finset.sum_le_sum fun i hi => Finset.sum_le_sum fun j hj => ?_
    rw [Finset.mem_range] at hi hj
    exact pair_cells_le hR (by omega) (by omega)
  refine h1.trans ?_
  simp_rw [Finset.sum_add_distrib, ← Finset.mul_sum, ← Finset.sum_mul]
  simp only [Finset.sum_const, Finset.card_range, nsmul_eq_mul, mul_one]
  have h2 := exp_half_sum L
  have h3 : (0 : ℝ) ≤ ∑ i ∈ Finset.range L, Real.exp (-(1 / 2)) ^ i := Finset.sum_nonneg fun _ _ => by positivity
  have h4 := ceil_sq_le hR0 hR
  have h5 : (L : ℝ) ^ 2 ≤ ((⌈R⌉.toNat : ℕ) : ℝ) ^ 2 := pow_le_pow_left₀ (Nat.cast_nonneg _) (by exact_mod_cast hL) 2
  set S := ∑ i ∈ Finset.range L, Real.exp (-(1 / 2)) ^ i
  have h6 : S * S ≤ 2.55 * 2.55 := mul_le_mul h2 h2 h3 (by norm_num)
  have h7 := mul_le_mul_of_nonneg_left h6 (Real.exp_pos (R / 2)).le
  have := Real.exp_pos (R / 2)
  nlinarith

theorem HBuiltX.htgt_zero : htgt R 0 = hpair R 0 0 := by unfold htgt hpair; simp

/-- the calls and iterations of the recursion over cell pairs -/
theorem HBuiltX.visits (b : HBuiltX ndebug radii angles T R H) (hin : HypInput radii angles T R) :
    ∃ k, HTree.visitSteps H H.levels 0 0 0 = some k ∧ (k : ℝ) ≤ 864 * Real.exp (R / 2) := by
  have ok := b.ok
  have hR := disk_ceil hin.disk
  obtain ⟨k, h1, h2⟩ := ok.visitSteps_le
  refine ⟨k, h1, ?_⟩
  have h3 := sum_hlayPairs_le ok (fun l => 2 ^ l) (fun l => by simpa using geo_levels (D := 1) le_rfl l)
  set S := ∑ i ∈ Finset.range H.layers, ∑ j ∈ Finset.range H.layers, 2 ^ hpair R i j with hS
  have h4 : k ≤ 6 * (8 * S) := by
    refine h2.trans ?_
    have e : ∑ l ∈ Finset.range H.levels, 6 * 2 ^ l * hcostP H (hpair R) l = 6 * ∑ l ∈ Finset.range H.levels, 2 ^ l * hcostP H (hpair R) l := by
      rw [Finset.mul_sum]; exact Finset.sum_congr rfl fun l _ => by ring
    rw [e]
    refine Nat.mul_le_mul_left _ (h3.trans ?_)
    have h5 := geo_depth (D := 1) le_rfl (hpair R 0 0)
    simp only [one_mul] at h5
    rw [← HBuiltX.htgt_zero, ← ok.levels_eq] at h5
    have h6 : 2 ^ hpair R 0 0 ≤ S := by
      have h0 : 0 ∈ Finset.range H.layers := Finset.mem_range.2 ok.layers_pos
      refine le_trans ?_ (Finset.single_le_sum (f := fun i => ∑ j ∈ Finset.range H.layers, 2 ^ hpair R i j) (fun _ _ => Nat.zero_le _) h0)
      exact Finset.single_le_sum (f := fun j => 2 ^ hpair R 0 j) (fun _ _ => Nat.zero_le _) h0
    rw [← HBuiltX.htgt_zero] at h6
    omega
  have h7 : (S : ℝ) ≤ 18 * Real.exp (R / 2) := by
    rw [hS]
    push_cast
    exact sum_pair_cells hin.R_pos hR ok.layers_le
  have h12 : (k : ℝ) ≤ 6 * (8 * S) := by exact_mod_cast h4
  linarith

/-- the size of the index over the cells -/
theorem HBuiltX.index_le (b : HBuiltX ndebug radii angles T R H) (hin : HypInput radii angles T R) :
    (H.firstInCell.length : ℝ) ≤ 9 * Real.exp (R / 2) := by
  have ok := b.ok
  have hR := disk_ceil hin.disk
  have hR0 := hin.R_pos
  rw [ok.first_eq, List.length_map, List.length_range]
  unfold hTotal
  push_cast
  have hnl : 0 < ⌈R⌉.toNat := by have := Int.ceil_pos.2 hR0; omega
  have hterm : ∀ i ∈ Finset.range ⌈R⌉.toNat, (2 : ℝ) ^ htgt R i ≤ 1 + 2 * (Real.exp (R / 2) * Real.exp (-(1 / 2)) ^ i) := by
    intro i hi
    rw [Finset.mem_range] at hi
    have := pair_cells_le hR hi hnl
    have e : htgt R i = hpair R i 0 := by unfold htgt hpair; simp
    rw [e]; simpa using this
  have hsum := Finset.sum_le_sum hterm
  simp_rw [Finset.sum_add_distrib, ← Finset.mul_sum] at hsum
  simp only [Finset.sum_const, Finset.card_range, nsmul_eq_mul, mul_one] at hsum
  have h2 := exp_half_sum ⌈R⌉.toNat
  have h4 := ceil_sq_le hR0 hR
  have hE : 1 ≤ Real.exp (R / 2) := Real.one_le_exp (by linarith)
  have h7 := mul_le_mul_of_nonneg_left h2 (Real.exp_pos (R / 2)).le
  set X := Real.exp (R / 2)
  set L := ((⌈R⌉.toNat : ℕ) : ℝ) with hL
  have h8 : L ≤ 2.3 * X := by
    have h9 : L ^ 2 ≤ (2.3 * X) ^ 2 := by nlinarith
    exact le_of_sq_le_sq h9 (by positivity)
  nlinarith

end Girgs
