import Verif.Proofs.HypLevel
/-!
Sharp bounds for the target levels of the outer layers of a large disk.
-/
namespace Girgs
open Real Spec

theorem exp_sq_le {x : ℝ} : Real.exp (x / 2) ^ 2 = Real.exp x := by
  rw [← Real.exp_nat_mul]; congr 1; push_cast; ring

theorem big_ceil {R : ℝ} (h : 2 ≤ R) : (⌈R⌉ : ℝ) ≤ 3 / 2 * R := by
  have := Int.ceil_lt_add_one R
  linarith

/-- `exp 40` is large -/
theorem exp_forty {R : ℝ} (h : 40 ≤ R) : (10000000000000000 : ℝ) ≤ Real.exp R := by
  have h1 : Real.exp 40 ≤ Real.exp R := Real.exp_le_exp.2 h
  have h2 : Real.exp 40 = Real.exp 1 ^ 40 := by rw [← Real.exp_nat_mul]; norm_num
  have h3 : (2.7 : ℝ) ^ 40 ≤ Real.exp 1 ^ 40 := pow_le_pow_left₀ (by norm_num) (by have := Real.exp_one_gt_d9; linarith) 40
  refine le_trans ?_ ((h3.trans h2.ge).trans h1)
  norm_num

/-- an upper bound for the number of cells of an outer layer, sharp up to the power of two -/
theorem level_sq_lt {R : ℝ} (hR : 40 ≤ R) {k : ℕ} (hk : k ≤ 5) (ht : 1 ≤ hpbl (R - k - 1) (R - 1) R) :
    ((2 : ℝ) ^ hpbl (R - k - 1) (R - 1) R) ^ 2 * 0.4999 < π ^ 2 / 2 * Real.exp (R - 2 - k) := by
  obtain ⟨t, e⟩ : ∃ t, hpbl (R - k - 1) (R - 1) R = t + 1 := ⟨_, (Nat.succ_pred_eq_of_pos ht).symm⟩
  have h := hpbl_pos_lt (show t < hpbl (R - k - 1) (R - 1) R by omega)
  rw [e]
  have hk0 : (0 : ℝ) ≤ k := Nat.cast_nonneg _
  have hk5 : (k : ℝ) ≤ 5 := by exact_mod_cast hk
  have h1 : 0 < R - k - 1 := by linarith
  have h2 : 0 < R - 1 := by linarith
  unfold hc at h
  have hcosh : Real.cosh (R - k - 1 - (R - 1)) ≤ 300 := by
    rw [show R - k - 1 - (R - 1) = -k by ring, Real.cosh_neg]
    refine le_trans (b := Real.cosh 5) (Real.cosh_le_cosh.2 (by rw [abs_of_nonneg hk0, abs_of_nonneg (by norm_num : (0 : ℝ) ≤ 5)]; exact hk5)) ?_
    rw [Real.cosh_eq]
    have e5 : Real.exp 5 = Real.exp 1 ^ 5 := by rw [← Real.exp_nat_mul]; norm_num
    have h3 : Real.exp 1 ^ 5 ≤ (2.8 : ℝ) ^ 5 := pow_le_pow_left₀ (Real.exp_pos 1).le (by have := Real.exp_one_lt_d9; linarith) 5
    have h4 : Real.exp (-5) ≤ 1 := Real.exp_le_one_iff.2 (by norm_num)
    rw [e5]
    norm_num at h3
    linarith
  have hcos := Real.one_sub_sq_div_two_le_cos (x := π / 2 ^ t)
  have hs1 : Real.sinh (R - k - 1) ≤ Real.exp (R - k - 1) / 2 := by
    rw [Real.sinh_eq]; linarith [Real.exp_pos (-(R - k - 1))]
  have hs2 : Real.sinh (R - 1) ≤ Real.exp (R - 1) / 2 := by
    rw [Real.sinh_eq]; linarith [Real.exp_pos (-(R - 1))]
  have hp1 : 0 < Real.sinh (R - k - 1) := Real.sinh_pos_iff.2 h1
  have hp2 : 0 < Real.sinh (R - 1) := Real.sinh_pos_iff.2 h2
  have hss : Real.sinh (R - k - 1) * Real.sinh (R - 1) ≤ Real.exp (R - 2 - k) * Real.exp R / 4 := by
    have := mul_le_mul hs1 hs2 hp2.le (by positivity)
    have e2 : Real.exp (R - k - 1) / 2 * (Real.exp (R - 1) / 2) = Real.exp (R - 2 - k) * Real.exp R / 4 := by
      rw [← Real.exp_add, div_mul_div_comm, ← Real.exp_add]; congr 2 <;> ring_nf
    linarith
  have hφ : (1 - Real.cos (π / 2 ^ t)) ≤ (π / 2 ^ t) ^ 2 / 2 := by linarith
  have hprod : (1 - Real.cos (π / 2 ^ t)) * (Real.sinh (R - k - 1) * Real.sinh (R - 1)) ≤
      (π / 2 ^ t) ^ 2 / 2 * (Real.exp (R - 2 - k) * Real.exp R / 4) :=
    mul_le_mul hφ hss (mul_pos hp1 hp2).le (by positivity)
  have hX := Real.exp_pos R
  have hlt : 0.4999 * Real.exp R < (π / 2 ^ t) ^ 2 / 2 * (Real.exp (R - 2 - k) * Real.exp R / 4) := by
    rw [mul_assoc] at h
    have h3 : Real.exp R / 2 ≤ Real.cosh R := by rw [Real.cosh_eq]; linarith [Real.exp_pos (-R)]
    have h4 := exp_forty hR
    linarith
  have h5 : 0.4999 < (π / 2 ^ t) ^ 2 / 2 * Real.exp (R - 2 - k) / 4 := by
    by_contra hn
    have := mul_le_mul_of_nonneg_right (not_lt.1 hn) hX.le
    linarith
  have hp : (0 : ℝ) < 2 ^ t := by positivity
  have h6 : ((2 : ℝ) ^ (t + 1)) ^ 2 * 0.4999 < ((2 : ℝ) ^ (t + 1)) ^ 2 * ((π / 2 ^ t) ^ 2 / 2 * Real.exp (R - 2 - k) / 4) :=
    mul_lt_mul_of_pos_left h5 (by positivity)
  refine h6.trans_eq ?_
  rw [pow_succ]; field_simp; ring

theorem exp_sub_nat (x : ℝ) (k : ℕ) : Real.exp (x - k) * Real.exp 1 ^ k = Real.exp x := by
  rw [← Real.exp_nat_mul, ← Real.exp_add]; congr 1; ring

/-- the level of an outer layer is at most `L` -/
theorem level_le {R A : ℝ} (hR : 40 ≤ R) {k L : ℕ} (hk : k ≤ 5) (hA : Real.exp (R - 2) ≤ A)
    (h : 9.8702 * A ≤ 0.9998 * (4 : ℝ) ^ (L + 1) * 2.7182818283 ^ k) : hpbl (R - k - 1) (R - 1) R ≤ L := by
  by_contra hn
  have h1 := level_sq_lt hR hk (by omega)
  have hpi := Real.pi_lt_d4
  have hpi0 := Real.pi_pos
  have hpi2 : π ^ 2 < 9.8702 := by nlinarith
  have h2 : ((4 : ℝ) ^ (L + 1)) ≤ ((2 : ℝ) ^ hpbl (R - k - 1) (R - 1) R) ^ 2 := by
    rw [← pow_mul, mul_comm, pow_mul]
    norm_num
    exact pow_le_pow_right₀ (by norm_num) (by omega)
  have h3 := exp_sub_nat (R - 2) k
  have h4 : (2.7182818283 : ℝ) ^ k ≤ Real.exp 1 ^ k := pow_le_pow_left₀ (by norm_num) Real.exp_one_gt_d9.le k
  have hE := Real.exp_pos (R - 2 - k)
  have h5 : Real.exp (R - 2 - k) * 2.7182818283 ^ k ≤ A := by
    refine le_trans ?_ (h3.le.trans hA)
    exact mul_le_mul_of_nonneg_left h4 hE.le
  have h6 : (4 : ℝ) ^ (L + 1) * 0.9998 < 9.8702 * Real.exp (R - 2 - k) := by
    nlinarith
  have hp : (0 : ℝ) < 2.7182818283 ^ k := by positivity
  have h7 := mul_lt_mul_of_pos_right h6 hp
  nlinarith

/-- in every layer the number of cells is at most `1 + 4.06 * exp(R/2 - 1 - k/2)` -/
theorem two_pow_level_le' {R : ℝ} (h2 : 2 ≤ R) {k : ℕ} (hk : k < ⌈R⌉.toNat) :
    (2 : ℝ) ^ hpbl (R - k - 1) (R - 1) R ≤ 1 + 4.06 * Real.exp (R / 2 - 1) * Real.exp (-(1 / 2)) ^ k := by
  have hR := big_ceil h2
  have hk0 : (0 : ℝ) ≤ k := Nat.cast_nonneg _
  have eE : Real.exp (-(1 / 2)) ^ k = Real.exp (-(k / 2)) := by rw [← Real.exp_nat_mul]; ring_nf
  have hpos : 0 < 4.06 * Real.exp (R / 2 - 1) * Real.exp (-(1 / 2)) ^ k := by positivity
  rcases Nat.eq_zero_or_pos (hpbl (R - k - 1) (R - 1) R) with h0 | h0
  · rw [h0, pow_zero]; linarith
  set t := hpbl (R - k - 1) (R - 1) R with ht
  have hpi := Real.pi_lt_d4
  have hpi0 := Real.pi_pos
  have hpi2 : π ^ 2 < 9.8702 := by nlinarith
  have hE1 := Real.exp_one_gt_d9
  have hE2 := Real.exp_one_lt_d9
  have hEi : (Real.exp 1)⁻¹ ≤ 0.36788 := by
    rw [inv_le_comm₀ (Real.exp_pos 1) (by norm_num)]
    refine le_trans ?_ hE1.le
    norm_num
  rw [eE, mul_assoc, ← Real.exp_add]
  have hcd : 1 < R → 0.3 * Real.exp R ≤ Real.cosh R - Real.cosh (R - 1) := fun _ => by
    apply coshdiff _ rfl
    have h3 : Real.exp 1 ^ 2 ≤ Real.exp R := by rw [← Real.exp_nat_mul]; exact Real.exp_le_exp.2 (by push_cast; linarith)
    have h4 : (54.59 : ℝ) ≤ Real.exp R ^ 2 := by
      have h7 : (2.7182818283 : ℝ) ^ 2 ≤ Real.exp 1 ^ 2 := pow_le_pow_left₀ (by norm_num) hE1.le 2
      have h8 : ((2.7182818283 : ℝ) ^ 2) ^ 2 ≤ Real.exp R ^ 2 := pow_le_pow_left₀ (by positivity) (h7.trans h3) 2
      refine le_trans (by norm_num) h8
    have h9 : (0.03212 : ℝ) ≤ 1 - (Real.exp 1)⁻¹ - 2 * 0.3 := by linarith
    have := mul_le_mul h9 h4 (by norm_num) (by linarith)
    refine le_trans ?_ this
    refine le_trans (sub_le_sub_right hE2.le 1) (by norm_num)
  obtain ⟨h1, hsq⟩ := two_pow_level_sq hR hk h0 (by norm_num) hcd
  rw [← ht] at hsq
  have h5 : ((2 : ℝ) ^ t) ^ 2 ≤ (4.06 * Real.exp ((R - 2 - k) / 2)) ^ 2 := by
    rw [mul_pow, exp_sq_le]
    have := Real.exp_pos (R - 2 - k)
    nlinarith
  have h6 : (2 : ℝ) ^ t ≤ 4.06 * Real.exp ((R - 2 - k) / 2) := le_of_sq_le_sq h5 (by positivity)
  rw [show (R - 2 - (k : ℝ)) / 2 = R / 2 - 1 + -(k / 2) by ring] at h6
  linarith

theorem exp_neg_half_le : Real.exp (-(1 / 2)) ≤ 0.6068 := by
  rw [Real.exp_neg, inv_le_comm₀ (Real.exp_pos _) (by norm_num)]
  have h2 : (1.648 : ℝ) ^ 2 ≤ Real.exp (1 / 2) ^ 2 := by
    rw [← Real.exp_nat_mul]
    have : ((2 : ℕ) : ℝ) * (1 / 2) = 1 := by norm_num
    rw [this]
    refine le_trans ?_ Real.exp_one_gt_d9.le
    norm_num
  have := le_of_sq_le_sq h2 (Real.exp_pos _).le
  refine le_trans (by norm_num) this

/-- the layers from number 4 on have few cells together -/
theorem tail_le {R S : ℝ} (hR : 40 ≤ R) (hS : Real.exp (R - 2) ≤ S ^ 2) (hS0 : 0 ≤ S) :
    ∑ k ∈ Finset.range (⌈R⌉.toNat - 4), (2 : ℝ) ^ hpbl (R - ((k + 4 : ℕ) : ℝ) - 1) (R - 1) R ≤ ⌈R⌉.toNat + 1.4001 * S := by
  have hq := exp_neg_half_le
  have hq0 := Real.exp_pos (-(1 / 2) : ℝ)
  set q := Real.exp (-(1 / 2)) with hqd
  have hE : Real.exp (R / 2 - 1) ≤ S := by
    refine le_of_sq_le_sq ?_ hS0
    rw [show R / 2 - 1 = (R - 2) / 2 by ring, exp_sq_le]
    exact hS
  have hE0 := Real.exp_pos (R / 2 - 1)
  have h1 : ∑ k ∈ Finset.range (⌈R⌉.toNat - 4), (2 : ℝ) ^ hpbl (R - ((k + 4 : ℕ) : ℝ) - 1) (R - 1) R ≤
      ∑ k ∈ Finset.range (⌈R⌉.toNat - 4), (1 + 4.06 * Real.exp (R / 2 - 1) * q ^ 4 * q ^ k) := by
    refine Finset.sum_le_sum fun k hk => ?_
    have := two_pow_level_le' (R := R) (by linarith) (k := k + 4) (by have := Finset.mem_range.1 hk; omega)
    rw [pow_add, ← hqd] at this
    nlinarith
  refine h1.trans ?_
  rw [Finset.sum_add_distrib, ← Finset.mul_sum]
  have hg : ∑ k ∈ Finset.range (⌈R⌉.toNat - 4), q ^ k ≤ 2.5433 := by
    have h2 : 0 < 1 - q := by linarith
    have h3 : 0 ≤ q ^ (⌈R⌉.toNat - 4) := by positivity
    rw [geom_sum_eq (by linarith), ← neg_div_neg_eq, neg_sub, neg_sub, div_le_iff₀ h2]
    nlinarith
  have hq4 : q ^ 4 ≤ 0.13558 := by
    refine le_trans (pow_le_pow_left₀ hq0.le hq 4) (by norm_num)
  have hc : (∑ k ∈ Finset.range (⌈R⌉.toNat - 4), (1 : ℝ)) ≤ ⌈R⌉.toNat := by
    simp only [Finset.sum_const, Finset.card_range, nsmul_eq_mul, mul_one]
    exact_mod_cast Nat.sub_le _ _
  have hs : 0 ≤ ∑ k ∈ Finset.range (⌈R⌉.toNat - 4), q ^ k := Finset.sum_nonneg fun k _ => by positivity
  have h2 : 4.06 * Real.exp (R / 2 - 1) * q ^ 4 * ∑ k ∈ Finset.range (⌈R⌉.toNat - 4), q ^ k ≤ 4.06 * S * 0.13558 * 2.5433 := by
    gcongr
  nlinarith

end Girgs
