import Verif.Spec.HRounding
import Verif.Proofs.B64Rounded
import Mathlib.Analysis.SpecialFunctions.Trigonometric.Bounds
import Mathlib.Analysis.Complex.ExponentialBounds
import Mathlib.Analysis.Real.Pi.Bounds
/-!
`B64` (correctly rounded elementary functions) and exact arithmetic satisfy `RoundedElem`.
-/
namespace Girgs
open Spec

theorem exp_700 : Real.exp 700 ≤ 2 ^ 1011 := by
  have h1 := Real.log_two_gt_d9
  rw [← Real.le_log_iff_exp_le (by positivity), Real.log_pow]
  push_cast
  linarith

theorem exp_le_700 {x : ℝ} (h : |x| ≤ 700) : Real.exp x ≤ 2 ^ 1011 :=
  (Real.exp_le_exp.2 ((le_abs_self x).trans h)).trans exp_700

theorem exp_ge_700 {x : ℝ} (h : |x| ≤ 700) : (2 : ℝ) ^ (-1022 : ℤ) ≤ Real.exp x := by
  have h1 : Real.exp (-x) ≤ 2 ^ 1011 := exp_le_700 (by rwa [abs_neg])
  rw [Real.exp_neg, inv_le_comm₀ (Real.exp_pos x) (by positivity)] at h1
  refine le_trans ?_ h1
  rw [zpow_neg]
  refine inv_anti₀ (by positivity) ?_
  exact_mod_cast pow_le_pow_right₀ (by norm_num : (1 : ℝ) ≤ 2) (show 1011 ≤ 1022 by norm_num)

theorem cosh_le_700 {x : ℝ} (h : |x| ≤ 700) : Real.cosh x ≤ 2 ^ 1011 := by
  rw [Real.cosh_eq]
  have h1 := exp_le_700 h
  have h2 : Real.exp (-x) ≤ 2 ^ 1011 := exp_le_700 (by rwa [abs_neg])
  generalize (2 : ℝ) ^ 1011 = z at *
  linarith

theorem abs_sinh_le_cosh (x : ℝ) : |Real.sinh x| ≤ Real.cosh x := by
  rw [abs_le]
  constructor
  · have := Real.sinh_lt_cosh (-x); rw [Real.sinh_neg, Real.cosh_neg] at this; linarith
  · exact (Real.sinh_lt_cosh x).le

theorem arcosh_le_self {x : ℝ} (h : 1 ≤ x) : Real.arcosh x ≤ x := by
  have h0 := Real.arcosh_nonneg h
  have h1 := Real.cosh_arcosh h
  have h2 := Real.self_le_sinh_iff.2 h0
  have h3 := Real.sinh_lt_cosh (Real.arcosh x)
  linarith

namespace B64

theorem rnd_eq_mul {x : ℝ} (h : rnd x = x) : ∃ N : ℤ, |N| ≤ 2 ^ 53 ∧ x = N * 2 ^ lastPlace x :=
  ⟨nearest (x / 2 ^ lastPlace x), nearest_abs_le x, h.symm⟩

theorem rnd_half {x : ℝ} (h : rnd x = x) (hx : (2 : ℝ) ^ (-1000 : ℤ) ≤ |x|) : rnd (x / 2) = x / 2 := by
  obtain ⟨N, hN, e⟩ := rnd_eq_mul h
  have h1 : (-1000 : ℤ) < lastPlace x + 53 := by
    have := lt_of_le_of_lt hx (abs_lt_lastPlace x)
    rwa [zpow_lt_zpow_iff_right₀ (by norm_num)] at this
  have e2 : x / 2 = N * 2 ^ (lastPlace x - 1) := by
    conv_lhs => rw [e]
    rw [zpow_sub_one₀ (by norm_num)]; ring
  rw [e2]
  exact rnd_rep hN (by omega)

theorem rnd_subNat {x : ℝ} {k : ℕ} (h : rnd x = x) (h1 : |x - k| ≤ |x|) (h2 : |x| ≤ 2 ^ 53) : rnd (x - k) = x - k := by
  obtain ⟨N, hN, e⟩ := rnd_eq_mul h
  have hl := lastPlace_ge x
  set l := lastPlace x
  rcases le_or_gt l 0 with hl0 | hl0
  · obtain ⟨m, hm⟩ := Int.eq_ofNat_of_zero_le (show 0 ≤ -l by omega)
    have e1 : (k : ℝ) = ((k * 2 ^ m : ℤ) : ℝ) * 2 ^ l := by
      have : (2 : ℝ) ^ m * 2 ^ l = 1 := by
        rw [← zpow_natCast, ← zpow_add₀ (by norm_num)]
        have : ((m : ℤ) + l) = 0 := by omega
        rw [this, zpow_zero]
      push_cast
      rw [mul_assoc, this, mul_one]
    have e2 : x - k = ((N - k * 2 ^ m : ℤ) : ℝ) * 2 ^ l := by
      conv_lhs => rw [e, e1]
      push_cast; ring
    have hq := two_zpow_pos l
    have h3 : |N - k * 2 ^ m| ≤ |N| := by
      have h4 : |((N - k * 2 ^ m : ℤ) : ℝ)| * 2 ^ l ≤ |(N : ℝ)| * 2 ^ l := by
        rw [e2] at h1
        conv_rhs at h1 => rw [e]
        rwa [abs_mul, abs_mul, abs_of_pos hq] at h1
      have h5 := le_of_mul_le_mul_right h4 hq
      exact_mod_cast h5
    rw [e2]
    exact rnd_rep (h3.trans hN) hl
  · obtain ⟨m, hm⟩ := Int.eq_ofNat_of_zero_le hl0.le
    have e1 : x = ((N * 2 ^ m : ℤ) : ℝ) := by
      rw [e, hm]; push_cast; simp
    have e2 : x - k = ((N * 2 ^ m - k : ℤ) : ℝ) := by
      conv_lhs => rw [e1]
      push_cast; ring
    rw [e2]
    apply rnd_int
    have h3 : |((N * 2 ^ m - k : ℤ) : ℝ)| ≤ 2 ^ 53 := by rw [← e2]; exact h1.trans h2
    exact_mod_cast h3

theorem lastPlace_eq {y : ℝ} (hy : (2 : ℝ) ^ (-1000 : ℤ) ≤ y) : lastPlace y = Int.log 2 y - 52 := by
  have hpos : 0 < y := lt_of_lt_of_le (two_zpow_pos _) hy
  have hl : -1000 ≤ Int.log 2 y := by
    rw [← Int.zpow_le_iff_le_log (by norm_num) hpos]; exact_mod_cast hy
  unfold lastPlace
  rw [abs_of_pos hpos]; omega

/-- numbers with the same last place are at least that far apart -/
theorem gap_mul {a b q : ℝ} (hq : 0 < q) {M N : ℤ} (ha : a = M * q) (hb : b = N * q) (h : a < b) : a + q ≤ b := by
  rw [ha, hb] at h ⊢
  have h1 : (M : ℝ) < N := lt_of_mul_lt_mul_right h hq.le
  have h2 : M + 1 ≤ N := by exact_mod_cast h1
  have h3 : ((M + 1 : ℤ) : ℝ) ≤ N := by exact_mod_cast h2
  have h4 := mul_le_mul_of_nonneg_right h3 hq.le
  push_cast at h4
  linarith

theorem rnd_gap {x y : ℝ} (hx : rnd x = x) (hy : rnd y = y) (h0 : (2 : ℝ) ^ (-1000 : ℤ) ≤ y) (h : x < y) :
    x ≤ (1 - 2 ^ (-53 : ℤ)) * y := by
  have hpos : 0 < y := lt_of_lt_of_le (two_zpow_pos _) h0
  have hu : (0 : ℝ) < 2 ^ (-53 : ℤ) := two_zpow_pos _
  have hu1 : (2 : ℝ) ^ (-53 : ℤ) ≤ 1 / 2 := by norm_num
  rcases le_or_gt x (y / 2) with hs | hs
  · have : y / 2 ≤ (1 - 2 ^ (-53 : ℤ)) * y := by nlinarith
    exact hs.trans this
  have hxp : 0 < x := by linarith
  -- the power of two below y
  have a2 : (2 : ℝ) ^ Int.log 2 y ≤ y := by
    have := Int.zpow_log_le_self (b := 2) (by norm_num) hpos
    exact_mod_cast this
  have a3 : y < (2 : ℝ) ^ (Int.log 2 y + 1) := by
    have := Int.lt_zpow_succ_log_self (b := 2) (by norm_num) y
    exact_mod_cast this
  have hl : -1000 ≤ Int.log 2 y := by
    rw [← Int.zpow_le_iff_le_log (by norm_num) hpos]; exact_mod_cast h0
  set e := Int.log 2 y with he
  have key : ∀ z w : ℝ, rnd z = z → rnd w = w → 0 < z → z < w → ∀ m : ℤ, -1001 ≤ m → (2 : ℝ) ^ m ≤ z → z < 2 ^ (m + 1) →
      w ≤ 2 ^ (m + 1) → z + 2 ^ (m - 52) ≤ w := by
    intro z w hz hw hz0 hzw m hm h1 h2 h3
    have lz : Int.log 2 z = m := by
      have g1 : m ≤ Int.log 2 z := (Int.zpow_le_iff_le_log (by norm_num) hz0).1 (by exact_mod_cast h1)
      have g2 : Int.log 2 z < m + 1 := (Int.lt_zpow_iff_log_lt (by norm_num) hz0).1 (by exact_mod_cast h2)
      omega
    have pz : lastPlace z = m - 52 := by unfold lastPlace; rw [abs_of_pos hz0, lz]; omega
    obtain ⟨M, _, eM⟩ := rnd_eq_mul hz
    rw [pz] at eM
    rcases h3.eq_or_lt with h3 | h3
    · refine gap_mul (two_zpow_pos _) (N := 2 ^ 53) eM ?_ hzw
      rw [h3]
      have e53 : (((2 ^ 53 : ℤ)) : ℝ) = 2 ^ (53 : ℤ) := by norm_num
      rw [e53, ← zpow_add₀ (by norm_num)]
      congr 1; ring
    · have hw0 : 0 < w := hz0.trans hzw
      have lw : Int.log 2 w = m := by
        have g1 : m ≤ Int.log 2 w := (Int.zpow_le_iff_le_log (by norm_num) hw0).1 (by exact_mod_cast h1.trans hzw.le)
        have g2 : Int.log 2 w < m + 1 := (Int.lt_zpow_iff_log_lt (by norm_num) hw0).1 (by exact_mod_cast h3)
        omega
      have pw : lastPlace w = m - 52 := by unfold lastPlace; rw [abs_of_pos hw0, lw]; omega
      obtain ⟨N, _, eN⟩ := rnd_eq_mul hw
      rw [pw] at eN
      exact gap_mul (two_zpow_pos _) eM eN hzw
  rcases le_or_gt ((2 : ℝ) ^ e) x with hc | hc
  · have h1 := key x y hx hy hxp h e (by omega) hc (h.trans a3) a3.le
    have e1 : (2 : ℝ) ^ (e - 52) = 2 ^ (-53 : ℤ) * 2 ^ (e + 1) := by rw [← zpow_add₀ (by norm_num)]; congr 1; ring
    rw [e1] at h1
    nlinarith
  · have h1 : (2 : ℝ) ^ (e - 1) ≤ x := by
      rw [zpow_sub_one₀ (by norm_num)]; linarith
    have h2 := key x (2 ^ e) hx (rnd_two_zpow (by omega)) hxp hc (e - 1) (by omega) h1 (by rw [sub_add_cancel]; exact hc)
      (by rw [sub_add_cancel])
    have e1 : (2 : ℝ) ^ (e - 1 - 52) = 2 ^ (-53 : ℤ) * 2 ^ e := by rw [← zpow_add₀ (by norm_num)]; congr 1; ring
    rw [e1] at h2
    have h3 : 2 ^ (-53 : ℤ) * (y - 2 ^ e) ≤ 1 * (y - 2 ^ e) := mul_le_mul_of_nonneg_right (hu1.trans (by norm_num)) (by linarith)
    linarith

theorem rnd_quot {x y : ℝ} (hx : rnd x = x) (hy : rnd y = y) (h0 : (2 : ℝ) ^ (-1000 : ℤ) ≤ y) (h : x < y) : rnd (x / y) < 1 := by
  have hpos : 0 < y := lt_of_lt_of_le (two_zpow_pos _) h0
  have h1 : x / y ≤ 1 - 2 ^ (-53 : ℤ) := by rw [div_le_iff₀ hpos]; exact rnd_gap hx hy h0 h
  refine lt_of_le_of_lt (rnd_mono h1) ?_
  have e : (1 : ℝ) - 2 ^ (-53 : ℤ) = ((2 ^ 53 - 1 : ℤ) : ℝ) * 2 ^ (-53 : ℤ) := by norm_num
  rw [e, rnd_rep (by norm_num) (by norm_num), ← e]
  norm_num

theorem rnd_err_all {x : ℝ} : |rnd x - x| ≤ 2 ^ (-53 : ℤ) * |x| + 2 ^ (-1021 : ℤ) := by
  rcases le_or_gt ((2 : ℝ) ^ (-1022 : ℤ)) |x| with h | h
  · have := rnd_rel h
    have := two_zpow_pos (-1021)
    linarith
  · have h1 := abs_rnd_le (by norm_num) h.le
    have h2 := abs_sub (rnd x) x
    have h3 : (2 : ℝ) ^ (-1021 : ℤ) = 2 ^ (-1022 : ℤ) + 2 ^ (-1022 : ℤ) := by
      rw [show (-1021 : ℤ) = -1022 + 1 by norm_num, zpow_add_one₀ (by norm_num)]; ring
    have h4 : 0 ≤ (2 : ℝ) ^ (-53 : ℤ) * |x| := by positivity
    rw [h3]; linarith [abs_sub (rnd x) x]

theorem big_le {x : ℝ} (h : |x| ≤ 2 ^ 1011) : |x| ≤ 2 ^ 1023 := small_le (by norm_num) h

/-- correctly rounded elementary functions -/
theorem elem : RoundedElem rounded (2 ^ (-53 : ℤ)) (rnd Real.pi) where
  eps_nonneg := (two_zpow_pos _).le
  inj a b x ha hb _ := by
    have h : a.1 = b.1 := (val_iff.1 ha).trans (val_iff.1 hb).symm
    obtain ⟨a, h1⟩ := a
    obtain ⟨b, h2⟩ := b
    simp only at h
    subst h
    rfl
  half _ h h' := rnd_half h h'
  subNat _ _ h h1 h2 := rnd_subNat h h1 h2
  gap _ _ h1 h2 h3 h4 := rnd_gap h1 h2 h3 h4
  quot _ _ h1 h2 h3 h4 := rnd_quot h1 h2 h3 h4
  eq a b x y ha hb := by
    show CFloat.eq a.1 b.1 = true ↔ _
    rw [val_iff.1 ha, val_iff.1 hb, XR.eq_fin, decide_eq_true_eq]
  pi := round_fin (small_le (n := 2) (by norm_num) (by rw [abs_of_pos Real.pi_pos]; linarith [Real.pi_le_four]))
  pi_err := by
    have := rnd_abs_err (x := Real.pi) (n := 2) (by rw [abs_of_pos Real.pi_pos]; linarith [Real.pi_le_four]) (by norm_num)
    linarith
  cosh a x ha h := by
    have hc := Real.cosh_pos x
    refine ⟨rnd (Real.cosh x), ?_, ?_⟩
    · show val (round (CFloat.cosh a.1)) = _
      rw [val_iff.1 ha, XR.cosh_fin, round_fin (big_le (by rw [abs_of_pos hc]; exact cosh_le_700 h))]
    · have := rnd_rel (x := Real.cosh x) (by
        rw [abs_of_pos hc]
        exact le_trans (zpow_le_one_of_nonpos₀ (by norm_num) (by norm_num)) (Real.one_le_cosh x))
      rwa [abs_of_pos hc] at this
  sinh a x ha h := by
    refine ⟨rnd (Real.sinh x), ?_, rnd_err_all⟩
    show val (round (CFloat.sinh a.1)) = _
    rw [val_iff.1 ha, XR.sinh_fin, round_fin (big_le ((abs_sinh_le_cosh x).trans (cosh_le_700 h)))]
  acosh a x ha h1 h2 := by
    have h0 := Real.arcosh_nonneg h1
    refine ⟨rnd (Real.arcosh x), ?_, ?_⟩
    · show val (round (CFloat.acosh a.1)) = _
      rw [val_iff.1 ha, XR.acosh_fin _ h1, round_fin]
      rw [abs_of_nonneg h0]
      exact ((arcosh_le_self h1).trans h2).trans (pow_le_pow_right₀ (by norm_num) (by norm_num))
    · have := rnd_err_all (x := Real.arcosh x)
      rwa [abs_of_nonneg h0] at this
  exp a x ha h := by
    have hc := Real.exp_pos x
    refine ⟨rnd (Real.exp x), ?_, ?_⟩
    · show val (round (CFloat.exp a.1)) = _
      rw [val_iff.1 ha, XR.exp_fin, round_fin (big_le (by rw [abs_of_pos hc]; exact exp_le_700 h))]
    · have := rnd_rel (x := Real.exp x) (by rw [abs_of_pos hc]; exact exp_ge_700 h)
      rwa [abs_of_pos hc] at this
  cos a x ha _ := by
    refine ⟨rnd (Real.cos x), ?_, ?_⟩
    · show val (round (CFloat.cos a.1)) = _
      rw [val_iff.1 ha, XR.cos_fin, round_fin (small_le (n := 0) (by norm_num) (by simpa using Real.abs_cos_le_one x))]
    · simpa using rnd_abs_err (x := Real.cos x) (n := 0) (by simpa using Real.abs_cos_le_one x) (by norm_num)
  sin a x ha _ := by
    refine ⟨rnd (Real.sin x), ?_, ?_⟩
    · show val (round (CFloat.sin a.1)) = _
      rw [val_iff.1 ha, XR.sin_fin, round_fin (small_le (n := 0) (by norm_num) (by simpa using Real.abs_sin_le_one x))]
    · simpa using rnd_abs_err (x := Real.sin x) (n := 0) (by simpa using Real.abs_sin_le_one x) (by norm_num)

end B64

namespace XR

theorem elem : RoundedElem rounded 0 Real.pi where
  eps_nonneg := le_rfl
  inj a b x ha hb _ := (val_iff.1 ha).trans (val_iff.1 hb).symm
  half _ _ _ := rfl
  subNat _ _ _ _ _ := rfl
  gap x y _ _ _ h := by linarith
  quot x y _ _ h0 h := by
    show x / y < 1
    have hpos : 0 < y := lt_of_lt_of_le (zpow_pos (by norm_num) _) h0
    rwa [div_lt_one hpos]
  eq a b x y ha hb := by
    rw [val_iff.1 ha, val_iff.1 hb, XR.eq_fin, decide_eq_true_eq]
  pi := rfl
  pi_err := by simp
  cosh a x ha _ := by rw [val_iff.1 ha]; exact ⟨_, rfl, by simp⟩
  sinh a x ha _ := by rw [val_iff.1 ha]; exact ⟨_, rfl, by simp⟩
  acosh a x ha h _ := by rw [val_iff.1 ha, XR.acosh_fin _ h]; exact ⟨_, rfl, by simp⟩
  exp a x ha _ := by rw [val_iff.1 ha]; exact ⟨_, rfl, by simp⟩
  cos a x ha _ := by rw [val_iff.1 ha]; exact ⟨_, rfl, by simp⟩
  sin a x ha _ := by rw [val_iff.1 ha]; exact ⟨_, rfl, by simp⟩

end XR
end Girgs
