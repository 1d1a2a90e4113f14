import Verif.Spec.RoundedPow
import Verif.Proofs.B64Elem
/-
binary64 with a correctly rounded `pow` satisfies `Spec.RoundedPow`, and so does exact arithmetic.
-/
namespace Girgs
open Spec
namespace B64

theorem rnd_unit_half {x : ℝ} (h : |x| ≤ 1) : |rnd x - x| ≤ 2 ^ (-53 : ℤ) / 2 := by
  rcases h.eq_or_lt with e | e
  · have h1 : rnd 1 = 1 := by have := rnd_int (z := 1) (by norm_num); exact_mod_cast this
    have : rnd x = x := by
      rcases abs_choice x with c | c
      · rw [e] at c; rw [← c, h1]
      · rw [e] at c; rw [show x = -1 by linarith, rnd_neg, h1]
    rw [this, sub_self, abs_zero]
    positivity
  · rcases eq_or_ne x 0 with h0 | h0
    · have h1 : rnd 0 = 0 := by have := rnd_int (z := 0) (by norm_num); exact_mod_cast this
      rw [h0, h1, sub_self, abs_zero]
      positivity
    refine (rnd_err x).trans (div_le_div_of_nonneg_right (zpow_le_zpow_right₀ (by norm_num) ?_) (by norm_num))
    unfold lastPlace
    refine max_le ?_ (by norm_num)
    · have := (Int.lt_zpow_iff_log_lt (b := 2) (by norm_num) (abs_pos.2 h0) (x := 0)).1 (by simpa using e)
      omega

/-- correctly rounded powers -/
theorem power : RoundedPow rounded (2 ^ (-53 : ℤ)) where
  neg a x ha := by
    show val (round (CFloat.neg a.1)) = _
    rw [val_iff.1 ha, XR.neg_fin]
    have := val_double ha
    exact round_double ⟨by rw [rnd_neg, this.1], by rw [abs_neg]; exact this.2⟩
  unit_half _ h := rnd_unit_half h
  one a b y ha hb := by
    show val (round (CFloat.pow a.1 b.1)) = _
    rw [val_iff.1 ha, val_iff.1 hb, XR.pow_fin _ _ one_pos, Real.one_rpow]
    have h1 : rnd 1 = 1 := by have := rnd_int (z := 1) (by norm_num); exact_mod_cast this
    exact round_double ⟨h1, by rw [abs_one]; exact one_lt_pow₀ (by norm_num) (by norm_num)⟩
  pow a b x y ha hb h0 h1 h2 := by
    have hp : 0 < x ^ y := Real.rpow_pos_of_pos h0 y
    refine ⟨rnd (x ^ y), ?_, ?_⟩
    · show val (round (CFloat.pow a.1 b.1)) = _
      rw [val_iff.1 ha, val_iff.1 hb, XR.pow_fin _ _ h0]
      exact round_fin (small_le (n := 1000) (by norm_num) (by rw [abs_of_pos hp]; exact h2))
    · have := rnd_rel (x := x ^ y) (by
        rw [abs_of_pos hp]
        exact (zpow_le_zpow_right₀ (by norm_num) (by norm_num)).trans h1)
      rwa [abs_of_pos hp] at this

end B64

namespace XR

theorem power : RoundedPow rounded 0 where
  neg a x ha := by rw [val_iff.1 ha]; rfl
  unit_half x _ := by show |x - x| ≤ 0 / 2; simp
  one a b y ha hb := by rw [val_iff.1 ha, val_iff.1 hb, XR.pow_fin _ _ one_pos, Real.one_rpow]; rfl
  pow a b x y ha hb h0 _ _ := by rw [val_iff.1 ha, val_iff.1 hb, XR.pow_fin _ _ h0]; exact ⟨_, rfl, by simp⟩

end XR
end Girgs
