import Verif.Base.B64
import Verif.Spec.Rounding
/-
binary64 satisfies the assumptions of `Spec.Rounded`, and so does exact arithmetic.
-/
namespace Girgs
namespace B64
open Spec
noncomputable section

/-- the value of a finite double -/
def val (a : B64) : Option ℝ :=
  match a.1 with
  | .fin x => some x
  | _ => none

theorem val_iff {a : B64} {x : ℝ} : val a = some x ↔ a.1 = XR.fin x := by
  unfold val
  cases a.1 <;> simp

theorem val_double {a : B64} {x : ℝ} (h : val a = some x) : IsDouble x := a.2 x (val_iff.1 h)

theorem rnd_two_zpow {k : ℤ} (h : -1074 ≤ k) : rnd (2 ^ k) = 2 ^ k := by
  have := rnd_rep (N := 1) (k := k) (by norm_num) h
  simpa using this

theorem abs_rnd_le {x : ℝ} {k : ℤ} (hk : -1074 ≤ k) (h : |x| ≤ 2 ^ k) : |rnd x| ≤ 2 ^ k := by
  obtain ⟨h1, h2⟩ := abs_le.1 h
  have e := rnd_two_zpow hk
  rw [abs_le]
  constructor
  · have := rnd_mono h1
    rwa [rnd_neg, e] at this
  · have := rnd_mono h2
    rwa [e] at this

theorem round_fin {x : ℝ} (h : |x| ≤ 2 ^ 1023) : val (round (XR.fin x)) = some (rnd x) := by
  have h1 : |rnd x| ≤ 2 ^ (1023 : ℤ) := abs_rnd_le (by norm_num) (by exact_mod_cast h)
  have h2 : |rnd x| < 2 ^ 1024 := lt_of_le_of_lt h1 (by exact_mod_cast pow_lt_pow_right₀ (by norm_num : (1 : ℝ) < 2) (by norm_num : 1023 < 1024))
  rw [val_iff]
  simp only [round, h2, dite_true]

theorem round_double {x : ℝ} (h : IsDouble x) : val (round (XR.fin x)) = some x := by
  rw [val_iff]
  simp only [round, h.1, h.2, dite_true]

theorem rnd_int {z : ℤ} (h : |z| ≤ 2 ^ 53) : rnd z = z := by
  have := rnd_rep (N := z) (k := 0) h (by norm_num)
  simpa using this

theorem rnd_scale {x : ℝ} (h : rnd x = x) (k : ℕ) : rnd (x * 2 ^ k) = x * 2 ^ k := by
  have e : x * 2 ^ k = nearest (x / 2 ^ lastPlace x) * 2 ^ (lastPlace x + k) := by
    conv_lhs => rw [← h]
    unfold rnd
    rw [zpow_add₀ (by norm_num), zpow_natCast, mul_assoc]
  rw [e]
  exact rnd_rep (nearest_abs_le x) (by have := lastPlace_ge x; omega)

theorem isDouble_abs {x : ℝ} (h : IsDouble x) : IsDouble |x| := by
  refine ⟨?_, by rw [abs_abs]; exact h.2⟩
  rcases abs_choice x with e | e
  · rw [e]; exact h.1
  · rw [e, rnd_neg, h.1]

theorem logb_bounds {x : ℝ} (h1 : (2 : ℝ) ^ (-1022 : ℤ) ≤ x) (h2 : x < 2 ^ 1024) : |Real.logb 2 x| ≤ 1024 := by
  have hx : 0 < x := lt_of_lt_of_le (two_zpow_pos _) h1
  rw [abs_le]
  constructor
  · rw [Real.le_logb_iff_rpow_le (by norm_num) hx]
    refine le_trans ?_ h1
    rw [← Real.rpow_intCast]
    exact Real.rpow_le_rpow_of_exponent_le (by norm_num) (by norm_num)
  · rw [Real.logb_le_iff_le_rpow (by norm_num) hx]
    have e : (2 : ℝ) ^ (1024 : ℝ) = 2 ^ 1024 := by
      rw [show (1024 : ℝ) = ((1024 : ℕ) : ℝ) by norm_num, Real.rpow_natCast]
    rw [e]; exact h2.le

theorem small_le {x : ℝ} {n : ℕ} (hn : n ≤ 1023) (h : |x| ≤ 2 ^ n) : |x| ≤ 2 ^ 1023 :=
  le_trans h (pow_le_pow_right₀ (by norm_num) hn)

theorem rnd_abs_err {x : ℝ} {n : ℕ} (h : |x| ≤ 2 ^ n) (hn : n ≤ 1000) : |rnd x - x| ≤ 2 ^ (-53 : ℤ) * 2 ^ n := by
  by_cases hx : (2 : ℝ) ^ (-1022 : ℤ) ≤ |x|
  · exact le_trans (rnd_rel hx) (mul_le_mul_of_nonneg_left h (two_zpow_pos _).le)
  · have b : (1 : ℝ) ≤ 2 ^ n := one_le_pow₀ (by norm_num)
    have c := two_zpow_pos (-53)
    rcases eq_or_ne x 0 with rfl | h0
    · have : rnd 0 = 0 := by simp [rnd, nearest]
      rw [this, sub_zero, abs_zero]; positivity
    refine le_trans (rnd_err x) ?_
    have hl : lastPlace x = -1074 := by
      unfold lastPlace
      have : Int.log 2 |x| < -1022 := by
        rw [← Int.lt_zpow_iff_log_lt (by norm_num) (abs_pos.2 h0)]
        exact_mod_cast not_le.1 hx
      omega
    rw [hl]
    have a : (2 : ℝ) ^ (-1074 : ℤ) ≤ 2 ^ (-53 : ℤ) := zpow_le_zpow_right₀ (by norm_num) (by norm_num)
    have d := two_zpow_pos (-1074)
    have e := mul_le_mul_of_nonneg_left b c.le
    generalize (2 : ℝ) ^ (-1074 : ℤ) = s at *
    generalize (2 : ℝ) ^ (-53 : ℤ) = t at *
    linarith

theorem log2_val {a : B64} {x : ℝ} (ha : val a = some x) (hx : 0 < x) :
    ∃ y, val (CFloat.log2 a) = some y ∧ y = rnd (Real.logb 2 x) := by
  refine ⟨_, ?_, rfl⟩
  have hd := val_double ha
  have hlow : (2 : ℝ) ^ (-1074 : ℤ) ≤ x := by
    have h1 := hd.1
    by_contra hc
    have h0 : |x| < 2 ^ (-1074 : ℤ) := by rw [abs_of_pos hx]; exact not_le.1 hc
    unfold rnd at h1
    have hl : lastPlace x = -1074 := by
      unfold lastPlace
      have : Int.log 2 |x| < -1074 := by
        rw [← Int.lt_zpow_iff_log_lt (by norm_num) (abs_pos.2 hx.ne')]
        exact_mod_cast h0
      omega
    rw [hl] at h1
    rw [abs_of_pos hx] at h0
    have h2 : (0 : ℝ) < nearest (x / 2 ^ (-1074 : ℤ)) := by
      by_contra hn
      have := mul_nonpos_of_nonpos_of_nonneg (not_lt.1 hn) (two_zpow_pos (-1074)).le
      linarith
    have h3 : (1 : ℝ) ≤ nearest (x / 2 ^ (-1074 : ℤ)) := by
      have : (0 : ℤ) < nearest (x / 2 ^ (-1074 : ℤ)) := by exact_mod_cast h2
      exact_mod_cast this
    have := mul_le_mul_of_nonneg_right h3 (two_zpow_pos (-1074)).le
    linarith
  have hup : x < 2 ^ 1024 := lt_of_le_of_lt (le_abs_self x) hd.2
  show val (round (CFloat.log2 a.1)) = _
  rw [val_iff.1 ha, XR.log2_fin x hx]
  refine round_fin (small_le (n := 11) (by norm_num) ?_)
  rw [abs_le]
  constructor
  · rw [Real.le_logb_iff_rpow_le (by norm_num) hx]
    refine le_trans ?_ hlow
    rw [← Real.rpow_intCast]
    exact Real.rpow_le_rpow_of_exponent_le (by norm_num) (by norm_num)
  · rw [Real.logb_le_iff_le_rpow (by norm_num) hx]
    have e : (2 : ℝ) ^ (1024 : ℝ) = 2 ^ 1024 := by
      rw [show (1024 : ℝ) = ((1024 : ℕ) : ℝ) by norm_num, Real.rpow_natCast]
    refine le_trans hup.le ?_
    rw [← e]
    exact Real.rpow_le_rpow_of_exponent_le (by norm_num) (by norm_num)

/-- IEEE binary64 with correctly rounded operations satisfies the assumptions: relative error 2^-53, and error at most 2^-43
of the logarithm -/
def rounded : Rounded B64 (2 ^ (-53 : ℤ)) (2 ^ (-43 : ℤ)) where
  val := val
  rnd := rnd
  u_nonneg := (two_zpow_pos _).le
  lam_nonneg := (two_zpow_pos _).le
  mono := rnd_mono
  odd := rnd_neg
  int z h := rnd_int h
  pow2 k h _ := rnd_two_zpow (by omega)
  rel x h := rnd_rel h
  unit x h := by simpa using rnd_abs_err (n := 0) (by simpa using h) (by norm_num)
  rep a x h := (val_double h).1
  scale x h k := rnd_scale h k
  ofRat q h := round_fin h
  add a b x y ha hb h := by
    show val (round (a.1 +. b.1)) = _
    rw [val_iff.1 ha, val_iff.1 hb, XR.add_fin]; exact round_fin h
  sub a b x y ha hb h := by
    show val (round (a.1 -. b.1)) = _
    rw [val_iff.1 ha, val_iff.1 hb, XR.sub_fin]; exact round_fin h
  mul a b x y ha hb h := by
    show val (round (a.1 *. b.1)) = _
    rw [val_iff.1 ha, val_iff.1 hb, XR.mul_fin]; exact round_fin h
  div a b x y ha hb hy h := by
    show val (round (a.1 /. b.1)) = _
    rw [val_iff.1 ha, val_iff.1 hb, XR.div_fin _ _ hy]; exact round_fin h
  abs a x ha := by
    show val (round (CFloat.abs a.1)) = _
    rw [val_iff.1 ha, XR.abs_fin]; exact round_double (isDouble_abs (val_double ha))
  lt a b x y ha hb := by
    show (a.1 <. b.1) = true ↔ _
    rw [val_iff.1 ha, val_iff.1 hb, XR.lt_fin, decide_eq_true_eq]
  floor a x ha h := by
    show val (round (CFloat.floor a.1)) = _
    have hz : |⌊x⌋| ≤ 2 ^ 53 := by
      obtain ⟨h1, h2⟩ := abs_le.1 h
      rw [abs_le]
      constructor
      · rw [Int.le_floor]; push_cast; norm_num at h1 ⊢; linarith
      · have : ⌊x⌋ < 2 ^ 53 := by rw [Int.floor_lt]; push_cast; norm_num at h2 ⊢; linarith
        exact this.le
    rw [val_iff.1 ha, XR.floor_fin, round_fin, rnd_int hz]
    refine small_le (n := 53) (by norm_num) ?_
    have : ((|⌊x⌋| : ℤ) : ℝ) ≤ ((2 ^ 53 : ℤ) : ℝ) := Int.cast_le.2 hz
    norm_num at this ⊢; exact this
  ceil a x ha h := by
    show val (round (CFloat.ceil a.1)) = _
    have hz : |⌈x⌉| ≤ 2 ^ 53 := by
      obtain ⟨h1, h2⟩ := abs_le.1 h
      rw [abs_le]
      constructor
      · have : -2 ^ 53 < ⌈x⌉ := by rw [Int.lt_ceil]; push_cast; norm_num at h1 ⊢; linarith
        exact this.le
      · rw [Int.ceil_le]; push_cast; norm_num at h2 ⊢; linarith
    rw [val_iff.1 ha, XR.ceil_fin, round_fin, rnd_int hz]
    refine small_le (n := 53) (by norm_num) ?_
    have : ((|⌈x⌉| : ℤ) : ℝ) ≤ ((2 ^ 53 : ℤ) : ℝ) := Int.cast_le.2 hz
    norm_num at this ⊢; exact this
  trunc a x ha := by
    show CFloat.trunc a.1 = _
    rw [val_iff.1 ha]; rfl
  log2 a x ha hx := by
    have hx0 : 0 < x := lt_of_lt_of_le (two_zpow_pos _) hx
    obtain ⟨y, h1, rfl⟩ := log2_val ha hx0
    refine ⟨_, h1, ?_⟩
    have hb := logb_bounds hx (lt_of_le_of_lt (le_abs_self x) (val_double ha).2)
    have := rnd_abs_err (n := 10) (by norm_num at hb ⊢; exact hb) (by norm_num)
    refine le_trans this (le_of_eq ?_)
    norm_num
  log2_pow a k ha := by
    obtain ⟨y, h1, rfl⟩ := log2_val ha (two_zpow_pos k)
    rw [h1]
    have e : Real.logb 2 ((2 : ℝ) ^ k) = k := by
      rw [← Real.rpow_intCast, Real.logb_rpow (by norm_num) (by norm_num)]
    have hd := val_double ha
    have hk : |k| ≤ 2 ^ 53 := by
      have h2 := hd.2
      rw [abs_of_pos (two_zpow_pos k)] at h2
      have h3 : k < 1024 := by
        rw [← zpow_lt_zpow_iff_right₀ (by norm_num : (1 : ℝ) < 2)]; exact_mod_cast h2
      have h4 : -1075 ≤ k := by
        by_contra hc
        have hr := hd.1
        unfold rnd at hr
        have hl : lastPlace ((2 : ℝ) ^ k) = -1074 := by
          unfold lastPlace
          have hlog : Int.log 2 ((2 : ℝ) ^ k) = k := by
            have := Int.log_zpow (R := ℝ) (b := 2) (by norm_num) k
            exact_mod_cast this
          rw [abs_of_pos (two_zpow_pos k), hlog]; omega
        rw [hl] at hr
        have hz : nearest ((2 : ℝ) ^ k / 2 ^ (-1074 : ℤ)) = 0 := by
          have e2 : (2 : ℝ) ^ k / 2 ^ (-1074 : ℤ) = 2 ^ (k + 1074) := by
            rw [← zpow_sub₀ (by norm_num)]; congr 1
          have hp := two_zpow_pos (k + 1074)
          have hle : (2 : ℝ) ^ (k + 1074) ≤ 2 ^ (-2 : ℤ) := zpow_le_zpow_right₀ (by norm_num) (by omega)
          norm_num at hle
          have hf : ⌊(2 : ℝ) ^ (k + 1074)⌋ = 0 := by rw [Int.floor_eq_zero_iff]; exact ⟨hp.le, by linarith⟩
          rw [e2]
          unfold nearest
          rw [hf, if_pos (by push_cast; linarith)]
        rw [hz] at hr
        have := two_zpow_pos k
        simp at hr
        linarith
      rw [abs_le]; constructor <;> omega
    rw [e, rnd_int hk]
  log2_mono a b x y p q ha hb hx hxy hp hq := by
    obtain ⟨p', h1, rfl⟩ := log2_val ha hx
    obtain ⟨q', h2, rfl⟩ := log2_val hb (lt_of_lt_of_le hx hxy)
    rw [hp, Option.some.injEq] at h1
    rw [hq, Option.some.injEq] at h2
    subst h1 h2
    exact rnd_mono (Real.logb_le_logb_of_le (by norm_num) hx hxy)
  eq_inf := rfl

end
end B64

namespace XR
open Spec
noncomputable section

/-- the value of a finite number -/
def val : XR → Option ℝ
  | .fin x => some x
  | _ => none

theorem val_iff {a : XR} {x : ℝ} : val a = some x ↔ a = XR.fin x := by
  cases a <;> simp [val]

/-- exact arithmetic satisfies the assumptions with errors 0 -/
def rounded : Rounded XR 0 0 where
  val := val
  rnd := id
  u_nonneg := le_rfl
  lam_nonneg := le_rfl
  mono := monotone_id
  odd _ := rfl
  int _ _ := rfl
  pow2 _ _ _ := rfl
  rel _ _ := by simp
  unit _ _ := by simp
  rep _ _ _ := rfl
  scale _ _ _ := rfl
  ofRat _ _ := rfl
  add a b x y ha hb _ := by rw [val_iff] at *; rw [ha, hb]; rfl
  sub a b x y ha hb _ := by rw [val_iff] at *; rw [ha, hb, XR.sub_fin]; rfl
  mul a b x y ha hb _ := by rw [val_iff] at *; rw [ha, hb]; rfl
  div a b x y ha hb hy _ := by rw [val_iff] at *; rw [ha, hb, XR.div_fin _ _ hy]; rfl
  abs a x ha := by rw [val_iff] at *; rw [ha]; rfl
  lt a b x y ha hb := by rw [val_iff] at *; rw [ha, hb, XR.lt_fin, decide_eq_true_eq]
  floor a x ha _ := by rw [val_iff] at *; rw [ha]; rfl
  ceil a x ha _ := by rw [val_iff] at *; rw [ha]; rfl
  trunc a x ha := by rw [val_iff] at *; rw [ha]; rfl
  log2 a x ha hx := by
    rw [val_iff] at *
    have hx0 : 0 < x := lt_of_lt_of_le (zpow_pos (by norm_num) _) hx
    rw [ha, XR.log2_fin x hx0]
    exact ⟨_, rfl, by simp⟩
  log2_pow a k ha := by
    rw [val_iff] at *
    rw [ha, XR.log2_fin _ (zpow_pos (by norm_num) _), ← Real.rpow_intCast, Real.logb_rpow (by norm_num) (by norm_num)]
  log2_mono a b x y p q ha hb hx hxy hp hq := by
    rw [val_iff] at *
    rw [ha, XR.log2_fin x hx, XR.fin.injEq] at hp
    rw [hb, XR.log2_fin y (lt_of_lt_of_le hx hxy), XR.fin.injEq] at hq
    subst hp hq
    exact Real.logb_le_logb_of_le (by norm_num) hx hxy
  eq_inf := rfl

end
end XR
end Girgs
