import Verif.Base.XR
import Mathlib.Data.Int.Log
import Mathlib.Tactic.Linarith
import Mathlib.Tactic.Ring
import Mathlib.Tactic.FieldSimp
/-
IEEE 754 binary64: the `CFloat` instance with rounding to nearest, ties to even.  Every operation returns the rounded exact
result (of `Verif/Base/XR.lean`); the functions of the C library are taken to be correctly rounded, and there is one
(unsigned) zero.
-/
namespace Girgs

namespace B64
open Classical
noncomputable section

/-- round to the nearest integer, ties to even -/
def nearest (y : ℝ) : ℤ :=
  if y - ⌊y⌋ < 1 / 2 then ⌊y⌋
  else if 1 / 2 < y - ⌊y⌋ then ⌊y⌋ + 1
  else if Even ⌊y⌋ then ⌊y⌋ else ⌊y⌋ + 1

/-- exponent of the last place of a number: 53 significant bits, but not below `2^-1074` -/
def lastPlace (x : ℝ) : ℤ := max (Int.log 2 |x| - 52) (-1074)

/-- rounding to 53 significant bits -/
def rnd (x : ℝ) : ℝ := nearest (x / 2 ^ lastPlace x) * 2 ^ lastPlace x

/-- the finite values of type `double` -/
def IsDouble (x : ℝ) : Prop := rnd x = x ∧ |x| < 2 ^ 1024

theorem nearest_int (z : ℤ) : nearest z = z := by
  unfold nearest
  rw [Int.floor_intCast, sub_self, if_pos (by norm_num)]

theorem nearest_err (y : ℝ) : |(nearest y : ℝ) - y| ≤ 1 / 2 := by
  have h1 := Int.floor_le y
  have h2 := Int.lt_floor_add_one y
  unfold nearest
  rw [abs_le]
  split
  · constructor <;> linarith
  · split
    · push_cast; constructor <;> linarith
    · split
      · constructor <;> linarith
      · push_cast; constructor <;> linarith

theorem nearest_mono {x y : ℝ} (h : x ≤ y) : nearest x ≤ nearest y := by
  by_contra hc
  have hc' : nearest y + 1 ≤ nearest x := by omega
  have ex := abs_le.1 (nearest_err x)
  have ey := abs_le.1 (nearest_err y)
  have hr : (nearest y : ℝ) + 1 ≤ nearest x := by exact_mod_cast hc'
  have : x = y := by linarith [ex.1, ex.2, ey.1, ey.2]
  rw [this] at hc
  exact hc le_rfl

theorem nearest_le {y : ℝ} {z : ℤ} (h : y ≤ z) : nearest y ≤ z := by
  have := nearest_mono h
  rwa [nearest_int] at this

theorem le_nearest {y : ℝ} {z : ℤ} (h : (z : ℝ) ≤ y) : z ≤ nearest y := by
  have := nearest_mono h
  rwa [nearest_int] at this

theorem nearest_neg (y : ℝ) : nearest (-y) = -nearest y := by
  by_cases hy : (⌊y⌋ : ℝ) = y
  · rw [← hy, ← Int.cast_neg, nearest_int, nearest_int]
  · have h1 := lt_of_le_of_ne (Int.floor_le y) hy
    have h2 := Int.lt_floor_add_one y
    have hf : ⌊-y⌋ = -⌊y⌋ - 1 := by
      rw [Int.floor_eq_iff]
      push_cast
      constructor <;> linarith
    unfold nearest
    rw [hf]
    push_cast
    rcases lt_trichotomy (y - ⌊y⌋) (1 / 2) with h | h | h
    · rw [if_neg (by linarith), if_pos (by linarith), if_pos h]; ring
    · have e1 : Even (-⌊y⌋ - 1) ↔ ¬ Even ⌊y⌋ := by rw [Int.even_sub_one, even_neg]
      simp only [show ¬ (-y - (-(⌊y⌋ : ℝ) - 1) < 1 / 2) by linarith, show ¬ (1 / 2 < -y - (-(⌊y⌋ : ℝ) - 1)) by linarith,
        show ¬ (y - (⌊y⌋ : ℝ) < 1 / 2) by linarith, show ¬ (1 / 2 < y - (⌊y⌋ : ℝ)) by linarith, if_false, e1]
      by_cases he : Even ⌊y⌋
      · simp only [he, not_true, if_false, if_true]; ring
      · simp only [he, not_false_eq_true, if_false, if_true]; ring
    · rw [if_pos (by linarith), if_neg (by linarith), if_pos h]; ring

theorem lastPlace_neg (x : ℝ) : lastPlace (-x) = lastPlace x := by unfold lastPlace; rw [abs_neg]

theorem rnd_neg (x : ℝ) : rnd (-x) = -rnd x := by
  unfold rnd
  rw [lastPlace_neg, neg_div, nearest_neg]
  push_cast; ring

theorem two_zpow_pos (k : ℤ) : (0 : ℝ) < 2 ^ k := zpow_pos (by norm_num) k

theorem lastPlace_ge (x : ℝ) : -1074 ≤ lastPlace x := le_max_right _ _

/-- a number has at most 53 bits before its last place -/
theorem abs_lt_lastPlace (x : ℝ) : |x| < 2 ^ (lastPlace x + 53) := by
  rcases eq_or_ne x 0 with rfl | hx
  · simp only [abs_zero]; exact two_zpow_pos _
  · have h := Int.lt_zpow_succ_log_self (b := 2) (by norm_num) |x|
    refine lt_of_lt_of_le (by exact_mod_cast h) (zpow_le_zpow_right₀ (by norm_num) ?_)
    have := le_max_left (Int.log 2 |x| - 52) (-1074)
    unfold lastPlace; omega

/-- numbers with at most 53 bits are kept -/
theorem rnd_rep {N k : ℤ} (hN : |N| ≤ 2 ^ 53) (hk : -1074 ≤ k) : rnd (N * 2 ^ k) = N * 2 ^ k := by
  rcases eq_or_ne N 0 with rfl | hN0
  · simp [rnd, nearest]
  have hp := two_zpow_pos k
  have hpos : 0 < |(N : ℝ) * 2 ^ k| := by
    rw [abs_pos]; exact mul_ne_zero (by exact_mod_cast hN0) hp.ne'
  -- it suffices that the number is a multiple of its last place
  suffices h : ∃ M : ℤ, (N : ℝ) * 2 ^ k = M * 2 ^ lastPlace (N * 2 ^ k) by
    obtain ⟨M, hM⟩ := h
    have hq := two_zpow_pos (lastPlace ((N : ℝ) * 2 ^ k))
    unfold rnd
    have e : (N : ℝ) * 2 ^ k / 2 ^ lastPlace (N * 2 ^ k) = M := by
      rw [div_eq_iff hq.ne']; exact hM
    rw [e, nearest_int]; exact hM.symm
  have habs : |(N : ℝ) * 2 ^ k| = ((|N| : ℤ) : ℝ) * 2 ^ k := by
    rw [abs_mul, abs_of_pos hp]; push_cast; rfl
  by_cases hlt : |N| < 2 ^ 53
  · have hle : lastPlace (N * 2 ^ k) ≤ k := by
      unfold lastPlace
      refine max_le ?_ hk
      have : Int.log 2 |(N : ℝ) * 2 ^ k| < k + 53 := by
        rw [← Int.lt_zpow_iff_log_lt (by norm_num) hpos, habs, zpow_add₀ (by norm_num), mul_comm]
        push_cast
        refine mul_lt_mul_of_pos_left ?_ hp
        have : ((|N| : ℤ) : ℝ) < ((2 ^ 53 : ℤ) : ℝ) := Int.cast_lt.2 hlt
        push_cast at this
        refine lt_of_lt_of_eq this ?_
        norm_cast
      omega
    obtain ⟨j, hj⟩ := Int.eq_ofNat_of_zero_le (sub_nonneg.2 hle)
    refine ⟨N * 2 ^ j, ?_⟩
    have : k = j + lastPlace (N * 2 ^ k) := by omega
    conv_lhs => rw [this, zpow_add₀ (by norm_num)]
    push_cast
    rw [zpow_natCast]; ring
  · have he : |N| = 2 ^ 53 := by omega
    have hval : |(N : ℝ) * 2 ^ k| = 2 ^ (k + 53) := by
      rw [habs, he, zpow_add₀ (by norm_num), mul_comm]; push_cast; norm_cast
    have hl : lastPlace (N * 2 ^ k) = k + 1 := by
      unfold lastPlace
      have hlog : Int.log 2 ((2 : ℝ) ^ (k + 53)) = k + 53 := by
        have := Int.log_zpow (R := ℝ) (b := 2) (by norm_num) (k + 53)
        exact_mod_cast this
      rw [hval, hlog, max_eq_left (by omega)]; ring
    rw [hl]
    refine ⟨N / 2, ?_⟩
    have hd : (2 : ℤ) ∣ N := by
      rcases abs_choice N with h | h
      · rw [h] at he; rw [he]; exact dvd_pow_self 2 (by norm_num)
      · rw [h] at he; rw [← dvd_neg, he]; exact dvd_pow_self 2 (by norm_num)
    obtain ⟨M, rfl⟩ := hd
    rw [Int.mul_ediv_cancel_left _ (by norm_num), zpow_add₀ (by norm_num)]
    push_cast; ring

theorem nearest_abs_le (x : ℝ) : |nearest (x / 2 ^ lastPlace x)| ≤ 2 ^ 53 := by
  have hq := two_zpow_pos (lastPlace x)
  have h := abs_lt_lastPlace x
  have h' : |x / 2 ^ lastPlace x| < ((2 ^ 53 : ℤ) : ℝ) := by
    rw [abs_div, abs_of_pos hq, div_lt_iff₀ hq]
    rw [zpow_add₀ (by norm_num), mul_comm] at h
    push_cast; exact_mod_cast h
  obtain ⟨h1, h2⟩ := abs_lt.1 h'
  rw [abs_le]
  exact ⟨le_nearest (by push_cast at h1 ⊢; exact h1.le), nearest_le h2.le⟩

theorem rnd_rnd (x : ℝ) : rnd (rnd x) = rnd x := rnd_rep (nearest_abs_le x) (lastPlace_ge x)

theorem rnd_nonneg {x : ℝ} (h : 0 ≤ x) : 0 ≤ rnd x := by
  unfold rnd
  have hq := two_zpow_pos (lastPlace x)
  have : (0 : ℤ) ≤ nearest (x / 2 ^ lastPlace x) := le_nearest (by push_cast; positivity)
  have : (0 : ℝ) ≤ nearest (x / 2 ^ lastPlace x) := by exact_mod_cast this
  positivity

theorem rnd_mono_nonneg {x y : ℝ} (hx : 0 ≤ x) (h : x ≤ y) : rnd x ≤ rnd y := by
  rcases hx.eq_or_lt with rfl | hx
  · have : rnd 0 = 0 := by simp [rnd, nearest]
    rw [this]; exact rnd_nonneg h
  have hy : 0 < y := lt_of_lt_of_le hx h
  have hlog : Int.log 2 |x| ≤ Int.log 2 |y| := by
    rw [abs_of_pos hx, abs_of_pos hy]; exact Int.log_mono_right hx h
  have hqx := two_zpow_pos (lastPlace x)
  have hqy := two_zpow_pos (lastPlace y)
  have hle : lastPlace x ≤ lastPlace y := max_le_max (by omega) le_rfl
  rcases hle.eq_or_lt with he | hlt
  · unfold rnd
    rw [he]
    have := nearest_mono (div_le_div_of_nonneg_right h hqy.le)
    have : (nearest (x / 2 ^ lastPlace y) : ℝ) ≤ nearest (y / 2 ^ lastPlace y) := by exact_mod_cast this
    exact mul_le_mul_of_nonneg_right this hqy.le
  · have hly : lastPlace y = Int.log 2 y - 52 := by
      have h1 := lastPlace_ge x
      unfold lastPlace at hlt h1 ⊢
      rw [abs_of_pos hy] at hlt ⊢
      omega
    have hlx : Int.log 2 x < Int.log 2 y := by
      have h1 : Int.log 2 |x| - 52 ≤ lastPlace x := le_max_left _ _
      rw [abs_of_pos hx] at h1
      omega
    have hk : lastPlace x < Int.log 2 y - 52 := by omega
    have a1 : x ≤ 2 ^ Int.log 2 y := by
      have := Int.lt_zpow_succ_log_self (b := 2) (by norm_num) x
      refine le_trans (by exact_mod_cast this.le) (zpow_le_zpow_right₀ (by norm_num) (by omega))
    have a2 : (2 : ℝ) ^ Int.log 2 y ≤ y := by
      have := Int.zpow_log_le_self (b := 2) (by norm_num) hy
      exact_mod_cast this
    refine le_trans (b := (2 : ℝ) ^ Int.log 2 y) ?_ ?_
    · obtain ⟨j, hj⟩ := Int.eq_ofNat_of_zero_le (show 0 ≤ Int.log 2 y - lastPlace x by omega)
      have e : (2 : ℝ) ^ Int.log 2 y = ((2 ^ j : ℤ) : ℝ) * 2 ^ lastPlace x := by
        rw [show Int.log 2 y = j + lastPlace x by omega, zpow_add₀ (by norm_num), zpow_natCast]; push_cast; rfl
      rw [e] at a1 ⊢
      unfold rnd
      have : nearest (x / 2 ^ lastPlace x) ≤ 2 ^ j := nearest_le (by rw [div_le_iff₀ hqx]; exact a1)
      exact mul_le_mul_of_nonneg_right (by exact_mod_cast this) hqx.le
    · have e : (2 : ℝ) ^ Int.log 2 y = ((2 ^ 52 : ℤ) : ℝ) * 2 ^ lastPlace y := by
        rw [show Int.log 2 y = 52 + lastPlace y by omega, zpow_add₀ (by norm_num)]; push_cast; norm_cast
      rw [e] at a2 ⊢
      unfold rnd
      have : 2 ^ 52 ≤ nearest (y / 2 ^ lastPlace y) := le_nearest (by rw [le_div_iff₀ hqy]; exact a2)
      exact mul_le_mul_of_nonneg_right (by exact_mod_cast this) hqy.le

theorem rnd_mono : Monotone rnd := by
  intro x y h
  rcases le_total 0 x with hx | hx
  · exact rnd_mono_nonneg hx h
  · rcases le_total 0 y with hy | hy
    · have := rnd_nonneg (show 0 ≤ -x by linarith)
      rw [rnd_neg] at this
      exact le_trans (by linarith) (rnd_nonneg hy)
    · have := rnd_mono_nonneg (show 0 ≤ -y by linarith) (show -y ≤ -x by linarith)
      rw [rnd_neg, rnd_neg] at this
      linarith

theorem rnd_err (x : ℝ) : |rnd x - x| ≤ 2 ^ (lastPlace x) / 2 := by
  have hq := two_zpow_pos (lastPlace x)
  have h := nearest_err (x / 2 ^ lastPlace x)
  have e : rnd x - x = (nearest (x / 2 ^ lastPlace x) - x / 2 ^ lastPlace x) * 2 ^ lastPlace x := by
    unfold rnd; rw [sub_mul, div_mul_cancel₀ _ hq.ne']
  rw [e, abs_mul, abs_of_pos hq]
  have := mul_le_mul_of_nonneg_right h hq.le
  linarith

theorem rnd_rel {x : ℝ} (h : (2 : ℝ) ^ (-1022 : ℤ) ≤ |x|) : |rnd x - x| ≤ 2 ^ (-53 : ℤ) * |x| := by
  have hpos : 0 < |x| := lt_of_lt_of_le (two_zpow_pos _) h
  have hl : -1022 ≤ Int.log 2 |x| := by
    rw [← Int.zpow_le_iff_le_log (by norm_num) hpos]; exact_mod_cast h
  refine le_trans (rnd_err x) ?_
  have e : lastPlace x = Int.log 2 |x| + (-52) := by unfold lastPlace; omega
  have a2 : (2 : ℝ) ^ Int.log 2 |x| ≤ |x| := by
    have := Int.zpow_log_le_self (b := 2) (by norm_num) hpos
    exact_mod_cast this
  rw [e, zpow_add₀ (by norm_num)]
  have e2 : (2 : ℝ) ^ (-53 : ℤ) = 2 ^ (-52 : ℤ) / 2 := by
    rw [show (-53 : ℤ) = -52 - 1 by norm_num, zpow_sub_one₀ (by norm_num)]; ring
  rw [e2]
  have := mul_le_mul_of_nonneg_right a2 (two_zpow_pos (-52)).le
  linarith

end
end B64

/-- `double`: the finite values, infinities and NaN -/
structure B64 where
  ext : XR
  isDouble : ∀ x, ext = XR.fin x → B64.IsDouble x

namespace B64
open Classical
noncomputable section

/-- round the result of an exact operation; too large numbers become infinite -/
def round : XR → B64
  | .fin x =>
    if h : |rnd x| < 2 ^ 1024 then ⟨.fin (rnd x), by rintro y ⟨⟩; exact ⟨rnd_rnd x, h⟩⟩
    else if 0 < x then ⟨.pinf, by rintro y ⟨⟩⟩ else ⟨.ninf, by rintro y ⟨⟩⟩
  | .pinf => ⟨.pinf, by rintro y ⟨⟩⟩
  | .ninf => ⟨.ninf, by rintro y ⟨⟩⟩
  | .nan => ⟨.nan, by rintro y ⟨⟩⟩

instance : CFloat B64 where
  ofRat q := round (XR.fin q)
  inf := round .pinf
  pi := round (XR.fin Real.pi)
  add a b := round (a.1 +. b.1)
  sub a b := round (a.1 -. b.1)
  mul a b := round (a.1 *. b.1)
  div a b := round (a.1 /. b.1)
  neg a := round (CFloat.neg a.1)
  abs a := round (CFloat.abs a.1)
  lt a b := a.1 <. b.1
  eq a b := CFloat.eq a.1 b.1
  floor a := round (CFloat.floor a.1)
  ceil a := round (CFloat.ceil a.1)
  log2 a := round (CFloat.log2 a.1)
  log a := round (CFloat.log a.1)
  exp a := round (CFloat.exp a.1)
  pow a b := round (CFloat.pow a.1 b.1)
  cosh a := round (CFloat.cosh a.1)
  sinh a := round (CFloat.sinh a.1)
  acosh a := round (CFloat.acosh a.1)
  cos a := round (CFloat.cos a.1)
  sin a := round (CFloat.sin a.1)
  sqrt a := round (CFloat.sqrt a.1)
  trunc a := CFloat.trunc a.1

end
end B64
end Girgs
