import Verif.Spec.RoundedEngine
import Verif.Proofs.B64Elem
import Verif.Proofs.RoundedSamplers
/-!
`std::uniform_real_distribution` of libstdc++ for type double.
-/
namespace Girgs
open Spec CFloat
namespace B64

theorem nearest_lt {y : ℝ} {N : ℤ} (h : y < N - 1 / 2) : nearest y < N := by
  have h1 := (abs_le.1 (nearest_err y)).2
  have : (nearest y : ℝ) < N := by linarith
  exact_mod_cast this

/-- the product with a number below 1 is rounded down -/
theorem rnd_mul_lt {U y : ℝ} (hU : U ≤ 1 - 1 / 2 ^ 53) (hy : rnd y = y) (h1 : 1 ≤ y) : rnd (U * y) < y := by
  have hlp := lastPlace_eq (y := y) (le_trans (zpow_le_one_of_nonpos₀ (by norm_num) (by norm_num)) h1)
  have hy0 : 0 < y := by linarith
  obtain ⟨N, hN, e⟩ := rnd_eq_mul hy
  set m := Int.log 2 y with hm
  have hm0 : 0 ≤ m := by
    have : ((2 : ℕ) : ℝ) ^ (0 : ℤ) ≤ y := by simpa using h1
    exact (Int.zpow_le_iff_le_log (by norm_num) hy0).1 this
  have l1 : (2 : ℝ) ^ m ≤ y := by
    have := Int.zpow_log_le_self (b := 2) (by norm_num) hy0
    exact_mod_cast this
  have hpm : (0 : ℝ) < 2 ^ m := two_zpow_pos m
  have hpk : (0 : ℝ) < 2 ^ (m - 52) := two_zpow_pos _
  have em : (2 : ℝ) ^ m = 2 ^ 52 * 2 ^ (m - 52) := by
    rw [← zpow_natCast, ← zpow_add₀ (by norm_num)]; congr 1; push_cast; ring
  have em3 : (2 : ℝ) ^ m = 2 ^ 53 * 2 ^ (m - 53) := by
    rw [← zpow_natCast, ← zpow_add₀ (by norm_num)]; congr 1; push_cast; ring
  rw [hlp] at e
  have hx : U * y ≤ y - y / 2 ^ 53 := by
    have := mul_le_mul_of_nonneg_right hU hy0.le
    refine this.trans (le_of_eq ?_)
    ring
  set x := U * y with hxd
  by_cases hb : x ≤ (2 ^ 53 - 1) * 2 ^ (m - 53)
  · -- below the binade
    have h2 := rnd_mono hb
    have h3 := rnd_rep (N := 2 ^ 53 - 1) (k := m - 53) (by norm_num) (by omega)
    rw [show ((2 ^ 53 - 1 : ℤ) : ℝ) = 2 ^ 53 - 1 by norm_num] at h3
    rw [h3] at h2
    refine lt_of_le_of_lt h2 (lt_of_lt_of_le ?_ l1)
    rw [em3]
    exact mul_lt_mul_of_pos_right (by norm_num) (two_zpow_pos _)
  · have hb' := not_le.1 hb
    -- not a power of two
    have hlt : (2 : ℝ) ^ m < y := by
      refine lt_of_le_of_ne l1 fun he => hb ?_
      refine hx.trans (le_of_eq ?_)
      rw [← he, em3]
      ring
    rcases lt_or_ge x (2 ^ m) with h2 | h2
    · have h3 := rnd_mono h2.le
      rw [rnd_two_zpow (by omega)] at h3
      exact lt_of_le_of_lt h3 hlt
    · have hx0 : 0 < x := by linarith
      have hxy : x < y := lt_of_le_of_lt hx (by have : 0 < y / 2 ^ 53 := by positivity
                                                linarith)
      have hlog : Int.log 2 x = m := by
        refine le_antisymm (Int.log_mono_right hx0 hxy.le) ?_
        rw [← Int.zpow_le_iff_le_log (by norm_num) hx0]
        exact_mod_cast h2
      have hl2 : lastPlace x = m - 52 := by
        rw [lastPlace_eq (le_trans (zpow_le_one_of_nonpos₀ (by norm_num) (by norm_num)) ((one_le_zpow₀ (by norm_num) hm0).trans h2)), hlog]
      unfold rnd
      rw [hl2, e]
      refine mul_lt_mul_of_pos_right ?_ hpk
      have hN2 : (2 : ℝ) ^ 52 < N := by
        rw [e, em] at hlt
        exact lt_of_mul_lt_mul_right hlt hpk.le
      have : x / 2 ^ (m - 52) < (N : ℝ) - 1 / 2 := by
        rw [div_lt_iff₀ hpk]
        refine lt_of_le_of_lt hx ?_
        have : (1 : ℝ) / 2 * 2 ^ (m - 52) < y / 2 ^ 53 := by
          rw [e, mul_div_right_comm]
          refine mul_lt_mul_of_pos_right ?_ hpk
          rw [lt_div_iff₀ (by positivity)]
          norm_num at hN2 ⊢
          linarith
        rw [sub_mul, ← e]
        linarith
      exact_mod_cast nearest_lt this


/-- A random engine with `std::uniform_real_distribution` as implemented in libstdc++: `canonical() * (b - a) + a`, where `canonical` returns doubles of
`[0,1)`. -/
noncomputable def libEngine (G : Type) (seed : ℤ → G) (next : G → G) (canonical : G → ℝ × G) : Engine B64 where
  G := G
  seed := seed
  next := next
  uniform a b g := (round (XR.fin (canonical g).1) *. (b -. a) +. a, (canonical g).2)

theorem libEngine_rounded {G : Type} {seed : ℤ → G} {next : G → G} {canonical : G → ℝ × G}
    (hd : ∀ g, IsDouble (canonical g).1) (h0 : ∀ g, 0 ≤ (canonical g).1) (h1 : ∀ g, (canonical g).1 < 1) :
    RoundedEngine rounded (libEngine G seed next canonical) := by
  refine ⟨fun a b x y g va vb hx hxy hy1 hy => ?_⟩
  have hU : (canonical g).1 ≤ 1 - 1 / 2 ^ 53 := by
    have := rnd_gap (hd g).1 (show rnd 1 = 1 by have := rnd_int (z := 1) (by norm_num); simpa using this)
      (zpow_le_one_of_nonpos₀ (by norm_num) (by norm_num)) (h1 g)
    refine this.trans (le_of_eq ?_)
    norm_num
  have hU0 := h0 g
  have hU1 := h1 g
  have vU := round_double (hd g)
  set U := (canonical g).1 with hUd
  have hrx := rounded.rep _ _ va
  have hry := rounded.rep _ _ vb
  have hyx : 0 < y - x := by linarith
  have hp : (2 : ℝ) ^ 990 * 2 ^ 10 = 2 ^ 1000 := by rw [← pow_add]
  have hp0 : (0 : ℝ) < 2 ^ 990 := by positivity
  have v1 := rounded.sub _ _ _ _ vb va (two_pow_1023 (k := 990) (by norm_num) (by rw [abs_of_pos hyx]; linarith))
  have d0 := rounded.rnd_nonneg hyx.le
  have d1 : rounded.rnd (y - x) ≤ y := by
    have := rounded.mono (show y - x ≤ y by linarith)
    rwa [hry] at this
  have dd := rounded.rep _ _ v1
  set d := rounded.rnd (y - x) with hdd
  have hUd0 : 0 ≤ U * d := mul_nonneg hU0 d0
  have hUd1 : U * d ≤ d := by nlinarith
  have v2 := rounded.mul _ _ _ _ vU v1 (two_pow_1023 (k := 990) (by norm_num) (by rw [abs_of_nonneg hUd0]; linarith))
  have c0 := rounded.rnd_nonneg hUd0
  have c1 : rounded.rnd (U * d) ≤ d := by
    have := rounded.mono hUd1
    rwa [dd] at this
  have cc := rounded.rep _ _ v2
  have v3 := rounded.add _ _ _ _ v2 va (two_pow_1023 (k := 1000) (by norm_num) (by
    rw [abs_of_nonneg (by linarith), ← hp]
    clear v1 v2 hp
    have h10 : (2 : ℝ) ^ 990 * 2 ≤ 2 ^ 990 * 2 ^ 10 := mul_le_mul_of_nonneg_left (by norm_num) hp0.le
    generalize (2 : ℝ) ^ 990 = P at *
    linarith))
  refine ⟨_, v3, ?_, ?_, ?_⟩
  · have := rounded.mono (show x ≤ rounded.rnd (U * d) + x by linarith)
    rwa [hrx] at this
  · have hu0 := rounded.u_nonneg
    have hu : (2 : ℝ) ^ (-53 : ℤ) ≤ 1 / 2 ^ 53 := by norm_num
    -- the difference, up to rounding
    have k1 : d ≤ (1 + (2 : ℝ) ^ (-53 : ℤ)) * (y - x) + tau := by
      have := (abs_le.1 (rounded.err_all (y - x))).2
      rw [abs_of_pos hyx] at this
      linarith
    have k2 : rounded.rnd (U * d) + x ≤ (1 + (2 : ℝ) ^ (-53 : ℤ)) * y + tau := by
      have : (2 : ℝ) ^ (-53 : ℤ) * (y - x) ≤ (2 : ℝ) ^ (-53 : ℤ) * y := mul_le_mul_of_nonneg_left (by linarith) hu0
      linarith
    have hτ : tau ≤ 1 / 2 ^ 100 := by
      unfold tau
      rw [one_div, ← zpow_natCast, ← zpow_neg]
      exact zpow_le_zpow_right₀ (by norm_num) (by norm_num)
    have hτ0 := tau_pos
    have k3 := (abs_le.1 (rounded.err_all (rounded.rnd (U * d) + x))).2
    rw [abs_of_nonneg (by linarith)] at k3
    generalize rounded.rnd (rounded.rnd (U * d) + x) = z at *
    generalize rounded.rnd (U * d) + x = s at *
    generalize tau = τ at *
    clear k1 hp hp0 hy v1 v2 v3
    have k4 : τ ≤ 1 / 2 ^ 100 * y := hτ.trans (by nlinarith)
    have k5 : (2 : ℝ) ^ (-53 : ℤ) * s ≤ (2 : ℝ) ^ (-53 : ℤ) * ((1 + (2 : ℝ) ^ (-53 : ℤ)) * y + τ) := mul_le_mul_of_nonneg_left k2 hu0
    norm_num at k2 k3 k4 k5 ⊢
    linarith
  · rintro rfl
    have e1 : d = y := by rw [hdd, sub_zero, hry]
    rw [add_zero, cc, e1]
    exact rnd_mul_lt hU hry hy1

end B64
end Girgs
