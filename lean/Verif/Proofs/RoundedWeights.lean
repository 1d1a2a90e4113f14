import Verif.Spec.RoundedPow
import Verif.Proofs.RoundedSamplers
import Mathlib.Analysis.SpecialFunctions.Pow.Real
import Mathlib.Analysis.Convex.SpecificFunctions.Basic
/-
The weights of `generateWeights` in floating point arithmetic.
-/
namespace Girgs
open Spec CFloat
variable {F : Type} [CFloat F] {u lam eps p : ℝ} {A : Rounded F u lam}

/-- the base of the second power: rounding `(P - 1) * U + 1` gives a number of `[P (1 - 3u), 1]` -/
theorem weight_base_rounded (E : RoundedElem A eps p) (W : RoundedPow A eps) (hu : u ≤ 1 / 2 ^ 53) {P U : ℝ} (hP : (2 : ℝ) ^ (-1000 : ℤ) ≤ P) (hP1 : P ≤ 1)
    (hU0 : 0 ≤ U) (hU1 : U < 1) (hU : A.rnd U = U) :
    P * (1 - 3 * u) ≤ A.rnd (A.rnd (A.rnd (P - 1) * U) + 1) ∧ A.rnd (A.rnd (A.rnd (P - 1) * U) + 1) ≤ 1 := by
  have hu0 := A.u_nonneg
  have hP0 : 0 < P := lt_of_lt_of_le (by positivity) hP
  have r1 : A.rnd 1 = 1 := by have := A.int 1 (by norm_num); exact_mod_cast this
  have r0 : A.rnd 0 = 0 := by have := A.int 0 (by norm_num); exact_mod_cast this
  obtain ⟨c, hc⟩ : ∃ c, A.rnd (P - 1) = c := ⟨_, rfl⟩
  have c1 : -1 ≤ c := by
    have := A.mono (show (-1 : ℝ) ≤ P - 1 by linarith)
    rwa [A.odd, r1, hc] at this
  have c0 : c ≤ 0 := by
    have := A.mono (show P - 1 ≤ 0 by linarith)
    rwa [r0, hc] at this
  have cerr : |c - (P - 1)| ≤ u / 2 := by
    rw [← hc]
    exact W.unit_half _ (abs_le.2 ⟨by linarith, by linarith⟩)
  rw [hc]
  obtain ⟨t, ht⟩ : ∃ t, A.rnd (c * U) = t := ⟨_, rfl⟩
  have hcU1 : -U ≤ c * U := by nlinarith
  have hcU0 : c * U ≤ 0 := mul_nonpos_of_nonpos_of_nonneg c0 hU0
  have t0 : t ≤ 0 := by
    have := A.mono hcU0
    rwa [r0, ht] at this
  have t1 : -U ≤ t := by
    have := A.mono hcU1
    rwa [A.odd, hU, ht] at this
  have terr : |t - c * U| ≤ u / 2 := by
    rw [← ht]
    exact W.unit_half _ (abs_le.2 ⟨by linarith, by linarith⟩)
  have gapU : U ≤ 1 - u := by
    have := E.gap U 1 hU r1 (zpow_le_one_of_nonpos₀ (by norm_num) (by norm_num)) hU1
    linarith
  rw [ht]
  have key : P * (1 - 2 * u) ≤ 1 + t := by
    rcases le_or_gt u P with h | h
    · have a1 := (abs_le.1 cerr).1
      have a2 := (abs_le.1 cerr).2
      have a3 := (abs_le.1 terr).1
      nlinarith
    · have : P * (1 - 2 * u) ≤ P := by nlinarith
      linarith
  have hu8 : u ≤ 1 / 8 := hu.trans (by norm_num)
  have half : P / 2 ≤ P * (1 - 2 * u) := by nlinarith
  have big : (2 : ℝ) ^ (-1022 : ℤ) ≤ t + 1 := by
    have h1 : (2 : ℝ) ^ (-1022 : ℤ) ≤ 2 ^ (-1001 : ℤ) := zpow_le_zpow_right₀ (by norm_num) (by norm_num)
    have h2 : (2 : ℝ) ^ (-1001 : ℤ) = 2 ^ (-1000 : ℤ) / 2 := by
      rw [show (-1001 : ℤ) = -1000 - 1 by norm_num, zpow_sub_one₀ (by norm_num)]; ring
    refine h1.trans ?_
    rw [h2]
    have h3 : (2 : ℝ) ^ (-1000 : ℤ) / 2 ≤ P / 2 := div_le_div_of_nonneg_right hP (by norm_num)
    exact h3.trans (half.trans (by linarith))
  have pos : 0 < t + 1 := lt_of_lt_of_le (by positivity) big
  have rel := A.rel (t + 1) (by rw [abs_of_pos pos]; exact big)
  rw [abs_of_pos pos] at rel
  constructor
  · have a1 := (abs_le.1 rel).1
    have a2 : (1 - u) * (P * (1 - 2 * u)) ≤ (1 - u) * (1 + t) := mul_le_mul_of_nonneg_left key (by linarith)
    nlinarith [mul_nonneg hP0.le (mul_nonneg hu0 hu0)]
  · have := A.mono (show t + 1 ≤ 1 by linarith)
    rwa [r1] at this

/-- small powers of 2 -/
theorem two_rpow_le {x : ℝ} (h0 : 0 ≤ x) (h1 : x ≤ 1) : (2 : ℝ) ^ x ≤ 1 + x := by
  have := rpow_one_add_le_one_add_mul_self (s := 1) (by norm_num) h0 h1
  norm_num at this
  linarith

/-- the error factors together -/
theorem weight_factor {u eps : ℝ} (hu0 : 0 ≤ u) (hu : u ≤ 1 / 2 ^ 53) (_he0 : 0 ≤ eps) (he : eps ≤ 1 / 2 ^ 51) :
    (1 + eps) * (1 + 30 * u) / ((1 - eps) * (1 - 3 * u)) ≤ 1 + 1 / 2 ^ 47 := by
  have h1 : (1 + eps) * (1 + 30 * u) ≤ (1 + 1 / 2 ^ 51) * (1 + 30 * (1 / 2 ^ 53)) :=
    mul_le_mul (by linarith) (by linarith) (by positivity) (by positivity)
  have h2 : (1 - 1 / 2 ^ 51 : ℝ) * (1 - 3 * (1 / 2 ^ 53)) ≤ (1 - eps) * (1 - 3 * u) :=
    mul_le_mul (by linarith) (by linarith) (by norm_num) (by linarith [show (1 / 2 ^ 51 : ℝ) ≤ 1 by norm_num])
  have h3 : (0 : ℝ) < (1 - 1 / 2 ^ 51 : ℝ) * (1 - 3 * (1 / 2 ^ 53)) := by norm_num
  rw [div_le_iff₀ (lt_of_lt_of_le h3 h2)]
  refine h1.trans (le_trans ?_ (mul_le_mul_of_nonneg_left h2 (by norm_num)))
  norm_num

namespace Spec.RWeights
variable {plef : F} {ple : ℝ}

/-- the exponent -/
theorem exponent (S : RWeights A eps p plef ple) :
    ∃ b, A.val (CFloat.neg plef +. CFloat.ofRat 1) = some b ∧ -31 ≤ b ∧ b ≤ -1 ∧ A.rnd b = b := by
  have v := A.add _ _ _ _ (S.power.neg _ _ S.val) A.val_one (by
    have h1 := S.ple_ge
    have h2 := S.ple_le
    refine two_pow_1023 (k := 5) (by norm_num) (abs_le.2 ⟨?_, ?_⟩) <;> norm_num <;> linarith)
  refine ⟨_, v, ?_, ?_, A.rep _ _ v⟩
  · have := A.mono (show ((-31 : ℤ) : ℝ) ≤ -ple + 1 by have := S.ple_le; norm_num; linarith)
    rw [A.int (-31) (by norm_num)] at this
    exact_mod_cast this
  · have := A.mono (show -ple + 1 ≤ ((-1 : ℤ) : ℝ) by have := S.ple_ge; norm_num; linarith)
    rw [A.int (-1) (by norm_num)] at this
    exact_mod_cast this

/-- the exponent of the second power -/
theorem inverse (_S : RWeights A eps p plef ple) {bf : F} {b : ℝ} (vb : A.val bf = some b) (h1 : -31 ≤ b) (h2 : b ≤ -1) :
    ∃ q, A.val (CFloat.ofRat 1 /. bf) = some q ∧ -1 ≤ q ∧ q ≤ -1 / 32 ∧ b * q ≤ 1 + u := by
  have hb : b < 0 := by linarith
  have l1 : -1 ≤ 1 / b := by rw [le_div_iff_of_neg hb]; linarith
  have l2 : 1 / b ≤ -1 / 32 := by
    rw [div_le_iff_of_neg hb]; linarith
  have v := A.div _ _ _ _ A.val_one vb hb.ne (by
    refine two_pow_1023 (k := 1) (by norm_num) (abs_le.2 ⟨?_, ?_⟩) <;> norm_num <;> rw [← one_div] <;> linarith)
  refine ⟨_, v, ?_, ?_, ?_⟩
  · have := A.mono l1
    rw [show (-1 : ℝ) = ((-1 : ℤ) : ℝ) by norm_num, A.int (-1) (by norm_num)] at this
    exact_mod_cast this
  · have := A.mono l2
    rw [show (-1 / 32 : ℝ) = -(2 ^ (-5 : ℤ)) by norm_num, A.odd, A.pow2 (-5) (by norm_num) (by norm_num)] at this
    rw [show (-1 / 32 : ℝ) = -(2 ^ (-5 : ℤ)) by norm_num]
    exact this
  · have rel := A.rel (1 / b) (by
      rw [abs_of_neg (by linarith)]
      have : (2 : ℝ) ^ (-1022 : ℤ) ≤ 2 ^ (-5 : ℤ) := zpow_le_zpow_right₀ (by norm_num) (by norm_num)
      refine this.trans ?_
      norm_num
      rw [one_div] at l2
      linarith)
    rw [abs_of_neg (by linarith : 1 / b < 0)] at rel
    have a1 := (abs_le.1 rel).1
    have e : b * (1 / b) = 1 := mul_one_div_cancel hb.ne
    generalize A.rnd (1 / b) = q at *
    generalize 1 / b = i at *
    have := mul_le_mul_of_nonpos_left a1 hb.le
    have e2 : b * (-(u * -i)) = u * (b * i) := by ring
    rw [e2, e] at this
    linarith

/-- a weight of `generateWeights` -/
theorem weight_val (S : RWeights A eps p plef ple) {n : ℕ} (hn : 2 ≤ n) (hn' : n ≤ 2 ^ 31) {Uf : F} {U : ℝ} (vU : A.val Uf = some U) (hU0 : 0 ≤ U) (hU1 : U < 1) :
    ∃ w, A.val (weightOf n plef Uf) = some w ∧ 1 - eps ≤ w ∧ w ≤ (1 + 1 / 2 ^ 47) * (n / 2) := by
  have hu0 := A.u_nonneg
  have hu := S.hu
  have he0 := S.elem.eps_nonneg
  have he := S.he
  have hnR : (2 : ℝ) ≤ n := by exact_mod_cast hn
  have hnR' : (n : ℝ) ≤ 2 ^ 31 := by exact_mod_cast hn'
  obtain ⟨b, vb, b1, b2, -⟩ := S.exponent
  obtain ⟨q, vq, q1, q2, bq⟩ := S.inverse vb b1 b2
  -- n/2
  have vn : A.val (CFloat.ofRat (1 / 2) *. CFloat.ofNat n : F) = some ((n : ℝ) / 2) := by
    have h1 : A.val (CFloat.ofRat (1 / 2) : F) = some (1 / 2 : ℝ) := by
      have := A.ofRat (1 / 2) (by
        refine two_pow_1023 (k := 1) (by norm_num) ?_
        norm_num [abs_of_pos])
      push_cast at this
      rwa [show (1 / 2 : ℝ) = 2 ^ (-1 : ℤ) by norm_num, A.pow2 (-1) (by norm_num) (by norm_num), show (2 : ℝ) ^ (-1 : ℤ) = 1 / 2 by norm_num] at this
    have h2 := A.val_ofNat (F := F) n (hn'.trans (by norm_num))
    have h3 := A.mul _ _ _ _ h1 h2 (two_pow_1023 (k := 31) (by norm_num) (by rw [abs_of_nonneg (by positivity)]; linarith))
    rw [show (1 / 2 : ℝ) * n = n / 2 by ring, S.elem.half n (A.rep _ _ h2) (by
      rw [abs_of_nonneg (by linarith)]
      exact (zpow_le_one_of_nonpos₀ (by norm_num) (by norm_num)).trans (by linarith))] at h3
    exact h3
  have hx1 : (1 : ℝ) ≤ n / 2 := by linarith
  have hx0 : (0 : ℝ) < n / 2 := by linarith
  have hx30 : (n : ℝ) / 2 ≤ 2 ^ 30 := by
    rw [div_le_iff₀ (by norm_num)]
    exact hnR'.trans (by norm_num)
  -- the first power
  obtain ⟨Pe, hPe⟩ : ∃ Pe, ((n : ℝ) / 2) ^ b = Pe := ⟨_, rfl⟩
  have Pe_ge : (2 : ℝ) ^ (-930 : ℤ) ≤ Pe := by
    have h1 : ((2 : ℝ) ^ (30 : ℕ)) ^ b ≤ Pe := by
      rw [← hPe]
      exact Real.rpow_le_rpow_of_nonpos hx0 hx30 (by linarith)
    refine le_trans ?_ h1
    rw [← Real.rpow_natCast, ← Real.rpow_mul (by norm_num), ← Real.rpow_intCast]
    exact Real.rpow_le_rpow_of_exponent_le (by norm_num) (by push_cast; linarith)
  have Pe_le : Pe ≤ 1 := by
    rw [← hPe]
    exact Real.rpow_le_one_of_one_le_of_nonpos hx1 (by linarith)
  have Pe0 : 0 < Pe := lt_of_lt_of_le (by positivity) Pe_ge
  obtain ⟨P, vP, P1, P2⟩ : ∃ P, A.val (CFloat.pow (CFloat.ofRat (1 / 2) *. CFloat.ofNat n) (CFloat.neg plef +. CFloat.ofRat 1) : F) = some P ∧ (1 - eps) * Pe ≤ P ∧ P ≤ 1 := by
    rcases hn.eq_or_lt with h | h
    · subst h
      rw [show ((2 : ℕ) : ℝ) / 2 = 1 by norm_num] at vn
      refine ⟨1, S.power.one _ _ _ vn vb, ?_, le_rfl⟩
      nlinarith
    · obtain ⟨z, vz, hz⟩ := S.power.pow _ _ _ _ vn vb hx0 (by
        rw [hPe]
        exact (zpow_le_zpow_right₀ (by norm_num) (by norm_num)).trans Pe_ge) (by
        rw [hPe]
        exact Pe_le.trans (one_le_pow₀ (by norm_num)))
      rw [hPe] at hz
      have a1 := abs_le.1 hz
      refine ⟨z, vz, by linarith, ?_⟩
      have h3 : (3 : ℝ) ≤ n := by exact_mod_cast h
      have : Pe ≤ 2 / 3 := by
        rw [← hPe]
        calc ((n : ℝ) / 2) ^ b ≤ ((n : ℝ) / 2) ^ (-1 : ℝ) := Real.rpow_le_rpow_of_exponent_le hx1 b2
          _ = ((n : ℝ) / 2)⁻¹ := by rw [Real.rpow_neg_one]
          _ ≤ 2 / 3 := by
            rw [inv_le_comm₀ hx0 (by norm_num)]
            linarith
      have he' : eps ≤ 1 / 4 := he.trans (by norm_num)
      nlinarith
  have he4 : eps ≤ 1 / 4 := he.trans (by norm_num)
  have hu4 : u ≤ 1 / 8 := hu.trans (by norm_num)
  have P_ge : (2 : ℝ) ^ (-1000 : ℤ) ≤ P := by
    have h1 : (2 : ℝ) ^ (-1000 : ℤ) ≤ 2 ^ (-931 : ℤ) := zpow_le_zpow_right₀ (by norm_num) (by norm_num)
    have h2 : (2 : ℝ) ^ (-931 : ℤ) = 2 ^ (-930 : ℤ) / 2 := by
      rw [show (-931 : ℤ) = -930 - 1 by norm_num, zpow_sub_one₀ (by norm_num)]; ring
    refine h1.trans ?_
    rw [h2]
    have h3 : (2 : ℝ) ^ (-930 : ℤ) / 2 ≤ Pe / 2 := div_le_div_of_nonneg_right Pe_ge (by norm_num)
    refine h3.trans (le_trans ?_ P1)
    nlinarith
  have P0 : 0 < P := lt_of_lt_of_le (by positivity) P_ge
  -- the base of the second power
  obtain ⟨s1, s2⟩ := weight_base_rounded S.elem S.power hu P_ge P2 hU0 hU1 (A.rep _ _ vU)
  have v1 := A.sub _ _ _ _ vP A.val_one (two_pow_1023 (k := 1) (by norm_num) (abs_le.2 ⟨by norm_num; linarith, by norm_num; linarith⟩))
  have c1 : -1 ≤ A.rnd (P - 1) := by
    have := A.mono (show ((-1 : ℤ) : ℝ) ≤ P - 1 by push_cast; linarith)
    rw [A.int (-1) (by norm_num)] at this
    exact_mod_cast this
  have c0 : A.rnd (P - 1) ≤ 0 := by
    have := A.mono (show P - 1 ≤ ((0 : ℤ) : ℝ) by push_cast; linarith)
    rw [A.int 0 (by norm_num)] at this
    exact_mod_cast this
  have d1 : -1 ≤ A.rnd (P - 1) * U := by nlinarith
  have d0 : A.rnd (P - 1) * U ≤ 0 := mul_nonpos_of_nonpos_of_nonneg c0 hU0
  have v2 := A.mul _ _ _ _ v1 vU (two_pow_1023 (k := 1) (by norm_num) (abs_le.2 ⟨by norm_num; linarith, by norm_num; linarith⟩))
  have e1 : -1 ≤ A.rnd (A.rnd (P - 1) * U) := by
    have := A.mono (show ((-1 : ℤ) : ℝ) ≤ A.rnd (P - 1) * U by push_cast; linarith)
    rw [A.int (-1) (by norm_num)] at this
    exact_mod_cast this
  have e0 : A.rnd (A.rnd (P - 1) * U) ≤ 0 := by
    have := A.mono (show A.rnd (P - 1) * U ≤ ((0 : ℤ) : ℝ) by push_cast; linarith)
    rw [A.int 0 (by norm_num)] at this
    exact_mod_cast this
  have v3 := A.add _ _ _ _ v2 A.val_one (two_pow_1023 (k := 1) (by norm_num) (abs_le.2 ⟨by norm_num; linarith, by norm_num; linarith⟩))
  generalize A.rnd (A.rnd (A.rnd (P - 1) * U) + 1) = s at s1 s2 v3
  have s0 : 0 < s := lt_of_lt_of_le (mul_pos P0 (by linarith)) s1
  -- the second power
  have w1 : 1 ≤ s ^ q := Real.one_le_rpow_of_pos_of_le_one_of_nonpos s0 s2 (by linarith)
  have w2 : s ^ q ≤ (n : ℝ) / 2 * (1 + 30 * u) / ((1 - eps) * (1 - 3 * u)) := by
    have hk0 : 0 < (1 - eps) * (1 - 3 * u) := mul_pos (by linarith) (by linarith)
    have hk1 : (1 - eps) * (1 - 3 * u) ≤ 1 := by nlinarith
    have g1 : Pe * ((1 - eps) * (1 - 3 * u)) ≤ s := by
      refine le_trans ?_ s1
      have := mul_le_mul_of_nonneg_right P1 (show 0 ≤ 1 - 3 * u by linarith)
      linarith
    calc s ^ q ≤ (Pe * ((1 - eps) * (1 - 3 * u))) ^ q := Real.rpow_le_rpow_of_nonpos (mul_pos Pe0 hk0) g1 (by linarith)
      _ = Pe ^ q * ((1 - eps) * (1 - 3 * u)) ^ q := Real.mul_rpow Pe0.le hk0.le
      _ ≤ ((n : ℝ) / 2 * (1 + 30 * u)) * ((1 - eps) * (1 - 3 * u))⁻¹ := by
        refine mul_le_mul ?_ ?_ (Real.rpow_nonneg hk0.le _) (by positivity)
        · rw [← hPe, ← Real.rpow_mul hx0.le]
          calc ((n : ℝ) / 2) ^ (b * q) ≤ ((n : ℝ) / 2) ^ (1 + u) := Real.rpow_le_rpow_of_exponent_le hx1 bq
            _ = (n : ℝ) / 2 * ((n : ℝ) / 2) ^ u := by rw [Real.rpow_add hx0, Real.rpow_one]
            _ ≤ (n : ℝ) / 2 * (1 + 30 * u) := by
              refine mul_le_mul_of_nonneg_left ?_ hx0.le
              calc ((n : ℝ) / 2) ^ u ≤ ((2 : ℝ) ^ (30 : ℕ)) ^ u := Real.rpow_le_rpow hx0.le hx30 hu0
                _ = 2 ^ (30 * u) := by rw [← Real.rpow_natCast, ← Real.rpow_mul (by norm_num)]; norm_num
                _ ≤ 1 + 30 * u := two_rpow_le (by positivity) (by
                  have := mul_le_mul_of_nonneg_left hu (show (0 : ℝ) ≤ 30 by norm_num)
                  exact this.trans (by norm_num))
        · rw [← Real.rpow_neg_one]
          exact Real.rpow_le_rpow_of_exponent_ge hk0 hk1 q1
      _ = _ := (div_eq_mul_inv _ _).symm
  have hf := weight_factor hu0 hu he0 he
  have w3 : (1 + eps) * s ^ q ≤ (1 + 1 / 2 ^ 47) * ((n : ℝ) / 2) := by
    calc (1 + eps) * s ^ q ≤ (1 + eps) * ((n : ℝ) / 2 * (1 + 30 * u) / ((1 - eps) * (1 - 3 * u))) := mul_le_mul_of_nonneg_left w2 (by linarith)
      _ = (1 + eps) * (1 + 30 * u) / ((1 - eps) * (1 - 3 * u)) * ((n : ℝ) / 2) := by ring
      _ ≤ _ := mul_le_mul_of_nonneg_right hf hx0.le
  obtain ⟨w, vw, hw⟩ := S.power.pow _ _ _ _ v3 vq s0 (by
    refine le_trans ?_ w1
    exact zpow_le_one_of_nonpos₀ (by norm_num) (by norm_num)) (by
    have h1 : s ^ q ≤ (1 + eps) * s ^ q := by
      have := mul_nonneg he0 (by linarith : (0 : ℝ) ≤ s ^ q)
      linarith
    have h2 : (1 + 1 / 2 ^ 47) * ((n : ℝ) / 2) ≤ 2 * 2 ^ 30 := mul_le_mul (by norm_num) hx30 hx0.le (by norm_num)
    refine h1.trans (w3.trans (h2.trans ?_))
    rw [← pow_succ']
    exact pow_le_pow_right₀ (by norm_num) (by norm_num))
  have hw' := abs_le.1 hw
  refine ⟨w, vw, ?_, ?_⟩
  · nlinarith
  · linarith

end Spec.RWeights
end Girgs
