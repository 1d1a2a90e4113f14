import Verif.Proofs.HDecide
/-!
Hyperbolic sampler over exact reals: the distance filter decides like the formula.
-/
namespace Girgs
open Angle Spec
open Real

theorem invProb_anti {p q R T : ℝ} (hT : 0 ≤ T) (h0 : 0 < p) (h : p ≤ q) (h1 : q < 1) : invProb q R T ≤ invProb p R T := by
  unfold invProb
  have hq : 0 < q := h0.trans_le h
  have h2 : 1 / q ≤ 1 / p := one_div_le_one_div_of_le h0 h
  have h3 : 0 < 1 / q - 1 := by rw [sub_pos, lt_div_iff₀ hq]; linarith
  have h4 := log_le_log h3 (show 1 / q - 1 ≤ 1 / p - 1 by linarith)
  nlinarith

/-- the distance at which the connection probability is `q` -/
theorem hProb_invProb {q R T : ℝ} (hT : 0 < T) (h0 : 0 < q) (h1 : q < 1) : hypProb (invProb q R T) R T = q := by
  unfold hypProb invProb
  have h3 : 0 < 1 / q - 1 := by rw [sub_pos, lt_div_iff₀ h0]; linarith
  rw [show (R + 2 * T * log (1 / q - 1) - R) / (2 * T) = log (1 / q - 1) by field_simp; ring, exp_log h3]
  field_simp
  ring

theorem upper_right {p R T x d : ℝ} (hT : 0 < T) (h0 : 0 < p) (h1 : p ≤ 1) (hx0 : 0 ≤ x) (hx1 : x < p) (hd : 0 ≤ d)
    (h : XR.lt (stageX p R T ⌊100 / p * x⌋.toNat) (XR.fin (cosh d)) = true) : hypProb d R T ≤ x := by
  have hy0 : 0 ≤ 100 / p * x := by positivity
  have hy1 : 100 / p * x < 100 := by rw [div_mul_eq_mul_div, div_lt_iff₀ h0]; linarith
  have hf0 : 0 ≤ ⌊100 / p * x⌋ := Int.floor_nonneg.2 hy0
  have hf1 : ⌊100 / p * x⌋ < 100 := by rw [Int.floor_lt]; exact_mod_cast hy1
  have hcast : ((⌊100 / p * x⌋.toNat : ℕ) : ℝ) = (⌊100 / p * x⌋ : ℝ) :=
    (Int.cast_natCast _).symm.trans (congrArg _ (Int.toNat_of_nonneg hf0))
  unfold stageX at h
  split at h
  · cases h
  · rename_i hne
    rw [if_pos (by omega)] at h
    have h2 : cosh (invProb (p / 100 * (⌊100 / p * x⌋.toNat : ℕ)) R T) < cosh d := by simpa [XR.lt] using h
    rw [cosh_lt_cosh, abs_of_nonneg hd] at h2
    have hq0 : (1 : ℝ) ≤ (⌊100 / p * x⌋.toNat : ℕ) := by exact_mod_cast (show 1 ≤ ⌊100 / p * x⌋.toNat by omega)
    have hqx : p / 100 * (⌊100 / p * x⌋.toNat : ℕ) ≤ x := by
      rw [hcast]
      calc p / 100 * (⌊100 / p * x⌋ : ℝ) ≤ p / 100 * (100 / p * x) := mul_le_mul_of_nonneg_left (Int.floor_le _) (by positivity)
        _ = x := by field_simp
    generalize ((⌊100 / p * x⌋.toNat : ℕ) : ℝ) = i at *
    refine le_trans ?_ hqx
    have := (lt_hProb_iff (d := d) (R := R) hT (show 0 < p / 100 * i by positivity) (by linarith)).not.2 (by
      have := le_abs_self (invProb (p / 100 * i) R T); linarith)
    linarith

theorem lower_right {p R T x d : ℝ} (hT : 0 < T) (h0 : 0 < p) (h1 : p ≤ 1) (hx0 : 0 ≤ x) (hx1 : x < p) (hd : 0 ≤ d)
    (hpos : 0 ≤ invProb (99 / 100 * p) R T)
    (h : XR.lt (XR.fin (cosh d)) (stageX p R T ⌈100 / p * x⌉.toNat) = true) : x < hypProb d R T := by
  have hy0 : 0 ≤ 100 / p * x := by positivity
  have hy1 : 100 / p * x < 100 := by rw [div_mul_eq_mul_div, div_lt_iff₀ h0]; linarith
  have hc0 : 0 ≤ ⌈100 / p * x⌉ := Int.ceil_nonneg hy0
  have hcast : ((⌈100 / p * x⌉.toNat : ℕ) : ℝ) = (⌈100 / p * x⌉ : ℝ) :=
    (Int.cast_natCast _).symm.trans (congrArg _ (Int.toNat_of_nonneg hc0))
  have hxq : x ≤ p / 100 * (⌈100 / p * x⌉.toNat : ℕ) := by
    rw [hcast]
    calc x = p / 100 * (100 / p * x) := by field_simp
      _ ≤ p / 100 * (⌈100 / p * x⌉ : ℝ) := mul_le_mul_of_nonneg_left (Int.le_ceil _) (by positivity)
  unfold stageX at h
  split at h
  · rename_i he
    rw [he] at hxq
    have : x = 0 := le_antisymm (by simpa using hxq) hx0
    rw [this]; exact hProb_pos _ _ _
  · rename_i hne
    split at h
    · rename_i hlt
      have h2 : cosh d < cosh (invProb (p / 100 * (⌈100 / p * x⌉.toNat : ℕ)) R T) := by simpa [XR.lt] using h
      have hq0 : (1 : ℝ) ≤ (⌈100 / p * x⌉.toNat : ℕ) := by exact_mod_cast (show 1 ≤ ⌈100 / p * x⌉.toNat by omega)
      have hq1 : ((⌈100 / p * x⌉.toNat : ℕ) : ℝ) ≤ 99 := by exact_mod_cast (show ⌈100 / p * x⌉.toNat ≤ 99 by omega)
      generalize ((⌈100 / p * x⌉.toNat : ℕ) : ℝ) = i at *
      have hq99 : p / 100 * i ≤ 99 / 100 * p := by nlinarith
      have hip := invProb_anti (R := R) hT.le (show 0 < p / 100 * i by positivity) hq99 (by linarith)
      rw [cosh_lt_cosh, abs_of_nonneg hd, abs_of_nonneg (hpos.trans hip)] at h2
      have := (lt_hProb_iff (d := d) (R := R) hT (show 0 < p / 100 * i by positivity) (by linarith)).2 h2
      linarith
    · have h2 : cosh d < 1 := by simpa [XR.lt] using h
      exact absurd (one_le_cosh d) (by linarith)

/-- the table of a filter is usable: type II filters with bound at most 1/5 -/
theorem invProb_nonneg_small {p R T : ℝ} (hR : 0 ≤ R) (hT : 0 ≤ T) (h0 : 0 < p) (h1 : p ≤ 1 / 5) : 0 ≤ invProb (99 / 100 * p) R T := by
  unfold invProb
  have : 1 ≤ 1 / (99 / 100 * p) - 1 := by
    rw [le_sub_iff_add_le, le_div_iff₀ (by positivity)]; linarith
  have := log_nonneg this
  positivity

/-- the table of a filter is usable: the type I filter -/
theorem invProb_nonneg_one {R T : ℝ} : 0 ≤ invProb (99 / 100 * 1) R T ↔ 2 * T * log 99 ≤ R := by
  unfold invProb
  rw [show (1 : ℝ) / (99 / 100 * 1) - 1 = 99⁻¹ by norm_num, log_inv]
  constructor <;> intro h <;> linarith

/-- the decision is that of the formula -/
theorem decideProb_XR {H : HTree XR} {f : DistFilter XR} {u v : HPoint XR} {p R T x d : ℝ} (hR : H.R = XR.fin R) (hTe : H.T = XR.fin T)
    (hf : f = DistFilter.make (XR.fin p) (XR.fin R) (XR.fin T)) (hu : u.distCosh v = XR.fin (cosh d)) (hT : 0 < T) (h0 : 0 < p) (h1 : p ≤ 1)
    (hx0 : 0 ≤ x) (hx1 : x < p) (hd : 0 ≤ d) (hpos : 0 ≤ invProb (99 / 100 * p) R T) :
    HTree.decideProb H f u v (XR.fin x) = some (decide (x < hypProb d R T)) := by
  obtain ⟨hl1, hl2⟩ := lookup_XR (R := R) (T := T) h0 h1 hx0 hx1
  unfold HTree.decideProb
  simp only
  rw [hu, hf]
  refine (obind hl1 _).trans ?_
  split
  · rename_i h
    rw [decide_eq_false]
    rw [not_lt]
    exact upper_right hT h0 h1 hx0 hx1 hd h
  refine (obind hl2 _).trans ?_
  split
  · rename_i h
    rw [decide_eq_true]
    exact lower_right hT h0 h1 hx0 hx1 hd hpos h
  rw [hR, hTe, XR.acosh_fin _ (one_le_cosh d), arcosh_cosh hd, probRec_XR hT, XR.mul_fin, XR.ofRat_eq, XR.lt_fin]
  rw [Option.some.injEq, decide_eq_decide, Rat.cast_one]
  unfold hypProb
  rw [lt_div_iff₀ (by positivity)]

end Girgs
