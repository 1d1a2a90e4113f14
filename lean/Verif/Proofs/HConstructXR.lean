import Verif.Proofs.HConstruct
import Verif.Proofs.ConstructXR
import Verif.Proofs.HLevelSharp
/-!
Construction of the hyperbolic sampler in exact arithmetic.
-/
namespace Girgs
open Real Spec CFloat HBuild

/-- target levels -/
noncomputable def htgt (R : ℝ) (k : ℕ) : ℕ := hpbl (R - k - 1) (R - 1) R

/-- comparison levels -/
noncomputable def hpair (R : ℝ) (i j : ℕ) : ℕ := hpbl (R - i - 1) (R - j - 1) R

theorem radMin_XR (R : ℝ) (l : ℕ) : radMin (XR.fin R) l = XR.fin (R - l - 1) := by
  unfold radMin
  simp only [XR.ofRat_eq, XR.ofNat_eq, XR.mul_fin, XR.sub_fin]
  push_cast; rw [mul_one]

theorem radMax_XR (R : ℝ) (l : ℕ) : radMax (XR.fin R) l = XR.fin (R - l) := by
  unfold radMax
  simp only [XR.ofRat_eq, XR.ofNat_eq, XR.mul_fin, XR.sub_fin]
  push_cast; rw [mul_one]

theorem geom_le {q : ℝ} (h0 : 0 ≤ q) (h1 : q < 1) (n : ℕ) : ∑ k ∈ Finset.range n, q ^ k ≤ 1 / (1 - q) := by
  rw [geom_sum_eq h1.ne, ← neg_div_neg_eq]
  have h2 : 0 < 1 - q := by linarith
  have h3 : 0 ≤ q ^ n := pow_nonneg h0 n
  rw [neg_sub, neg_sub]
  gcongr
  linarith

theorem htotal_lt_forty {R : ℝ} (hR : (⌈R⌉ : ℝ) ≤ 3 / 2 * R) (h40 : R ≤ 40) : hTotal (htgt R) ⌈R⌉.toNat < 2147483648 := by
  have h1 : (hTotal (htgt R) ⌈R⌉.toNat : ℝ) ≤ ∑ k ∈ Finset.range ⌈R⌉.toNat, (1 + 4.06 * Real.exp 19 * Real.exp (-(1 / 2)) ^ k) := by
    unfold hTotal
    push_cast
    exact Finset.sum_le_sum fun k hk => two_pow_level_le hR h40 (Finset.mem_range.1 hk)
  rw [Finset.sum_add_distrib, ← Finset.mul_sum] at h1
  have hq : Real.exp (-(1 / 2)) ≤ 0.6068 := by
    rw [Real.exp_neg, inv_le_comm₀ (Real.exp_pos _) (by norm_num)]
    have h2 : (1.648 : ℝ) ^ 2 ≤ Real.exp (1 / 2) ^ 2 := by
      rw [← Real.exp_nat_mul]
      have : ((2 : ℕ) : ℝ) * (1 / 2) = 1 := by norm_num
      rw [this]
      refine le_trans ?_ Real.exp_one_gt_d9.le
      norm_num
    have := le_of_sq_le_sq h2 (Real.exp_pos _).le
    refine le_trans (by norm_num) this
  have hq0 := Real.exp_pos (-(1 / 2) : ℝ)
  have hg := geom_le hq0.le (by linarith) ⌈R⌉.toNat
  have hg2 : 1 / (1 - Real.exp (-(1 / 2))) ≤ 2.5433 := by
    rw [div_le_iff₀ (by linarith)]
    linarith
  have he : Real.exp 19 ≤ 1.7849e8 := by
    have e19 : Real.exp 19 = Real.exp 1 ^ 19 := by rw [← Real.exp_nat_mul]; norm_num
    rw [e19]
    refine le_trans (pow_le_pow_left₀ (Real.exp_pos 1).le Real.exp_one_lt_d9.le 19) (by norm_num)
  have hcard : (∑ k ∈ Finset.range ⌈R⌉.toNat, (1 : ℝ)) ≤ 40 := by
    have : ⌈R⌉ ≤ 40 := Int.ceil_le.2 (by exact_mod_cast h40)
    have : ⌈R⌉.toNat ≤ 40 := by omega
    simp only [Finset.sum_const, Finset.card_range, nsmul_eq_mul, mul_one]
    exact_mod_cast this
  have hm : 4.06 * Real.exp 19 * ∑ k ∈ Finset.range ⌈R⌉.toNat, Real.exp (-(1 / 2)) ^ k ≤ 4.06 * 1.7849e8 * 2.5433 := by
    have hs : 0 ≤ ∑ k ∈ Finset.range ⌈R⌉.toNat, Real.exp (-(1 / 2)) ^ k := Finset.sum_nonneg fun k _ => by positivity
    exact mul_le_mul (by linarith) (hg.trans hg2) hs (by norm_num)
  have : (hTotal (htgt R) ⌈R⌉.toNat : ℝ) < 2147483648 := by
    refine lt_of_le_of_lt (h1.trans (add_le_add hcard hm)) (by norm_num)
  exact_mod_cast this

/-- the supported disks have less than `2^31` cells -/
theorem htotal_lt {R : ℝ} (hR : (⌈R⌉ : ℝ) ≤ 3 / 2 * R) (hmax : R ≤ 165 / 4) : hTotal (htgt R) ⌈R⌉.toNat < 2147483648 := by
  rcases le_total R 40 with h | h
  · exact htotal_lt_forty hR h
  have hc1 : ⌈R⌉ ≤ 42 := Int.ceil_le.2 (by push_cast; linarith)
  have hc0 : 40 ≤ ⌈R⌉ := by
    have h1 := Int.le_ceil R
    have h2 : (40 : ℝ) ≤ (⌈R⌉ : ℝ) := h.trans h1
    exact_mod_cast h2
  have hA : Real.exp (R - 2) ≤ 333450000 ^ 2 := by
    have h1 : Real.exp (R - 2) ^ 4 ≤ 2.7182818286 ^ 157 := by
      rw [← Real.exp_nat_mul]
      have h2 : Real.exp (((4 : ℕ) : ℝ) * (R - 2)) ≤ Real.exp 157 := Real.exp_le_exp.2 (by push_cast; linarith)
      refine h2.trans ?_
      have e : Real.exp 157 = Real.exp 1 ^ 157 := by rw [← Real.exp_nat_mul]; norm_num
      rw [e]
      exact pow_le_pow_left₀ (Real.exp_pos 1).le Real.exp_one_lt_d9.le 157
    refine le_of_pow_le_pow_left₀ (n := 4) (by norm_num) (by norm_num) (h1.trans ?_)
    norm_num
  have hs := tail_le h hA (by norm_num)
  have e : ∀ k L : ℕ, k ≤ 5 → 9.8702 * (333450000 : ℝ) ^ 2 ≤ 0.9998 * (4 : ℝ) ^ (L + 1) * 2.7182818283 ^ k → (2 : ℝ) ^ htgt R k ≤ 2 ^ L := by
    intro k L hk hL
    exact pow_le_pow_right₀ (by norm_num) (level_le h hk hA hL)
  have e0 := e 0 29 (by norm_num) (by norm_num)
  have e1 := e 1 29 (by norm_num) (by norm_num)
  have e2 := e 2 28 (by norm_num) (by norm_num)
  have e3 := e 3 27 (by norm_num) (by norm_num)
  have hsum : (hTotal (htgt R) ⌈R⌉.toNat : ℝ) = ∑ k ∈ Finset.range (⌈R⌉.toNat - 4), (2 : ℝ) ^ htgt R (k + 4) +
      (2 ^ htgt R 0 + 2 ^ htgt R 1 + 2 ^ htgt R 2 + 2 ^ htgt R 3) := by
    unfold hTotal
    push_cast
    obtain ⟨m, hm⟩ : ∃ m, ⌈R⌉.toNat = m + 4 := ⟨⌈R⌉.toNat - 4, by omega⟩
    rw [hm, Nat.add_sub_cancel, Finset.sum_range_succ', Finset.sum_range_succ', Finset.sum_range_succ', Finset.sum_range_succ']
    ring
  have hn : ((⌈R⌉.toNat : ℕ) : ℝ) ≤ 42 := by
    have : ⌈R⌉.toNat ≤ 42 := by omega
    exact_mod_cast this
  have : (hTotal (htgt R) ⌈R⌉.toNat : ℝ) < 2147483648 := by
    rw [hsum]
    have hs' : ∑ k ∈ Finset.range (⌈R⌉.toNat - 4), (2 : ℝ) ^ htgt R (k + 4) ≤ ⌈R⌉.toNat + 1.4001 * 333450000 := hs
    norm_num at e0 e1 e2 e3 hs'
    linarith
  exact_mod_cast this

theorem radiusToLayer_XR {R r : ℝ} (h0 : 0 < r) (h1 : r ≤ R) (h40 : R ≤ 165 / 4) :
    radiusToLayer (XR.fin R) (XR.fin r) = some ⌊R - r⌋.toNat ∧ ⌊R - r⌋.toNat < ⌈R⌉.toNat ∧
      R - ⌊R - r⌋.toNat - 1 < r ∧ r ≤ R - ⌊R - r⌋.toNat := by
  have hn : 0 ≤ ⌊R - r⌋ := Int.floor_nonneg.2 (by linarith)
  have hc : ((⌊R - r⌋.toNat : ℤ)) = ⌊R - r⌋ := Int.toNat_of_nonneg hn
  have hc' : ((⌊R - r⌋.toNat : ℝ)) = (⌊R - r⌋ : ℝ) := (Int.cast_natCast _).symm.trans (congrArg _ hc)
  refine ⟨?_, ?_, ?_, ?_⟩
  · unfold radiusToLayer
    rw [XR.sub_fin, XR.ofRat_eq, XR.div_fin _ _ (by norm_num)]
    push_cast
    rw [div_one, XR.toU32_fin _ (by linarith) (by norm_num; linarith)]
  · have h2 : (⌊R - r⌋ : ℝ) ≤ R - r := Int.floor_le _
    have h3 : R ≤ (⌈R⌉ : ℝ) := Int.le_ceil _
    have : (⌊R - r⌋ : ℝ) < (⌈R⌉ : ℝ) := by linarith
    have : ⌊R - r⌋ < ⌈R⌉ := by exact_mod_cast this
    omega
  · rw [hc']; linarith [Int.lt_floor_add_one (R - r)]
  · rw [hc']; linarith [Int.floor_le (R - r)]

theorem cellForPoint_XR {a : ℝ} (h0 : 0 ≤ a) (h1 : a < 2 * π) {t : ℕ} (ht : t ≤ 31) :
    Angle.cellForPoint (XR.fin a) t = some ⌊a / (2 * π) * 2 ^ t⌋.toNat ∧ ⌊a / (2 * π) * 2 ^ t⌋.toNat < 2 ^ t := by
  have hp := pi_pos
  have hx0 : 0 ≤ a / (2 * π) := by positivity
  have hx1 : a / (2 * π) < 1 := by rw [div_lt_one (by positivity)]; exact h1
  have hw : (0 : ℝ) < 2 ^ t := by positivity
  have hlt : a / (2 * π) * 2 ^ t < 2 ^ t := by nlinarith
  have hle : (2 : ℝ) ^ t ≤ 2 ^ 31 := pow_le_pow_right₀ (by norm_num) ht
  constructor
  · unfold Angle.cellForPoint
    refine (obind (Angle.numCellsInLevel_eq ht) _).trans ?_
    rw [XR.ofRat_eq, XR.pi_eq, XR.ofNat_eq, XR.div_fin _ _ (by norm_num), XR.div_fin _ _ hp.ne', XR.mul_fin]
    have e : a / ((2 : ℚ) : ℝ) / π * ((2 ^ t : ℕ) : ℝ) = a / (2 * π) * 2 ^ t := by push_cast; rw [div_div]
    rw [e, XR.toU32_fin _ (by positivity) (by norm_num at hle ⊢; linarith)]
  · have h2 : ⌊a / (2 * π) * 2 ^ t⌋ < 2 ^ t := by rw [Int.floor_lt]; push_cast; exact hlt
    have h3 : (0 : ℤ) < 2 ^ t := by positivity
    have h4 : ((2 ^ t : ℕ) : ℤ) = 2 ^ t := by push_cast; rfl
    omega

theorem HypInput.inputOK {radii angles : List ℝ} {T R : ℝ} (hin : HypInput radii angles T R) :
    HInputOK (XR.fin R) (xw radii) (xw angles) ⌈R⌉.toNat (htgt R) (hpair R) := by
  have hR := disk_ceil hin.disk
  have h40 : R ≤ 165 / 4 := by rcases hin.disk with h | h <;> linarith [h.2]
  have hR0 : 0 < R := by rcases hin.disk with h | h <;> linarith [h.1]
  have hc0 : 0 < ⌈R⌉ := Int.ceil_pos.2 hR0
  have hc1 : ⌈R⌉ ≤ 42 := Int.ceil_le.2 (by push_cast; linarith)
  have htot := htotal_lt hR h40
  have htgt0 : ∀ k, htgt R k = hpair R k 0 := fun k => by unfold htgt hpair; simp
  have ht31 : ∀ k, k < ⌈R⌉.toNat → htgt R k ≤ 31 := by
    intro k hk
    have h1 := hOff_le_total (tgt := htgt R) hk
    by_contra h
    have : 2 ^ 31 ≤ 2 ^ htgt R k := Nat.pow_le_pow_right (by norm_num) (by omega)
    omega
  refine ⟨?_, ?_, ?_, ?_, by omega, by omega, ?_, ?_, ?_, ?_, ?_, htot, ?_, ?_⟩
  · simp [xw, hin.len]
  · simpa [xw] using hin.pos
  · simpa [xw] using hin.small
  · unfold numLayers
    rw [XR.ofRat_eq, XR.div_fin _ _ (by norm_num)]
    push_cast
    rw [div_one, XR.ceil_fin, XR.toU32_fin _ (by exact_mod_cast hc0.le) (by
      have : (⌈R⌉ : ℝ) ≤ 42 := by exact_mod_cast hc1
      norm_num; linarith), Int.floor_intCast]
  · intro l hl
    rw [radMin_XR, XR.ofRat_eq, XR.sub_fin]
    push_cast
    have := layers_sub hl (show 0 < ⌈R⌉.toNat by omega)
    exact pbl_XR hR0.le (hc_exists (by simpa using this))
  · intro i j hi hj
    rw [radMin_XR, radMin_XR]
    exact pbl_XR hR0.le (hc_exists (layers_sub hi hj))
  · intro i j; exact hpbl_symm _ _ _
  · intro i j hi hj
    rw [htgt0]
    exact pbl_le hR hi hj le_rfl (Nat.zero_le _)
  · intro i j hi hj
    rw [htgt0]
    exact pbl_le hR hi hj (Nat.zero_le _) (Nat.zero_le _)
  · intro r hr
    obtain ⟨r, hr', rfl⟩ := List.mem_map.1 hr
    obtain ⟨e1, e2, _⟩ := radiusToLayer_XR (hin.radius r hr').1 (hin.radius r hr').2 h40
    exact ⟨_, e2, e1⟩
  · intro a ha k hk
    obtain ⟨a, ha', rfl⟩ := List.mem_map.1 ha
    obtain ⟨e1, e2⟩ := cellForPoint_XR (hin.angle a ha').1 (hin.angle a ha').2 (ht31 k hk)
    exact ⟨_, e2, e1⟩

end Girgs
