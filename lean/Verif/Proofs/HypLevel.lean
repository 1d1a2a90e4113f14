import Verif.Proofs.HypGeom
import Verif.Base.XR
import Verif.Model.RadiusLayer
import Mathlib.Algebra.Order.Floor.Ring
/-!
`partitioningBaseLevel` in exact arithmetic.
-/
namespace Girgs
open Real Spec CFloat

theorem cellDiameter_XR (L : ℕ) : (RadiusLayer.cellDiameter L : XR) = XR.fin (2 * π / 2 ^ L) := by
  induction L with
  | zero => simp [RadiusLayer.cellDiameter]
  | succ L ih =>
    rw [RadiusLayer.cellDiameter, ih, XR.ofRat_eq, XR.div_fin _ _ (by norm_num)]
    congr 1
    push_cast
    rw [pow_succ]; field_simp

/-- `hyperbolicDistance` in exact arithmetic -/
theorem hyperbolicDistance_XR (r s φ ψ : ℝ) :
    hyperbolicDistance (XR.fin r) (XR.fin φ) (XR.fin s) (XR.fin ψ) = XR.fin (arcosh (max 1 (hc r s (φ - ψ)))) := by
  unfold hyperbolicDistance hc
  simp only [XR.ofRat_eq, XR.sub_fin, XR.cosh_fin, XR.cos_fin, XR.sinh_fin, XR.mul_fin, XR.add_fin, XR.fmax_fin]
  rw [XR.acosh_fin]
  · push_cast; rfl
  · exact le_max_of_le_left (by norm_num)

theorem lt_arcosh_iff {x y : ℝ} (hx : 0 ≤ x) : x < arcosh (max 1 y) ↔ cosh x < y := by
  have h1 : 1 ≤ cosh x := one_le_cosh x
  have h2 : 1 ≤ max 1 y := le_max_left _ _
  conv_lhs => rw [← arcosh_cosh hx]
  rw [arcosh_lt_arcosh (by linarith) (by linarith), lt_max_iff]
  constructor
  · rintro (h | h)
    · linarith
    · exact h
  · exact Or.inr

theorem arcosh_lt_iff {x y : ℝ} (hx : 0 < x) : arcosh (max 1 y) < x ↔ y < cosh x := by
  have h1 : 1 < cosh x := one_lt_cosh.2 hx.ne'
  have h2 : 1 ≤ max 1 y := le_max_left _ _
  conv_lhs => rw [← arcosh_cosh hx.le]
  rw [arcosh_lt_arcosh (by linarith) (by linarith), max_lt_iff]
  exact ⟨fun h => h.2, fun h => ⟨h1, h⟩⟩

theorem pblCond_XR {r s R : ℝ} (hR : 0 ≤ R) (L : ℕ) :
    RadiusLayer.pblCond (XR.fin r) (XR.fin s) (XR.fin R) L = decide (cosh R < hc r s (π / 2 ^ L)) := by
  unfold RadiusLayer.pblCond
  rw [cellDiameter_XR, XR.ofRat_eq, XR.ofRat_eq, XR.div_fin _ _ (by norm_num), hyperbolicDistance_XR, XR.lt_fin]
  apply decide_eq_decide.2
  rw [lt_arcosh_iff hR]
  have : ((0 : ℚ) : ℝ) - 2 * π / 2 ^ L / ((2 : ℚ) : ℝ) = -(π / 2 ^ L) := by push_cast; ring
  rw [this, hc_neg]

open Classical in
/-- the level computed by `partitioningBaseLevel` in exact arithmetic (0 if it does not end) -/
noncomputable def hpbl (r s R : ℝ) : ℕ := if h : ∃ L : ℕ, hc r s (π / 2 ^ L) ≤ cosh R then Nat.find h else 0

theorem pbl_XR_iff {r s R : ℝ} (hR : 0 ≤ R) (l : ℕ) :
    RadiusLayer.partitioningBaseLevel (XR.fin r) (XR.fin s) (XR.fin R) = some l ↔
      hc r s (π / 2 ^ l) ≤ cosh R ∧ ∀ k, k < l → cosh R < hc r s (π / 2 ^ k) := by
  classical
  have e : ∀ L, RadiusLayer.pblCond (XR.fin r) (XR.fin s) (XR.fin R) L = false ↔ hc r s (π / 2 ^ L) ≤ cosh R := by
    intro L
    rw [pblCond_XR hR, decide_eq_false_iff_not, not_lt]
  unfold RadiusLayer.partitioningBaseLevel
  by_cases h : ∃ L, RadiusLayer.pblCond (XR.fin r) (XR.fin s) (XR.fin R) L = false
  · rw [dif_pos h, Option.some.injEq, Nat.find_eq_iff, e]
    refine and_congr_right fun _ => forall₂_congr fun k _ => ?_
    rw [e, not_le]
  · rw [dif_neg h]
    refine ⟨fun h => by simp at h, fun h' => absurd ⟨l, (e l).2 h'.1⟩ h⟩

theorem hpbl_spec {r s R : ℝ} (h : ∃ L : ℕ, hc r s (π / 2 ^ L) ≤ cosh R) :
    hc r s (π / 2 ^ hpbl r s R) ≤ cosh R ∧ ∀ k, k < hpbl r s R → cosh R < hc r s (π / 2 ^ k) := by
  classical
  unfold hpbl
  rw [dif_pos h]
  exact ⟨Nat.find_spec h, fun k hk => not_le.1 (Nat.find_min h hk)⟩

theorem pbl_XR {r s R : ℝ} (hR : 0 ≤ R) (h : ∃ L : ℕ, hc r s (π / 2 ^ L) ≤ cosh R) :
    RadiusLayer.partitioningBaseLevel (XR.fin r) (XR.fin s) (XR.fin R) = some (hpbl r s R) :=
  (pbl_XR_iff hR _).2 (hpbl_spec h)

theorem hpbl_pos_lt {r s R : ℝ} {k : ℕ} (hk : k < hpbl r s R) : cosh R < hc r s (π / 2 ^ k) := by
  by_cases h : ∃ L : ℕ, hc r s (π / 2 ^ L) ≤ cosh R
  · exact (hpbl_spec h).2 k hk
  · unfold hpbl at hk; rw [dif_neg h] at hk; omega

theorem le_hpbl {r s R : ℝ} (h : ∃ L : ℕ, hc r s (π / 2 ^ L) ≤ cosh R) {l : ℕ} (hl : ∀ k, k < l → cosh R < hc r s (π / 2 ^ k)) :
    l ≤ hpbl r s R := by
  by_contra hn
  have := hl _ (not_le.1 hn)
  have := (hpbl_spec h).1
  linarith

theorem hpbl_symm (r s R : ℝ) : hpbl r s R = hpbl s r R := by
  have key : ∀ r s : ℝ, hpbl r s R ≤ hpbl s r R := by
    intro r s
    by_cases h : ∃ L : ℕ, hc s r (π / 2 ^ L) ≤ cosh R
    · refine le_hpbl h fun k hk => ?_
      rw [hc_symm]; exact hpbl_pos_lt hk
    · have h' : ¬∃ L : ℕ, hc r s (π / 2 ^ L) ≤ cosh R := by simpa only [hc_symm r s] using h
      unfold hpbl; rw [dif_neg h, dif_neg h']
  exact le_antisymm (key r s) (key s r)

/-- exact: the lower radial bounds of the layers -/
theorem radMin_gt {R : ℝ} {i : ℕ} (h : i < ⌈R⌉.toNat) : (i : ℝ) < R := by
  by_contra hn
  have : ⌈R⌉ ≤ (i : ℤ) := Int.ceil_le.2 (by exact_mod_cast not_lt.1 hn)
  omega

theorem layers_sub {R : ℝ} {i j : ℕ} (hi : i < ⌈R⌉.toNat) (hj : j < ⌈R⌉.toNat) : |(R - i - 1) - (R - j - 1)| < R := by
  have := radMin_gt hi
  have := radMin_gt hj
  have h1 : (0 : ℝ) ≤ i := Nat.cast_nonneg _
  have h2 : (0 : ℝ) ≤ j := Nat.cast_nonneg _
  rw [abs_lt]; constructor <;> linarith

/-- the disk radii for which comparison levels are meaningful -/
theorem disk_ceil {R : ℝ} (hR : (2 / 3 ≤ R ∧ R ≤ 1) ∨ (4 / 3 ≤ R ∧ R ≤ 165 / 4)) : (⌈R⌉ : ℝ) ≤ 3 / 2 * R := by
  rcases hR with ⟨h1, h2⟩ | ⟨h1, h2⟩
  · have : ⌈R⌉ ≤ 1 := Int.ceil_le.2 (by exact_mod_cast h2)
    have : (⌈R⌉ : ℝ) ≤ 1 := by exact_mod_cast this
    linarith
  · rcases le_total R 2 with h3 | h3
    · have : ⌈R⌉ ≤ 2 := Int.ceil_le.2 (by exact_mod_cast h3)
      have : (⌈R⌉ : ℝ) ≤ 2 := by exact_mod_cast this
      linarith
    · have := Int.ceil_lt_add_one R
      linarith

/-- a positive comparison level means that both layers have positive inner radius -/
theorem layers_pos {R : ℝ} (hR : (⌈R⌉ : ℝ) ≤ 3 / 2 * R) {i j : ℕ} (hi : i < ⌈R⌉.toNat) (hj : j < ⌈R⌉.toNat) {φ : ℝ}
    (h : cosh R < hc (R - i - 1) (R - j - 1) φ) : 0 < R - i - 1 ∧ 0 < R - j - 1 := by
  have hs := sinh_mul_pos_of_hc (layers_sub hi hj).le h
  rcases mul_pos_iff.1 hs with ⟨h1, h2⟩ | ⟨h1, h2⟩
  · exact ⟨sinh_pos_iff.1 h1, sinh_pos_iff.1 h2⟩
  · exfalso
    rw [sinh_neg_iff] at h1 h2
    have key : ∀ k : ℕ, k < ⌈R⌉.toNat → R - k - 1 < 0 → k = ⌈R⌉.toNat - 1 := by
      intro k hk hlt
      have : R ≤ ((k + 1 : ℤ) : ℝ) := by push_cast; linarith
      have := Int.ceil_le.2 this
      omega
    have e : i = j := by rw [key i hi h1, key j hj h2]
    subst e
    have h3 : hc (R - i - 1) (R - i - 1) φ ≤ cosh R := by
      refine hc_self_le.trans (cosh_le_cosh.2 ?_)
      have hi' := radMin_gt hi
      have hR0 : 0 < R := lt_of_le_of_lt (Nat.cast_nonneg _) hi'
      rw [abs_of_neg (by linarith), abs_of_pos hR0]
      have : ((i : ℤ) + 1 : ℤ) = ⌈R⌉ := by have := key i hi h1; omega
      have : ((i : ℝ) + 1) = (⌈R⌉ : ℝ) := by rw [← this]; push_cast; rfl
      linarith
    linarith

theorem pbl_le {R : ℝ} (hR : (⌈R⌉ : ℝ) ≤ 3 / 2 * R) {i i' j j' : ℕ} (hi : i < ⌈R⌉.toNat) (hj : j < ⌈R⌉.toNat)
    (hii : i' ≤ i) (hjj : j' ≤ j) :
    hpbl (R - i - 1) (R - j - 1) R ≤ hpbl (R - i' - 1) (R - j' - 1) R := by
  refine le_hpbl (hc_exists (layers_sub (by omega) (by omega))) ?_
  intro k hk
  have h := hpbl_pos_lt hk
  obtain ⟨h1, h2⟩ := layers_pos hR hi hj h
  have c1 : (i' : ℝ) ≤ i := by exact_mod_cast hii
  have c2 : (j' : ℝ) ≤ j := by exact_mod_cast hjj
  have c3 : (0 : ℝ) ≤ i' := Nat.cast_nonneg _
  have c4 : (0 : ℝ) ≤ j' := Nat.cast_nonneg _
  exact hc_mono h1 (by linarith) (by linarith) h2 (by linarith) (by linarith) h

theorem coshdiff {R c : ℝ} (E : ℝ) (hE : E = Real.exp 1) (e1 : E - 1 ≤ (1 - E⁻¹ - 2 * c) * Real.exp R ^ 2) :
    c * Real.exp R ≤ Real.cosh R - Real.cosh (R - 1) := by
  have hX : 0 < Real.exp R := Real.exp_pos R
  rw [Real.cosh_eq, Real.cosh_eq, Real.exp_sub, Real.exp_neg, show -(R - 1) = 1 - R by ring, Real.exp_sub, ← hE]
  have h2 : (E - 1) / Real.exp R ≤ (1 - E⁻¹ - 2 * c) * Real.exp R := by
    rw [div_le_iff₀ hX]; rw [mul_assoc, ← sq]; exact e1
  have h3 : (E - 1) / Real.exp R = E / Real.exp R - (Real.exp R)⁻¹ := by field_simp
  have h4 : Real.exp R / E = E⁻¹ * Real.exp R := by rw [mul_comm]; rfl
  rw [h3] at h2
  rw [h4]
  nlinarith

/-- the number of cells on the target level of a layer -/
theorem two_pow_level_sq {R : ℝ} (hR : (⌈R⌉ : ℝ) ≤ 3 / 2 * R) {k : ℕ} (hk : k < ⌈R⌉.toNat) (ht : 1 ≤ hpbl (R - k - 1) (R - 1) R)
    {c : ℝ} (hc0 : 0 < c) (hcR : 1 < R → c * Real.exp R ≤ Real.cosh R - Real.cosh (R - 1)) :
    0 < R - k - 1 ∧ ((2 : ℝ) ^ hpbl (R - k - 1) (R - 1) R) ^ 2 * c < π ^ 2 / 2 * Real.exp (R - 2 - k) := by
  obtain ⟨t, e⟩ : ∃ t, hpbl (R - k - 1) (R - 1) R = t + 1 := ⟨_, (Nat.succ_pred_eq_of_pos ht).symm⟩
  have h := hpbl_pos_lt (show t < hpbl (R - k - 1) (R - 1) R by omega)
  have h' : Real.cosh R < hc (R - k - 1) (R - (0 : ℕ) - 1) (π / 2 ^ t) := by simpa using h
  obtain ⟨h1, h2⟩ := layers_pos hR hk (show 0 < ⌈R⌉.toNat by omega) h'
  refine ⟨h1, ?_⟩
  rw [e]
  simp only [Nat.cast_zero, sub_zero] at h2
  unfold hc at h
  have hk0 : (0 : ℝ) ≤ k := Nat.cast_nonneg _
  have hcosh : Real.cosh (R - k - 1 - (R - 1)) ≤ Real.cosh (R - 1) := by
    apply Real.cosh_le_cosh.2
    rw [abs_of_pos h2, abs_le]; constructor <;> linarith
  have hcos := Real.one_sub_sq_div_two_le_cos (x := π / 2 ^ t)
  have hs1 : Real.sinh (R - k - 1) ≤ Real.exp (R - k - 1) / 2 := by
    rw [Real.sinh_eq]; linarith [Real.exp_pos (-(R - k - 1))]
  have hs2 : Real.sinh (R - 1) ≤ Real.exp (R - 1) / 2 := by
    rw [Real.sinh_eq]; linarith [Real.exp_pos (-(R - 1))]
  have hp1 : 0 < Real.sinh (R - k - 1) := Real.sinh_pos_iff.2 h1
  have hp2 : 0 < Real.sinh (R - 1) := Real.sinh_pos_iff.2 h2
  have hss : Real.sinh (R - k - 1) * Real.sinh (R - 1) ≤ Real.exp (R - 2 - k) * Real.exp R / 4 := by
    have := mul_le_mul hs1 hs2 hp2.le (by positivity)
    have e2 : Real.exp (R - k - 1) / 2 * (Real.exp (R - 1) / 2) = Real.exp (R - 2 - k) * Real.exp R / 4 := by
      rw [← Real.exp_add, div_mul_div_comm, ← Real.exp_add]; congr 2 <;> ring_nf
    linarith
  have hφ : (1 - Real.cos (π / 2 ^ t)) ≤ (π / 2 ^ t) ^ 2 / 2 := by linarith
  have hprod : (1 - Real.cos (π / 2 ^ t)) * (Real.sinh (R - k - 1) * Real.sinh (R - 1)) ≤
      (π / 2 ^ t) ^ 2 / 2 * (Real.exp (R - 2 - k) * Real.exp R / 4) :=
    mul_le_mul hφ hss (mul_pos hp1 hp2).le (by positivity)
  have hlt : c * Real.exp R < (π / 2 ^ t) ^ 2 / 2 * (Real.exp (R - 2 - k) * Real.exp R / 4) := by
    have := hcR (by linarith)
    rw [mul_assoc] at h
    linarith
  have hX := Real.exp_pos R
  have h5 : c < (π / 2 ^ t) ^ 2 / 2 * Real.exp (R - 2 - k) / 4 := by
    by_contra hn
    have := mul_le_mul_of_nonneg_right (not_lt.1 hn) hX.le
    linarith
  have hp : (0 : ℝ) < 2 ^ t := by positivity
  have h6 : ((2 : ℝ) ^ (t + 1)) ^ 2 * c < ((2 : ℝ) ^ (t + 1)) ^ 2 * ((π / 2 ^ t) ^ 2 / 2 * Real.exp (R - 2 - k) / 4) :=
    mul_lt_mul_of_pos_left h5 (by positivity)
  refine h6.trans_eq ?_
  rw [pow_succ]; field_simp; ring

/-- in every layer the number of cells is at most `1 + 4.06 * exp(19 - k/2)` for disk radii up to 40 -/
theorem two_pow_level_le {R : ℝ} (hR : (⌈R⌉ : ℝ) ≤ 3 / 2 * R) (h40 : R ≤ 40) {k : ℕ} (hk : k < ⌈R⌉.toNat) :
    (2 : ℝ) ^ hpbl (R - k - 1) (R - 1) R ≤ 1 + 4.06 * Real.exp 19 * Real.exp (-(1 / 2)) ^ k := by
  have hk0 : (0 : ℝ) ≤ k := Nat.cast_nonneg _
  have eE : Real.exp (-(1 / 2)) ^ k = Real.exp (-(k / 2)) := by rw [← Real.exp_nat_mul]; ring_nf
  have hpos : 0 < 4.06 * Real.exp 19 * Real.exp (-(1 / 2)) ^ k := by positivity
  rcases Nat.eq_zero_or_pos (hpbl (R - k - 1) (R - 1) R) with h0 | h0
  · rw [h0, pow_zero]; linarith
  set t := hpbl (R - k - 1) (R - 1) R with ht
  have hpi := Real.pi_lt_d4
  have hpi0 := Real.pi_pos
  have hpi2 : π ^ 2 < 9.8702 := by nlinarith
  have hE1 := Real.exp_one_gt_d9
  have hE2 := Real.exp_one_lt_d9
  have hEi : (Real.exp 1)⁻¹ ≤ 0.36788 := by
    rw [inv_le_comm₀ (Real.exp_pos 1) (by norm_num)]
    refine le_trans ?_ hE1.le
    norm_num
  rw [eE, mul_assoc, ← Real.exp_add]
  rcases le_total 2 R with h2 | h2
  · have hcd : 1 < R → 0.3 * Real.exp R ≤ Real.cosh R - Real.cosh (R - 1) := fun _ => by
      apply coshdiff _ rfl
      have h3 : Real.exp 1 ^ 2 ≤ Real.exp R := by rw [← Real.exp_nat_mul]; exact Real.exp_le_exp.2 (by push_cast; linarith)
      have h4 : (54.59 : ℝ) ≤ Real.exp R ^ 2 := by
        have h7 : (2.7182818283 : ℝ) ^ 2 ≤ Real.exp 1 ^ 2 := pow_le_pow_left₀ (by norm_num) hE1.le 2
        have h8 : ((2.7182818283 : ℝ) ^ 2) ^ 2 ≤ Real.exp R ^ 2 := pow_le_pow_left₀ (by positivity) (h7.trans h3) 2
        refine le_trans (by norm_num) h8
      have h9 : (0.03212 : ℝ) ≤ 1 - (Real.exp 1)⁻¹ - 2 * 0.3 := by linarith
      have := mul_le_mul h9 h4 (by norm_num) (by linarith)
      refine le_trans ?_ this
      refine le_trans (sub_le_sub_right hE2.le 1) (by norm_num)
    obtain ⟨h1, hsq⟩ := two_pow_level_sq hR hk h0 (by norm_num) hcd
    rw [← ht] at hsq
    have h5 : ((2 : ℝ) ^ t) ^ 2 ≤ (4.06 * Real.exp ((R - 2 - k) / 2)) ^ 2 := by
      rw [mul_pow, ← Real.exp_nat_mul]
      have : ((2 : ℕ) : ℝ) * ((R - 2 - k) / 2) = R - 2 - k := by push_cast; ring
      rw [this]
      have := Real.exp_pos (R - 2 - k)
      nlinarith
    have h6 : (2 : ℝ) ^ t ≤ 4.06 * Real.exp ((R - 2 - k) / 2) := le_of_sq_le_sq h5 (by positivity)
    have h7 : Real.exp ((R - 2 - k) / 2) ≤ Real.exp (19 + -(k / 2)) := Real.exp_le_exp.2 (by linarith)
    linarith
  · have hcd : 1 < R → 0.19 * Real.exp R ≤ Real.cosh R - Real.cosh (R - 1) := fun h1 => by
      apply coshdiff _ rfl
      have h3 : Real.exp 1 ≤ Real.exp R := Real.exp_le_exp.2 h1.le
      have h4 : (7.389 : ℝ) ≤ Real.exp R ^ 2 := by
        have h8 : ((2.7182818283 : ℝ)) ^ 2 ≤ Real.exp R ^ 2 := pow_le_pow_left₀ (by positivity) (hE1.le.trans h3) 2
        refine le_trans (by norm_num) h8
      have h9 : (0.25212 : ℝ) ≤ 1 - (Real.exp 1)⁻¹ - 2 * 0.19 := by linarith
      have := mul_le_mul h9 h4 (by norm_num) (by linarith)
      refine le_trans ?_ this
      refine le_trans (sub_le_sub_right hE2.le 1) (by norm_num)
    obtain ⟨h1, hsq⟩ := two_pow_level_sq hR hk h0 (by norm_num) hcd
    rw [← ht] at hsq
    have h5 : Real.exp (R - 2 - k) ≤ 1 := Real.exp_le_one_iff.2 (by linarith)
    have h6 : ((2 : ℝ) ^ t) ^ 2 ≤ 6 ^ 2 := by nlinarith
    have h7 : (2 : ℝ) ^ t ≤ 6 := le_of_sq_le_sq h6 (by norm_num)
    have hk1 : (k : ℝ) < 1 := by linarith
    have h8 : (18 : ℝ) + 1 ≤ Real.exp (19 + -(k / 2)) := by
      refine le_trans ?_ (Real.add_one_le_exp _)
      linarith
    linarith

end Girgs
