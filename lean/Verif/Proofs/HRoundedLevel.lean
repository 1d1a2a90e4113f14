import Verif.Proofs.HRoundedDist
import Verif.Proofs.HConstructXR
/-!
`partitioningBaseLevel` in floating point arithmetic.
-/
namespace Girgs
open Real Spec CFloat HBuild

variable {F : Type} [CFloat F] {u lam eps p : ℝ} {A : Rounded F u lam}

/-- a disk radius in floating point arithmetic -/
structure RDisk (A : Rounded F u lam) (eps p : ℝ) (Rf : F) (R : ℝ) : Prop where
  elem : RoundedElem A eps p
  hu : u ≤ 1 / 2 ^ 52
  he : eps ≤ 1 / 2 ^ 50
  val : A.val Rf = some R
  ceil : (⌈R⌉ : ℝ) ≤ 29 / 20 * R
  le34 : R ≤ 34
  pos : 0 < R

variable {Rf : F} {R : ℝ}

theorem cosh_quad (x : ℝ) : 1 + x ^ 2 / 2 ≤ cosh x := by
  have h : cosh x = 1 + 2 * sinh (x / 2) ^ 2 := by
    have := cosh_two_mul (x / 2)
    rw [show 2 * (x / 2) = x by ring] at this
    rw [this, cosh_sq]; ring
  have h2 : (x / 2) ^ 2 ≤ sinh (x / 2) ^ 2 := by
    rw [← sq_abs (x / 2), ← sq_abs (sinh (x / 2)), abs_sinh]
    exact pow_le_pow_left₀ (abs_nonneg _) (self_le_sinh_iff.2 (abs_nonneg _)) 2
  rw [h]; nlinarith

theorem tau_small : tau ≤ 1 / 2 ^ 60 := by
  have h5 := tau_le (k := 0) (by norm_num)
  have h6 : (1 : ℝ) / 2 ^ (1021 - 0) ≤ 1 / 2 ^ 60 := by
    apply one_div_le_one_div_of_le (by positivity); exact pow_le_pow_right₀ (by norm_num) (by norm_num)
  have h7 := h5.trans h6
  rwa [pow_zero, mul_one] at h7

namespace RDisk
variable (D : RDisk A eps p Rf R)
include D

theorem ge : 20 / 29 ≤ R := by
  have h1 : 1 ≤ ⌈R⌉ := Int.ceil_pos.2 D.pos
  have h2 : (1 : ℝ) ≤ (⌈R⌉ : ℝ) := by exact_mod_cast h1
  have := D.ceil
  linarith

theorem ceil32 : (⌈R⌉ : ℝ) ≤ 3 / 2 * R := by have := D.ceil; have := D.pos; linarith

theorem idx {l : ℕ} (h : l < ⌈R⌉.toNat) : (l : ℝ) < R ∧ (l : ℝ) + 1 ≤ 29 / 20 * R := by
  refine ⟨radMin_gt h, ?_⟩
  have h1 : (l : ℤ) + 1 ≤ ⌈R⌉ := by omega
  have h2 : (l : ℝ) + 1 ≤ (⌈R⌉ : ℝ) := by exact_mod_cast h1
  exact h2.trans D.ceil

theorem rep : A.rnd R = R := A.rep _ _ D.val

theorem abs_rho {l : ℕ} (h : l < ⌈R⌉.toNat) : |R - l - 1| ≤ R ∧ |R - l - 1| ≤ 34 := by
  obtain ⟨h1, h2⟩ := D.idx h
  have h3 := D.pos
  have h4 := D.le34
  have h5 : (0 : ℝ) ≤ l := Nat.cast_nonneg _
  have : |R - l - 1| ≤ R := by rw [abs_le]; constructor <;> linarith
  exact ⟨this, this.trans h4⟩

theorem radMin_val {l : ℕ} (h : l < ⌈R⌉.toNat) : A.val (radMin Rf l) = some (R - l - 1) := by
  obtain ⟨h1, h2⟩ := D.idx h
  have h3 := D.pos
  have h4 := D.le34
  have h5 : (0 : ℝ) ≤ l := Nat.cast_nonneg _
  have h6 := D.abs_rho h
  have hl : l ≤ 34 := by
    have : (l : ℝ) < 34 := by linarith
    have : l < 34 := by exact_mod_cast this
    omega
  have vl := A.val_ofNat (F := F) l (by omega)
  have big : ∀ x : ℝ, |x| ≤ 100 → |x| ≤ 2 ^ 1023 := fun x hx => two_pow_1023 (k := 7) (by norm_num) (hx.trans (by norm_num))
  have vm := A.mul _ _ _ _ vl A.val_one (by rw [mul_one, abs_of_nonneg h5]; exact (le_abs_self _).trans (big _ (by rw [abs_of_nonneg h5]; linarith)))
  rw [mul_one, A.rep _ _ vl] at vm
  have v1 := A.sub _ _ _ _ D.val vm (big _ (by rw [abs_le]; constructor <;> linarith))
  rw [D.elem.subNat R l D.rep (by rw [abs_of_pos h3, abs_of_pos (by linarith)]; linarith) (by rw [abs_of_pos h3]; norm_num; linarith)] at v1
  have v2 := A.sub _ _ _ _ v1 A.val_one (big _ (by linarith [h6.2]))
  have e := D.elem.subNat R (l + 1) D.rep (by push_cast; rw [abs_of_pos h3, show R - ((l : ℝ) + 1) = R - l - 1 by ring]; exact h6.1)
    (by rw [abs_of_pos h3]; norm_num; linarith)
  push_cast at e
  rw [show R - ((l : ℝ) + 1) = R - l - 1 by ring] at e
  rw [e] at v2
  exact v2

/-- `R - 1` -/
theorem sub_one_val : A.val (Rf -. ofRat 1) = some (R - (0 : ℕ) - 1) := by
  have h3 := D.pos
  have h4 := D.le34
  have hg := D.ge
  have v2 := A.sub _ _ _ _ D.val A.val_one (two_pow_1023 (k := 7) (by norm_num) (by rw [abs_le]; constructor <;> norm_num <;> linarith))
  have e := D.elem.subNat R 1 D.rep (by push_cast; rw [abs_of_pos h3, abs_le]; constructor <;> linarith)
    (by rw [abs_of_pos h3]; norm_num; linarith)
  push_cast at e
  rw [e] at v2
  rw [v2]; congr 1; push_cast; ring

theorem p_pos : 3 ≤ p ∧ p ≤ 4 := by
  have h1 := D.elem.pi_err
  have h2 := Real.pi_gt_d2
  have h3 := Real.pi_lt_d2
  have h4 := D.hu
  norm_num at h4
  rw [abs_le] at h1
  constructor <;> linarith

theorem diam_val (L : ℕ) (hL : L ≤ 200) : A.val (RadiusLayer.cellDiameter L : F) = some (2 * p / 2 ^ L) := by
  obtain ⟨h3, h4⟩ := D.p_pos
  have v2 : A.val (ofRat 2 : F) = some 2 := by
    have := A.val_ofRat_int (F := F) 2 (by norm_num)
    simpa using this
  induction L with
  | zero =>
    unfold RadiusLayer.cellDiameter
    have := A.mul _ _ _ _ v2 D.elem.pi (two_pow_1023 (k := 4) (by norm_num) (by rw [abs_of_pos (by linarith)]; norm_num; linarith))
    have e := A.scale p (A.rep _ _ D.elem.pi) 1
    rw [pow_one, mul_comm] at e
    rw [e] at this
    simpa using this
  | succ L ih =>
    have ih := ih (by omega)
    unfold RadiusLayer.cellDiameter
    have hpow : (1 : ℝ) ≤ 2 ^ L := one_le_pow₀ (by norm_num)
    have hx0 : 0 < 2 * p / 2 ^ L := by positivity
    have hx1 : 2 * p / 2 ^ L ≤ 8 := (div_le_self (by linarith) hpow).trans (by linarith)
    have := A.div _ _ _ _ ih v2 (by norm_num) (two_pow_1023 (k := 4) (by norm_num) (by rw [abs_of_pos (by linarith)]; norm_num; linarith))
    rw [D.elem.half _ (A.rep _ _ ih) ?_] at this
    · rw [this, pow_succ, ← div_div]
    · rw [abs_of_pos hx0]
      have : (2 : ℝ) ^ (-1000 : ℤ) ≤ 1 / 2 ^ 200 := by
        rw [zpow_neg, ← one_div]
        apply one_div_le_one_div_of_le (by positivity)
        exact_mod_cast pow_le_pow_right₀ (by norm_num : (1 : ℝ) ≤ 2) (by norm_num : 200 ≤ 1000)
      refine this.trans ?_
      have h5 : (2 : ℝ) ^ L ≤ 2 ^ 200 := pow_le_pow_right₀ (by norm_num) (by omega)
      exact div_le_div₀ (by linarith) (by linarith) (by positivity) h5

theorem halfDiam_val (L : ℕ) (hL : L ≤ 100) : A.val (RadiusLayer.cellDiameter L /. ofRat 2 : F) = some (p / 2 ^ L) := by
  have h := D.diam_val (L + 1) (by omega)
  unfold RadiusLayer.cellDiameter at h
  rw [h, pow_succ]
  congr 1; field_simp

theorem cos_err (L : ℕ) : |cos (p / 2 ^ L) - cos (π / 2 ^ L)| ≤ 1 / 2 ^ 50 := by
  have h1 := Real.abs_cos_sub_cos_le (p / 2 ^ L) (π / 2 ^ L)
  refine h1.trans ?_
  rw [← sub_div, abs_div, abs_of_pos (show (0 : ℝ) < 2 ^ L by positivity)]
  refine (div_le_self (abs_nonneg _) (one_le_pow₀ (by norm_num))).trans ?_
  refine D.elem.pi_err.trans ?_
  have := D.hu
  norm_num at this ⊢; linarith

theorem cmp_true {m d : ℝ} (hd : |d - arcosh (max 1 m)| ≤ eps * arcosh (max 1 m) + tau) (h : R < d) : cosh R * (1 - 1 / 2 ^ 44) < m := by
  have hR := D.le34
  have hg := D.ge
  have he := D.he
  have he0 := D.elem.eps_nonneg
  have ht := tau_small
  have h1 : 1 ≤ max 1 m := le_max_left _ _
  have ha := arcosh_nonneg h1
  have h2 : R - 1 / 2 ^ 44 < arcosh (max 1 m) := by
    by_contra hc
    rw [not_lt] at hc
    have h3 := (abs_le.1 hd).2
    have h4 : eps * arcosh (max 1 m) ≤ 1 / 2 ^ 50 * 34 := mul_le_mul he (hc.trans (by norm_num; linarith)) ha (by norm_num)
    norm_num at *
    linarith
  have h3 : Real.cosh (R - 1 / 2 ^ 44) < max 1 m := by
    have h4 := Real.cosh_lt_cosh.2 (show |R - 1 / 2 ^ 44| < |arcosh (max 1 m)| by
      rw [abs_of_nonneg ha, abs_of_pos (by norm_num; linarith)]; exact h2)
    rwa [cosh_arcosh h1] at h4
  have h4 : Real.cosh R * (1 - 1 / 2 ^ 44) ≤ Real.cosh (R - 1 / 2 ^ 44) := by
    rw [cosh_eq R, cosh_eq (R - 1 / 2 ^ 44), Real.exp_sub, show -(R - 1 / 2 ^ 44) = -R + 1 / 2 ^ 44 by ring, Real.exp_add]
    have e1 : 1 - 1 / 2 ^ 44 ≤ Real.exp (-(1 / 2 ^ 44)) := by have := Real.add_one_le_exp (-(1 / 2 ^ 44) : ℝ); linarith
    have e2 : 1 ≤ Real.exp (1 / 2 ^ 44 : ℝ) := Real.one_le_exp (by positivity)
    have e3 : Real.exp R / Real.exp (1 / 2 ^ 44) = Real.exp R * Real.exp (-(1 / 2 ^ 44)) := by rw [Real.exp_neg]; rfl
    rw [e3]
    have p1 := Real.exp_pos R
    have p2 := Real.exp_pos (-R)
    have q1 := mul_le_mul_of_nonneg_left e1 p1.le
    have q2 := mul_le_mul_of_nonneg_left e2 p2.le
    have q3 : Real.exp (-R) * (1 - 1 / 2 ^ 44) ≤ Real.exp (-R) * 1 := mul_le_mul_of_nonneg_left (by norm_num) p2.le
    linarith
  have h5 := cosh_quad R
  have h6 : 1 < Real.cosh R * (1 - 1 / 2 ^ 44) := by
    have : 1.2 ≤ Real.cosh R := by nlinarith
    norm_num; linarith
  have h7 := lt_of_le_of_lt h4 h3
  rcases le_total m 1 with hm | hm
  · rw [max_eq_left hm] at h7; linarith
  · rwa [max_eq_right hm] at h7

theorem cmp_gt {m d : ℝ} (hd : |d - arcosh (max 1 m)| ≤ eps * arcosh (max 1 m) + tau) (h : Real.cosh R * (1 + 1 / 2 ^ 43) ≤ m) : R < d := by
  have hR := D.le34
  have hg := D.ge
  have he := D.he
  have he0 := D.elem.eps_nonneg
  have ht := tau_small
  have h1 : 1 ≤ max 1 m := le_max_left _ _
  have ha := arcosh_nonneg h1
  have h4 : Real.cosh (R + 1 / 2 ^ 44) ≤ Real.cosh R * (1 + 1 / 2 ^ 43) := by
    rw [cosh_eq R, cosh_eq (R + 1 / 2 ^ 44), Real.exp_add, show -(R + 1 / 2 ^ 44) = -R + -(1 / 2 ^ 44) by ring, Real.exp_add]
    have e1 : Real.exp (1 / 2 ^ 44) ≤ 1 + 1 / 2 ^ 43 := by
      have := Real.add_one_le_exp (-(1 / 2 ^ 44) : ℝ)
      rw [Real.exp_neg] at this
      have e2 := Real.exp_pos (1 / 2 ^ 44 : ℝ)
      have e3 : Real.exp (1 / 2 ^ 44) * (-(1 / 2 ^ 44) + 1) ≤ 1 := by
        have := mul_le_mul_of_nonneg_left this e2.le
        rwa [mul_inv_cancel₀ e2.ne'] at this
      norm_num at e3 ⊢
      nlinarith
    have e2 : Real.exp (-(1 / 2 ^ 44) : ℝ) ≤ 1 := Real.exp_le_one_iff.2 (by norm_num)
    have p1 := Real.exp_pos R
    have p2 := Real.exp_pos (-R)
    have q1 := mul_le_mul_of_nonneg_left e1 p1.le
    have q2 := mul_le_mul_of_nonneg_left e2 p2.le
    have q3 : Real.exp (-R) * 1 ≤ Real.exp (-R) * (1 + 1 / 2 ^ 43) := mul_le_mul_of_nonneg_left (by norm_num) p2.le
    linarith
  have h5 : R + 1 / 2 ^ 44 ≤ arcosh (max 1 m) := by
    by_contra hc
    rw [not_le] at hc
    have h6 := Real.cosh_lt_cosh.2 (show |arcosh (max 1 m)| < |R + 1 / 2 ^ 44| by
      rw [abs_of_nonneg ha, abs_of_pos (by norm_num; linarith)]; exact hc)
    rw [cosh_arcosh h1] at h6
    have := le_max_right 1 m
    linarith
  have h3 := (abs_le.1 hd).1
  have h6 : (R + 1 / 2 ^ 44) * (1 - eps) ≤ arcosh (max 1 m) * (1 - eps) := mul_le_mul_of_nonneg_right h5 (by norm_num at he ⊢; linarith)
  have h7 : eps * (R + 1 / 2 ^ 44) ≤ 1 / 2 ^ 50 * 35 := mul_le_mul he (by norm_num; linarith) (by norm_num; linarith) (by norm_num)
  norm_num at *
  linarith

theorem rep_sub {i j : ℕ} (hi : i < ⌈R⌉.toNat) (hj : j < ⌈R⌉.toNat) :
    A.rnd ((R - i - 1) - (R - j - 1)) = (R - i - 1) - (R - j - 1) := by
  have hi' := (D.idx hi).1
  have hj' := (D.idx hj).1
  have h4 := D.le34
  have : i < 34 := by exact_mod_cast (show (i : ℝ) < 34 by linarith)
  have : j < 34 := by exact_mod_cast (show (j : ℝ) < 34 by linarith)
  have := A.int ((j : ℤ) - i) (by rw [abs_le]; constructor <;> norm_num <;> omega)
  push_cast at this
  rw [show (R - i - 1) - (R - j - 1) = (j : ℝ) - i by ring]
  exact this

omit D in
/-- the computed value of `1 - cos(π / 2^L)` -/
def vF (F : Type) [CFloat F] (L : ℕ) : F := ofRat 1 -. CFloat.cos (ofRat 0 -. RadiusLayer.cellDiameter L /. ofRat 2)

/-- the comparison of `partitioningBaseLevel` -/
theorem cond_spec {i j L : ℕ} (hi : i < ⌈R⌉.toNat) (hj : j < ⌈R⌉.toNat) (hL : L ≤ 100) {a b : F} (ha : A.val a = some (R - i - 1))
    (hb : A.val b = some (R - j - 1)) :
    ∃ v m, A.val (vF F L) = some v ∧ |v - (1 - cos (π / 2 ^ L))| ≤ 1 / 2 ^ 48 ∧
      |m - (cosh ((R - i - 1) - (R - j - 1)) + v * (sinh (R - i - 1) * sinh (R - j - 1)))| ≤
        1 / 2 ^ 47 * (cosh ((R - i - 1) - (R - j - 1)) + |v * (sinh (R - i - 1) * sinh (R - j - 1))|) + 1 / 2 ^ 800 ∧
      (RadiusLayer.pblCond a b Rf L = true → Real.cosh R * (1 - 1 / 2 ^ 44) < m) ∧
      (Real.cosh R * (1 + 1 / 2 ^ 43) ≤ m → RadiusLayer.pblCond a b Rf L = true) := by
  have hpow : (1 : ℝ) ≤ 2 ^ L := one_le_pow₀ (by norm_num)
  obtain ⟨p3, p4⟩ := D.p_pos
  have hp0 : 0 < p / 2 ^ L := by positivity
  have hint := D.rep_sub hi hj
  obtain ⟨v, m, d, h1, h2, h3, h4, h5, _⟩ := hypDist_val D.elem D.hu D.he ha hb (D.halfDiam_val L hL) (D.abs_rho hi).2 (D.abs_rho hj).2 hint
    (by rw [abs_of_pos hp0]; exact (div_le_self (by linarith) hpow).trans (by linarith))
  refine ⟨v, m, h1, ?_, h5, ?_, ?_⟩
  · have h6 := D.cos_err L
    rw [abs_sub_comm] at h6
    have h7 := abs_add_le (v - (1 - cos (p / 2 ^ L))) (cos (π / 2 ^ L) - cos (p / 2 ^ L))
    rw [show v - (1 - cos (p / 2 ^ L)) + (cos (π / 2 ^ L) - cos (p / 2 ^ L)) = v - (1 - cos (π / 2 ^ L)) by ring] at h7
    norm_num at *
    linarith
  · intro h
    exact D.cmp_true h4 ((A.lt _ _ _ _ D.val h3).1 h)
  · intro h
    exact (A.lt _ _ _ _ D.val h3).2 (D.cmp_gt h4 h)

end RDisk
end Girgs
