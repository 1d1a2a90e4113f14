import Verif.Spec.RoundedEngine
import Verif.Proofs.HSamplers
import Verif.Proofs.HRoundedBuild
import Mathlib.Analysis.SpecialFunctions.Trigonometric.Series
/-!
The samplers of node data in floating point arithmetic.
-/
namespace Girgs
open Spec CFloat

variable {F : Type} [CFloat F] {u lam eps p : ℝ} {A : Rounded F u lam}

theorem Spec.Rounded.rnd_up (A : Rounded F u lam) {x : ℝ} (h : (2 : ℝ) ^ (-1022 : ℤ) ≤ x) : A.rnd x ≤ (1 + u) * x := by
  have h0 : (0 : ℝ) < 2 ^ (-1022 : ℤ) := by positivity
  have := A.rel x (by rw [abs_of_pos (by linarith)]; exact h)
  rw [abs_of_pos (show 0 < x by linarith)] at this
  have := (abs_le.1 this).2
  linarith

theorem cosh_le_sinh {t : ℝ} (h : 1 / 5 ≤ t) : Real.cosh t ≤ 6 * Real.sinh t := by
  have h1 := Real.add_one_le_exp (2 * t)
  have h2 : Real.exp t = Real.exp (-t) * Real.exp (2 * t) := by rw [← Real.exp_add]; congr 1; ring
  have h3 := Real.exp_pos (-t)
  have h4 : Real.exp (-t) * 1.4 ≤ Real.exp t := by rw [h2]; exact mul_le_mul_of_nonneg_left (by linarith) h3.le
  rw [Real.cosh_eq, Real.sinh_eq]
  linarith

/-- the error of `acosh` of a rounded `cosh` -/
theorem arcosh_up {t e z : ℝ} (ht : 1 / 5 ≤ t) (he : 0 ≤ e) (h1 : 1 ≤ z) (h : z ≤ (1 + e) * Real.cosh t) : Real.arcosh z ≤ t + 6 * e := by
  have hle : z ≤ Real.cosh (t + 6 * e) := by
    refine h.trans ?_
    have h2 : Real.cosh t + 6 * e * Real.sinh t ≤ Real.cosh (t + 6 * e) := by
      rw [Real.cosh_add]
      have hs : 0 ≤ Real.sinh t := Real.sinh_nonneg_iff.2 (by linarith)
      have h3 := mul_le_mul_of_nonneg_left (Real.one_le_cosh (6 * e)) (Real.cosh_pos t).le
      have h4 := mul_le_mul_of_nonneg_left (Real.self_le_sinh_iff.2 (show 0 ≤ 6 * e by linarith)) hs
      linarith
    have h3 := mul_le_mul_of_nonneg_left (cosh_le_sinh ht) he
    linarith
  have := (Real.arcosh_le_arcosh (by linarith) (by have := Real.cosh_pos (t + 6 * e); linarith)).2 hle
  rwa [Real.arcosh_cosh (by linarith)] at this

theorem arcosh_low {z : ℝ} (h : 1 + 1 / 2 ^ 54 ≤ z) : 1 / 2 ^ 27 ≤ Real.arcosh z := by
  have hx : (0 : ℝ) ≤ 1 / 2 ^ 27 := by positivity
  have hle : Real.cosh (1 / 2 ^ 27) ≤ z := by
    refine le_trans ?_ h
    have h1 := Real.cosh_le_exp_half_sq (1 / 2 ^ 27)
    have h2 := (abs_le.1 (Real.abs_exp_sub_one_sub_id_le (x := (1 / 2 ^ 27) ^ 2 / 2) (by rw [abs_of_pos (by positivity)]; norm_num))).2
    refine h1.trans ?_
    norm_num at h2 ⊢
    linarith
  have := (Real.arcosh_le_arcosh (by positivity) (by have := Real.cosh_pos (1 / 2 ^ 27); linarith)).2 hle
  rwa [Real.arcosh_cosh hx] at this

/-- real numbers: the upper bound of a sampled radius -/
theorem radius_up {u eps e α R t a w i r : ℝ} (u0 : 0 ≤ u) (hu : u ≤ 1 / 2 ^ 53) (e0 : 0 ≤ eps) (he : eps ≤ 1 / 2 ^ 51) (e1 : 0 ≤ e) (he1 : e ≤ 1 / 2 ^ 50)
    (hα : 1 / 2 ≤ α) (hR0 : 0 ≤ R) (hR : R ≤ 34)
    (ht : t ≤ (1 + u) * (α * R)) (ha : a ≤ t + 6 * e) (hw : w ≤ (1 + eps) * a + 1 / 2 ^ 100) (hw0 : 0 ≤ w)
    (hi : i ≤ (1 + u) * (1 / α)) (hr : r ≤ (1 + u) * (w * i)) : r ≤ R + 1 / 2 ^ 44 := by
  have hαp : 0 < α := by linarith
  have h1 : w ≤ (1 + eps) * ((1 + u) * (α * R) + 6 * e) + 1 / 2 ^ 100 :=
    hw.trans (add_le_add_left (mul_le_mul_of_nonneg_left (by linarith) (by linarith)) _)
  have h2 : w * i ≤ w * ((1 + u) * (1 / α)) := mul_le_mul_of_nonneg_left hi hw0
  have h3 : w * ((1 + u) * (1 / α)) = (1 + u) * (w / α) := by ring
  have h4 : w / α ≤ (1 + eps) * ((1 + u) * R + 12 * e) + 2 / 2 ^ 100 := by
    rw [div_le_iff₀ hαp]
    have k1 : 6 * e ≤ 12 * e * α := by nlinarith
    have k2 : (1 : ℝ) / 2 ^ 100 ≤ 2 / 2 ^ 100 * α := by norm_num; linarith
    have k3 := mul_le_mul_of_nonneg_left k1 (show 0 ≤ 1 + eps by linarith)
    have e' : ((1 + eps) * ((1 + u) * R + 12 * e) + 2 / 2 ^ 100) * α = (1 + eps) * ((1 + u) * (α * R)) + (1 + eps) * (12 * e * α) + 2 / 2 ^ 100 * α := by ring
    have e2 : (1 + eps) * ((1 + u) * (α * R) + 6 * e) = (1 + eps) * ((1 + u) * (α * R)) + (1 + eps) * (6 * e) := by ring
    rw [e']
    rw [e2] at h1
    linarith
  have h5 : r ≤ (1 + u) * ((1 + u) * ((1 + eps) * ((1 + u) * R + 12 * e) + 2 / 2 ^ 100)) := by
    refine hr.trans (mul_le_mul_of_nonneg_left (h2.trans ?_) (by linarith))
    rw [h3]
    exact mul_le_mul_of_nonneg_left h4 (by linarith)
  have hs : (1 + u) * (1 + u) ≤ 1 + 3 / 2 ^ 53 := by
    have := mul_le_mul (show 1 + u ≤ 1 + 1 / 2 ^ 53 by linarith) (show 1 + u ≤ 1 + 1 / 2 ^ 53 by linarith) (by linarith) (by norm_num)
    exact this.trans (by norm_num)
  have g1 : (1 + u) * R ≤ R + 34 / 2 ^ 53 := by
    have := mul_le_mul hu hR hR0 (by norm_num)
    have e' : (1 + u) * R = R + u * R := by ring
    rw [e']; linarith
  have g2 : (1 + eps) * ((1 + u) * R + 12 * e) ≤ R + 34 / 2 ^ 53 + 96 / 2 ^ 53 + 35 / 2 ^ 51 := by
    have k0 : 12 * e ≤ 96 / 2 ^ 53 := by norm_num at he1 ⊢; linarith
    have k1 : (1 + u) * R + 12 * e ≤ R + 34 / 2 ^ 53 + 96 / 2 ^ 53 := by linarith
    have k2 : 0 ≤ (1 + u) * R + 12 * e := by positivity
    have k3 : eps * ((1 + u) * R + 12 * e) ≤ 1 / 2 ^ 51 * 35 := mul_le_mul he (k1.trans (by norm_num; linarith)) k2 (by norm_num)
    have e' : (1 + eps) * ((1 + u) * R + 12 * e) = ((1 + u) * R + 12 * e) + eps * ((1 + u) * R + 12 * e) := by ring
    rw [e']
    norm_num at k1 k3 ⊢
    linarith
  have g3 : 0 ≤ (1 + eps) * ((1 + u) * R + 12 * e) + 2 / 2 ^ 100 := by positivity
  rw [← mul_assoc] at h5
  have g4 := h5.trans (mul_le_mul hs (add_le_add_left g2 (2 / 2 ^ 100)) g3 (by norm_num))
  norm_num at g4 ⊢
  linarith

theorem Spec.Rounded.val_oneUp (A : Rounded F u lam) (hu : u ≤ 1 / 2 ^ 53) :
    ∃ x, A.val (oneUp : F) = some x ∧ 1 + 1 / 2 ^ 54 ≤ x ∧ x ≤ 1 + 1 / 2 ^ 51 := by
  have hu0 := A.u_nonneg
  have v := A.ofRat (1 + 1 / 4503599627370496) (two_pow_1023 (k := 1) (by norm_num) (by push_cast; rw [abs_of_pos (by norm_num)]; norm_num))
  push_cast at v
  have ht : (2 : ℝ) ^ (-1022 : ℤ) ≤ 1 + 1 / 4503599627370496 := tiny_le (k := 0) (by norm_num) (by norm_num)
  have h1 := A.low ht
  have h2 := A.rnd_up ht
  refine ⟨_, v, ?_, ?_⟩
  · generalize A.rnd _ = y at *
    clear ht
    norm_num at h1 hu ⊢
    linarith
  · generalize A.rnd _ = y at *
    clear ht
    norm_num at h2 hu ⊢
    linarith

namespace Spec.RSampler
variable {alf Rf : F} {α R : ℝ} (S : RSampler A eps p alf Rf α R)
include S

/-- the upper end of the interval -/
theorem cosh_val : ∃ t Y, A.val (CFloat.cosh (alf *. Rf)) = some Y ∧ 1 / 5 ≤ t ∧ t ≤ (1 + u) * (α * R) ∧ Y ≤ (1 + eps) * Real.cosh t ∧
    Y ≤ 2 ^ 990 ∧ 1 + 1 / 200 ≤ Y := by
  have hu := S.hu
  have hu0 := A.u_nonneg
  have he := S.he
  have he0 := S.elem.eps_nonneg
  have h1 := S.α_ge
  have h2 := S.α_le
  have h3 := S.R_ge
  have h4 := S.R_le
  have p1 : 1 / 4 ≤ α * R := by nlinarith
  have p2 : α * R ≤ 544 := by nlinarith
  have v1 := A.mul _ _ _ _ S.vα S.vR (two_pow_1023 (k := 10) (by norm_num) (by rw [abs_of_pos (by linarith)]; norm_num; linarith))
  have ht : (2 : ℝ) ^ (-1022 : ℤ) ≤ α * R := tiny_le (k := 2) (by norm_num) (by norm_num; linarith)
  have q1 := A.low ht
  have q2 := A.rnd_up ht
  clear ht
  generalize A.rnd (α * R) = t at *
  have t1 : 1 / 5 ≤ t := by norm_num at hu; nlinarith
  have t2 : t ≤ 545 := by norm_num at hu; nlinarith
  obtain ⟨Y, vY, hY⟩ := S.elem.cosh _ _ v1 (by rw [abs_of_pos (by linarith)]; linarith)
  obtain ⟨y1, y2⟩ := abs_le.1 hY
  refine ⟨t, Y, vY, t1, q2, by linarith, ?_, ?_⟩
  · have c1 : Real.cosh t ≤ 2 ^ 900 := by
      have h5 : Real.exp t ≤ 2 ^ 900 := by
        have hl := Real.log_two_gt_d9
        rw [← Real.le_log_iff_exp_le (by positivity), Real.log_pow]
        push_cast
        linarith
      have h6 : Real.exp (-t) ≤ Real.exp t := Real.exp_le_exp.2 (by linarith)
      rw [Real.cosh_eq]; linarith
    have c2 : Y ≤ 2 * 2 ^ 900 := by
      have := mul_le_mul (show 1 + eps ≤ 2 by norm_num at he; linarith) c1 (Real.cosh_pos t).le (by norm_num)
      linarith
    refine c2.trans ?_
    rw [← pow_succ']
    exact pow_le_pow_right₀ (by norm_num) (by norm_num)
  · have c1 : 1 + t ^ 2 / 4 ≤ Real.cosh t := by
      have k1 := Real.quadratic_le_exp_of_nonneg (show 0 ≤ t by linarith)
      have k2 := Real.add_one_le_exp (-t)
      rw [Real.cosh_eq]; linarith
    have c2 : 1 + 1 / 100 ≤ Real.cosh t := by nlinarith
    have c3 := mul_le_mul_of_nonneg_left c2 (show 0 ≤ 1 - eps by norm_num at he; linarith)
    norm_num at he c3 ⊢
    linarith

/-- the interval of the distribution is not empty -/
theorem ge_val : ge (CFloat.cosh (alf *. Rf)) (oneUp : F) = true := by
  obtain ⟨t, Y, vY, _, _, _, _, hY⟩ := S.cosh_val
  obtain ⟨x, vx, _, hx⟩ := A.val_oneUp S.hu
  unfold ge
  rw [Bool.or_eq_true]
  left
  rw [A.lt _ _ _ _ vx vY]
  norm_num at hx hY
  linarith

/-- a sampled radius -/
theorem radius_val {eng : Engine F} (he : RoundedEngine A eng) (Radii Angles : Bool) (g : eng.G) (k : ℕ) :
    ∃ r, A.val (radiusAt eng Radii Angles alf Rf g k) = some r ∧ 1 / 2 ^ 33 ≤ r ∧ r ≤ R + 1 / 2 ^ 44 := by
  obtain ⟨t, Y, vY, t1, t2, y1, y2, y3⟩ := S.cosh_val
  obtain ⟨x, vx, x1, x2⟩ := A.val_oneUp (F := F) S.hu
  have hu := S.hu
  have hu0 := A.u_nonneg
  have hep := S.he
  have he0 := S.elem.eps_nonneg
  have a1 := S.α_ge
  have a2 := S.α_le
  have r1 := S.R_ge
  have r2 := S.R_le
  obtain ⟨z, vz, z1, z2, _⟩ := he.uniform _ _ _ _ (afterAngle eng Angles ((afterIter eng Radii Angles alf Rf)^[k] g)) vx vY (le_trans (by norm_num) x1)
    (by norm_num at x2 y3; linarith) (by norm_num at y3; linarith) y2
  have z0 : 1 + 1 / 2 ^ 54 ≤ z := x1.trans z1
  have z10 : 1 ≤ z := le_trans (by norm_num) z0
  obtain ⟨w, vw, hw⟩ := S.elem.acosh _ _ vz z10 (by
    have h1 : (1 + 3 * u) * Y ≤ 2 * 2 ^ 990 := mul_le_mul (by norm_num at hu; linarith) y2 (by norm_num at y3; linarith) (by norm_num)
    refine z2.trans (h1.trans ?_)
    rw [← pow_succ']
    exact pow_le_pow_right₀ (by norm_num) (by norm_num))
  have hE0 : 0 ≤ eps + 3 * u + 3 * u * eps := by positivity
  have hE : eps + 3 * u + 3 * u * eps ≤ 1 / 2 ^ 50 := by
    have := mul_le_mul hu hep he0 (by norm_num)
    norm_num at this hu hep ⊢
    linarith
  have ha1 := arcosh_up t1 hE0 z10 (show z ≤ (1 + (eps + 3 * u + 3 * u * eps)) * Real.cosh t by
    refine z2.trans ((mul_le_mul_of_nonneg_left y1 (by positivity)).trans (le_of_eq ?_))
    ring)
  have ha0 := arcosh_low z0
  have hτ : (2 : ℝ) ^ (-1021 : ℤ) ≤ 1 / 2 ^ 100 := by
    rw [one_div, ← zpow_natCast, ← zpow_neg]
    exact zpow_le_zpow_right₀ (by norm_num) (by norm_num)
  obtain ⟨w1, w2⟩ := abs_le.1 hw
  generalize Real.arcosh z = a at *
  generalize (2 : ℝ) ^ (-1021 : ℤ) = τ at *
  have w3 : 1 / 2 ^ 28 ≤ w := by
    have : eps * a ≤ 1 / 2 ^ 51 * a := mul_le_mul_of_nonneg_right hep (le_trans (by positivity) ha0)
    norm_num at this ha0 hτ ⊢
    linarith
  have hR34 : α * R ≤ 544 := by nlinarith
  have w4 : w ≤ 2 ^ 10 := by
    have i1 : t ≤ 545 := by norm_num at hu; nlinarith
    have i2 : a ≤ 546 := by norm_num at hE; linarith
    have i3 : eps * a ≤ 1 := by norm_num at hep; nlinarith
    norm_num at hτ ⊢
    linarith
  have i1 : 1 / 16 ≤ 1 / α := by rw [div_le_div_iff₀ (by norm_num) (by linarith)]; linarith
  have i2 : 1 / α ≤ 2 := by rw [div_le_iff₀ (by linarith)]; linarith
  have vi := A.div _ _ _ _ A.val_one S.vα (by linarith) (two_pow_1023 (k := 1) (by norm_num) (by rw [abs_of_pos (by positivity)]; linarith))
  have hti : (2 : ℝ) ^ (-1022 : ℤ) ≤ 1 / α := tiny_le (k := 4) (by norm_num) (by norm_num at i1 ⊢; linarith)
  have j1 := A.low hti
  have j2 := A.rnd_up hti
  clear hti
  generalize A.rnd (1 / α) = i at *
  have k1 : 1 / 17 ≤ i := by norm_num at hu i1 j1 ⊢; nlinarith
  have k2 : i ≤ 3 := by norm_num at hu i2 j2 ⊢; nlinarith
  have m1 : 1 / 2 ^ 28 * (1 / 17) ≤ w * i := mul_le_mul w3 k1 (by norm_num) (le_trans (by positivity) w3)
  have m2 : w * i ≤ 2 ^ 10 * 3 := mul_le_mul w4 k2 (by linarith) (by norm_num)
  have m0 : 0 ≤ w * i := le_trans (by positivity) m1
  have vr := A.mul _ _ _ _ vw vi (two_pow_1023 (k := 12) (by norm_num) (by rw [abs_of_nonneg m0]; norm_num at m2 ⊢; linarith))
  have htr : (2 : ℝ) ^ (-1022 : ℤ) ≤ w * i := tiny_le (k := 40) (by norm_num) (le_trans (by norm_num) m1)
  have n1 := A.low htr
  have n2 := A.rnd_up htr
  clear htr
  refine ⟨_, vr, ?_, ?_⟩
  · generalize A.rnd (w * i) = r at *
    have := mul_le_mul_of_nonneg_left m1 (show 0 ≤ 1 - u by norm_num at hu; linarith)
    refine le_trans ?_ (this.trans n1)
    norm_num at hu ⊢
    linarith
  · refine radius_up hu0 hu he0 hep hE0 hE a1 (by linarith) r2 t2 ha1 ?_ (le_trans (by positivity) w3) j2 n2
    linarith

end Spec.RSampler

/-- a sampled angle -/
theorem angle_val (E : RoundedElem A eps p) (hu : u ≤ 1 / 2 ^ 52) {eng : Engine F} (he : RoundedEngine A eng) (Radii Angles : Bool) (alf Rf : F) (g : eng.G) (k : ℕ) :
    ∃ a, A.val (angleAt eng Radii Angles alf Rf g k) = some a ∧ 0 ≤ a ∧ a < 2 * p := by
  have hp := E.pi_err
  have hpi := Real.pi_gt_three
  have hpi4 := Real.pi_lt_four
  have hp3 : 1 < p ∧ p ≤ 5 := by
    obtain ⟨h1, h2⟩ := abs_le.1 hp
    norm_num at hu
    constructor <;> linarith
  have v2 : A.val (ofRat 2 : F) = some 2 := by
    have := A.val_ofRat_int (F := F) 2 (by norm_num)
    simpa using this
  have v := A.mul _ _ _ _ v2 E.pi (two_pow_1023 (k := 4) (by norm_num) (by rw [abs_of_pos (by linarith)]; norm_num; linarith))
  have hs := A.scale p (A.rep _ _ E.pi) 1
  rw [pow_one] at hs
  rw [mul_comm 2 p, hs] at v
  obtain ⟨z, vz, z1, _, z2⟩ := he.uniform _ _ _ _ ((afterIter eng Radii Angles alf Rf)^[k] g) A.val_zero v le_rfl (by linarith)
    (by linarith) (le_trans (show p * 2 ≤ 2 ^ 4 by norm_num; linarith) (pow_le_pow_right₀ (by norm_num) (by norm_num)))
  exact ⟨z, vz, z1, by have := z2 rfl; linarith⟩

end Girgs
