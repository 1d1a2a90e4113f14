import Verif.Proofs.HRoundedPbl
import Verif.Model.HPoint
/-!
Rounding errors of the distance test `isDistanceBelowR`.
-/
namespace Girgs
open Spec CFloat

variable {F : Type} [CFloat F] {u lam eps p : ℝ} {A : Rounded F u lam}

/-- `f` has a value with relative error `k` times `2^-51` of `x` -/
def RV (A : Rounded F u lam) (k : ℝ) (f : F) (x : ℝ) : Prop := ∃ y, A.val f = some y ∧ |y - x| ≤ k / 2 ^ 51 * x

theorem RV.round {k : ℝ} {z x : ℝ} (hu : u ≤ 1 / 2 ^ 52) (hk0 : 0 ≤ k) (hk : k ≤ 100) (hz : |z - x| ≤ (k + 1 / 4) / 2 ^ 51 * x)
    (lo : 1 / 2 ^ 1000 ≤ x) : |A.rnd z - x| ≤ (k + 1) / 2 ^ 51 * x := by
  have hx0 : 0 < x := lt_of_lt_of_le (by positivity) lo
  have hu0 := A.u_nonneg
  have hsmall : (k + 1 / 4) / 2 ^ 51 * x ≤ 1 / 4 * x := mul_le_mul_of_nonneg_right (by norm_num; linarith) hx0.le
  obtain ⟨z1, z2⟩ := abs_le.1 (hz.trans hsmall)
  have hzx : x / 2 ≤ z := by linarith
  have hz0 : 0 < z := by linarith
  have hlo : (2 : ℝ) ^ (-1022 : ℤ) ≤ |z| := by
    rw [abs_of_pos hz0]
    refine tiny_le (k := 1001) (by norm_num) (le_trans ?_ hzx)
    have : (1 : ℝ) / 2 ^ 1001 = 1 / 2 ^ 1000 / 2 := by rw [pow_succ (2 : ℝ) 1000, ← div_div]
    rw [this]
    linarith
  have h1 := A.rel z hlo
  rw [abs_of_pos hz0] at h1
  have h2 : u * z ≤ 1 / 2 ^ 52 * (5 / 4 * x) := mul_le_mul hu (by linarith) hz0.le (by norm_num)
  have h3 := abs_sub_le (A.rnd z) z x
  clear lo hlo
  norm_num at hz h2 ⊢
  nlinarith

theorem RV.mul {f g : F} {k l x y : ℝ} (hf : RV A k f x) (hg : RV A l g y) (hu : u ≤ 1 / 2 ^ 52) (hk0 : 0 ≤ k) (hk : k ≤ 50) (hl0 : 0 ≤ l)
    (hl : l ≤ 50) (hx : 0 < x) (hy : 0 < y) (lo : 1 / 2 ^ 1000 ≤ x * y) (hi : x * y ≤ 2 ^ 1000) : RV A (k + l + 1) (f *. g) (x * y) := by
  obtain ⟨a, va, ha⟩ := hf
  obtain ⟨b, vb, hb⟩ := hg
  have e1 : a * b - x * y = (a - x) * (b - y) + (a - x) * y + x * (b - y) := by ring
  have h1 : |a * b - x * y| ≤ (k / 2 ^ 51 * x) * (l / 2 ^ 51 * y) + (k / 2 ^ 51 * x) * y + x * (l / 2 ^ 51 * y) := by
    rw [e1]
    refine (abs_add_le _ _).trans (add_le_add ((abs_add_le _ _).trans (add_le_add ?_ ?_)) ?_)
    · rw [abs_mul]; exact mul_le_mul ha hb (abs_nonneg _) (by positivity)
    · rw [abs_mul, abs_of_pos hy]; exact mul_le_mul_of_nonneg_right ha hy.le
    · rw [abs_mul, abs_of_pos hx]; exact mul_le_mul_of_nonneg_left hb hx.le
  have hxy : 0 < x * y := by positivity
  have hkl : k * l ≤ 2500 := by nlinarith
  have h2 : |a * b - x * y| ≤ (k + l + 1 / 4) / 2 ^ 51 * (x * y) := by
    refine h1.trans ?_
    have : (k / 2 ^ 51 * x) * (l / 2 ^ 51 * y) ≤ (1 / 4) / 2 ^ 51 * (x * y) := by
      rw [show (k / 2 ^ 51 * x) * (l / 2 ^ 51 * y) = (k * l / (2 ^ 51 * 2 ^ 51)) * (x * y) by ring]
      apply mul_le_mul_of_nonneg_right _ hxy.le
      norm_num
      linarith
    have e2 : (k / 2 ^ 51 * x) * y + x * (l / 2 ^ 51 * y) = (k + l) / 2 ^ 51 * (x * y) := by ring
    have e3 : (k + l + 1 / 4) / 2 ^ 51 * (x * y) = (1 / 4) / 2 ^ 51 * (x * y) + (k + l) / 2 ^ 51 * (x * y) := by ring
    rw [e3, ← e2]
    linarith
  have h3 : |a * b| ≤ 2 ^ 1001 := by
    have h4 := abs_add_le (x * y) (a * b - x * y)
    rw [add_sub_cancel, abs_of_pos hxy] at h4
    have h5 : (k + l + 1 / 4) / 2 ^ 51 * (x * y) ≤ 1 * (x * y) := mul_le_mul_of_nonneg_right (by norm_num; linarith) hxy.le
    have e : (2 : ℝ) ^ 1001 = 2 ^ 1000 * 2 := pow_succ _ _
    rw [e]
    generalize (2 : ℝ) ^ 1000 = B at hi ⊢
    linarith
  exact ⟨_, A.mul _ _ _ _ va vb (two_pow_1023 (k := 1001) (by norm_num) h3), RV.round hu (by linarith) (by linarith) h2 lo⟩

theorem RV.div {f g : F} {k l x y : ℝ} (hf : RV A k f x) (hg : RV A l g y) (hu : u ≤ 1 / 2 ^ 52) (hk0 : 0 ≤ k) (hk : k ≤ 50) (hl0 : 0 ≤ l)
    (hl : l ≤ 50) (hx : 0 < x) (hy : 0 < y) (lo : 1 / 2 ^ 1000 ≤ x / y) (hi : x / y ≤ 2 ^ 1000) : RV A (k + l + 1) (f /. g) (x / y) := by
  obtain ⟨a, va, ha⟩ := hf
  obtain ⟨b, vb, hb⟩ := hg
  have hbs : l / 2 ^ 51 * y ≤ 1 / 2 ^ 45 * y := mul_le_mul_of_nonneg_right (by norm_num; linarith) hy.le
  obtain ⟨b1, b2⟩ := abs_le.1 (hb.trans hbs)
  have hb0 : (1 - 1 / 2 ^ 45) * y ≤ b := by linarith
  have hbp : 0 < b := lt_of_lt_of_le (by norm_num; exact hy) hb0
  have e1 : a / b - x / y = ((a - x) * y - x * (b - y)) / (b * y) := by field_simp; ring
  have hxy : 0 < x / y := by positivity
  have h2 : |a / b - x / y| ≤ (k + l + 1 / 4) / 2 ^ 51 * (x / y) := by
    rw [e1, abs_div, abs_of_pos (mul_pos hbp hy), div_le_iff₀ (mul_pos hbp hy)]
    have h1 : |(a - x) * y - x * (b - y)| ≤ (k / 2 ^ 51 * x) * y + x * (l / 2 ^ 51 * y) := by
      refine (abs_sub _ _).trans (add_le_add ?_ ?_)
      · rw [abs_mul, abs_of_pos hy]; exact mul_le_mul_of_nonneg_right ha hy.le
      · rw [abs_mul, abs_of_pos hx]; exact mul_le_mul_of_nonneg_left hb hx.le
    refine h1.trans ?_
    have e2 : (k + l + 1 / 4) / 2 ^ 51 * (x / y) * (b * y) = (k + l + 1 / 4) / 2 ^ 51 * x * b := by field_simp
    rw [e2]
    have h4 : (k + l + 1 / 4) / 2 ^ 51 * x * ((1 - 1 / 2 ^ 45) * y) ≤ (k + l + 1 / 4) / 2 ^ 51 * x * b :=
      mul_le_mul_of_nonneg_left hb0 (by positivity)
    refine le_trans ?_ h4
    rw [show k / 2 ^ 51 * x * y + x * (l / 2 ^ 51 * y) = (k + l) * (x * y / 2 ^ 51) by ring,
      show (k + l + 1 / 4) / 2 ^ 51 * x * ((1 - 1 / 2 ^ 45) * y) = (k + l + 1 / 4) * (1 - 1 / 2 ^ 45) * (x * y / 2 ^ 51) by ring]
    apply mul_le_mul_of_nonneg_right _ (by positivity)
    norm_num
    linarith
  have h3 : |a / b| ≤ 2 ^ 1001 := by
    have h4 := abs_add_le (x / y) (a / b - x / y)
    rw [add_sub_cancel, abs_of_pos hxy] at h4
    have h5 : (k + l + 1 / 4) / 2 ^ 51 * (x / y) ≤ 1 * (x / y) := mul_le_mul_of_nonneg_right (by norm_num; linarith) hxy.le
    have e : (2 : ℝ) ^ 1001 = 2 ^ 1000 * 2 := pow_succ _ _
    rw [e]
    generalize (2 : ℝ) ^ 1000 = B at hi ⊢
    linarith
  exact ⟨_, A.div _ _ _ _ va vb hbp.ne' (two_pow_1023 (k := 1001) (by norm_num) h3), RV.round hu (by linarith) (by linarith) h2 lo⟩

/-- the hyperbolic functions of a radius -/
structure RadVals (A : Rounded F u lam) (rf : F) (r : ℝ) : Prop where
  lo : 1 / 2 ^ 100 ≤ Real.sinh r
  hi : Real.sinh r ≤ 2 ^ 50
  ch : Real.cosh r ≤ 2 ^ 50
  inv : RV A 5 (ofRat 1 /. CFloat.sinh rf) (1 / Real.sinh r)
  coth : RV A 7 (CFloat.cosh rf /. CFloat.sinh rf) (Real.cosh r / Real.sinh r)

theorem radVals (E : RoundedElem A eps p) (hu : u ≤ 1 / 2 ^ 52) (he : eps ≤ 1 / 2 ^ 50) {rf : F} {r : ℝ} (vr : A.val rf = some r)
    (h0 : 1 / 2 ^ 100 ≤ r) (h34 : r ≤ 34.5) : RadVals A rf r := by
  have hr0 : 0 < r := lt_of_lt_of_le (by positivity) h0
  have habs : |r| ≤ 34.5 := by rw [abs_of_pos hr0]; exact h34
  have hs0 : r ≤ Real.sinh r := Real.self_le_sinh_iff.2 hr0.le
  have hlo : 1 / 2 ^ 100 ≤ Real.sinh r := h0.trans hs0
  have hsp : 0 < Real.sinh r := lt_of_lt_of_le hr0 hs0
  have hhi : Real.sinh r ≤ 2 ^ 50 := (le_abs_self _).trans (sinh_34 habs)
  have hch := cosh_34 habs
  have hc1 := Real.one_le_cosh r
  obtain ⟨y, vy, hy⟩ := E.sinh _ _ vr (by linarith)
  rw [abs_of_pos hsp] at hy
  have n1 : RV A 4 (CFloat.sinh rf) (Real.sinh r) := by
    refine ⟨y, vy, hy.trans ?_⟩
    have h1 : eps * Real.sinh r ≤ 1 / 2 ^ 50 * Real.sinh r := mul_le_mul_of_nonneg_right he hsp.le
    have h2 : tau ≤ 1 / 2 ^ 50 * Real.sinh r := by
      have h3 := tau_le (k := 100) (by norm_num)
      have h4 : (1 : ℝ) / 2 ^ (1021 - 100) ≤ 1 / 2 ^ 50 := by
        apply one_div_le_one_div_of_le (by positivity); exact pow_le_pow_right₀ (by norm_num) (by norm_num)
      have h5 : tau ≤ 1 / 2 ^ 50 * (1 / 2 ^ 100) := by
        rw [mul_one_div, le_div_iff₀ (by positivity)]
        exact h3.trans h4
      exact h5.trans (mul_le_mul_of_nonneg_left hlo (by norm_num))
    unfold tau at h2
    generalize (2 : ℝ) ^ (-1021 : ℤ) = w at *
    norm_num at h1 h2 ⊢
    linarith
  obtain ⟨z, vz, hz⟩ := E.cosh _ _ vr (by linarith)
  have n2 : RV A 2 (CFloat.cosh rf) (Real.cosh r) := by
    refine ⟨z, vz, hz.trans ?_⟩
    have h1 : eps * Real.cosh r ≤ 1 / 2 ^ 50 * Real.cosh r := mul_le_mul_of_nonneg_right he (by linarith)
    norm_num at h1 ⊢
    linarith
  have n0 : RV A 0 (ofRat 1 : F) 1 := ⟨1, A.val_one, by norm_num⟩
  have hbig : (2 : ℝ) ^ 50 * 2 ^ 100 ≤ 2 ^ 1000 := by rw [← pow_add]; exact pow_le_pow_right₀ (by norm_num) (by norm_num)
  have hsmall : (1 : ℝ) / 2 ^ 1000 ≤ 1 / 2 ^ 50 := by
    apply one_div_le_one_div_of_le (by positivity); exact pow_le_pow_right₀ (by norm_num) (by norm_num)
  have hinv : 1 / Real.sinh r ≤ 2 ^ 100 := by
    rw [div_le_iff₀ hsp]
    have := mul_le_mul_of_nonneg_left hlo (show (0 : ℝ) ≤ 2 ^ 100 by positivity)
    rwa [mul_one_div, div_self (by positivity)] at this
  have hinv' : 1 / 2 ^ 50 ≤ 1 / Real.sinh r := one_div_le_one_div_of_le hsp hhi
  refine ⟨hlo, hhi, hch, ?_, ?_⟩
  · have := n0.div n1 hu le_rfl (by norm_num) (by norm_num) (by norm_num) one_pos hsp (hsmall.trans hinv')
      (hinv.trans (pow_le_pow_right₀ (by norm_num) (by norm_num)))
    norm_num at this ⊢
    exact this
  · have := n2.div n1 hu (by norm_num) (by norm_num) (by norm_num) (by norm_num) (by linarith) hsp
      (by
        refine (hsmall.trans hinv').trans ?_
        exact div_le_div_of_nonneg_right hc1 hsp.le)
      (by
        rw [div_eq_mul_one_div]
        refine (mul_le_mul hch hinv (by positivity) (by positivity)).trans hbig)
    norm_num at this ⊢
    exact this

/-- `cos a cos b + sin a sin b` -/
theorem cosSum_val (E : RoundedElem A eps p) (hu : u ≤ 1 / 2 ^ 52) (he : eps ≤ 1 / 2 ^ 50) {af bf : F} {a b : ℝ} (va : A.val af = some a)
    (vb : A.val bf = some b) (ha : |a| ≤ 700) (hb : |b| ≤ 700) :
    ∃ y, A.val (CFloat.cos af *. CFloat.cos bf +. CFloat.sin af *. CFloat.sin bf) = some y ∧ |y - Real.cos (a - b)| ≤ 12 / 2 ^ 51 := by
  have hu0 := A.u_nonneg
  have ht := tau_small
  have ht0 := tau_pos
  have prod : ∀ {f g : F} {x y x' y' : ℝ}, A.val f = some x' → A.val g = some y' → |x' - x| ≤ eps → |y' - y| ≤ eps → |x| ≤ 1 → |y| ≤ 1 →
      ∃ z, A.val (f *. g) = some z ∧ |z - x * y| ≤ 5 / 2 ^ 51 := by
    intro f g x y x' y' vf vg hx hy hx1 hy1
    have hx := hx.trans he
    have hy := hy.trans he
    have e1 : x' * y' - x * y = (x' - x) * (y' - y) + (x' - x) * y + x * (y' - y) := by ring
    have h1 : |x' * y' - x * y| ≤ 1 / 2 ^ 50 * (1 / 2 ^ 50) + 1 / 2 ^ 50 * 1 + 1 * (1 / 2 ^ 50) := by
      rw [e1]
      refine (abs_add_le _ _).trans (add_le_add ((abs_add_le _ _).trans (add_le_add ?_ ?_)) ?_)
      · rw [abs_mul]; exact mul_le_mul hx hy (abs_nonneg _) (by positivity)
      · rw [abs_mul]; exact mul_le_mul hx hy1 (abs_nonneg _) (by positivity)
      · rw [abs_mul]; exact mul_le_mul hx1 hy (abs_nonneg _) (by positivity)
    have h2 : |x * y| ≤ 1 := by rw [abs_mul]; exact mul_le_one₀ hx1 (abs_nonneg _) hy1
    have h3 : |x' * y'| ≤ 5 / 4 := by
      have := abs_add_le (x * y) (x' * y' - x * y)
      rw [add_sub_cancel] at this
      norm_num at h1
      linarith
    refine ⟨_, A.mul _ _ _ _ vf vg (two_pow_1023 (k := 1) (by norm_num) (by linarith)), ?_⟩
    have h4 := A.err_all (x' * y')
    have h5 : u * |x' * y'| ≤ 1 / 2 ^ 52 * (5 / 4) := mul_le_mul hu h3 (abs_nonneg _) (by norm_num)
    have h6 := abs_sub_le (A.rnd (x' * y')) (x' * y') (x * y)
    norm_num at *
    linarith
  obtain ⟨c1, vc1, hc1⟩ := E.cos _ _ va ha
  obtain ⟨c2, vc2, hc2⟩ := E.cos _ _ vb hb
  obtain ⟨s1, vs1, hs1⟩ := E.sin _ _ va ha
  obtain ⟨s2, vs2, hs2⟩ := E.sin _ _ vb hb
  obtain ⟨z, vz, hz⟩ := prod vc1 vc2 hc1 hc2 (Real.abs_cos_le_one a) (Real.abs_cos_le_one b)
  obtain ⟨w, vw, hw⟩ := prod vs1 vs2 hs1 hs2 (Real.abs_sin_le_one a) (Real.abs_sin_le_one b)
  have e : Real.cos (a - b) = Real.cos a * Real.cos b + Real.sin a * Real.sin b := Real.cos_sub a b
  have h1 : |z + w - Real.cos (a - b)| ≤ 10 / 2 ^ 51 := by
    rw [e, show z + w - (Real.cos a * Real.cos b + Real.sin a * Real.sin b) =
      (z - Real.cos a * Real.cos b) + (w - Real.sin a * Real.sin b) by ring]
    refine (abs_add_le _ _).trans ?_
    norm_num at hz hw ⊢
    linarith
  have h2 : |z + w| ≤ 5 / 4 := by
    have h3 := abs_add_le (Real.cos (a - b)) (z + w - Real.cos (a - b))
    rw [add_sub_cancel] at h3
    have := Real.abs_cos_le_one (a - b)
    norm_num at h1
    linarith
  refine ⟨_, A.add _ _ _ _ vz vw (two_pow_1023 (k := 1) (by norm_num) (by linarith)), ?_⟩
  have h4 := A.err_all (z + w)
  have h5 : u * |z + w| ≤ 1 / 2 ^ 52 * (5 / 4) := mul_le_mul hu h2 (abs_nonneg _) (by norm_num)
  have h6 := abs_sub_le (A.rnd (z + w)) (z + w) (Real.cos (a - b))
  clear hz hw e prod
  norm_num at *
  linarith

theorem four_bound {P Q B : ℝ} (h1 : 1 ≤ P) (h2 : P ≤ B) (h3 : Q ≤ B) : 5 / 4 * (P + Q) ≤ B * 4 := by linarith

/-- the distance test, up to rounding -/
theorem below_val (E : RoundedElem A eps p) (hu : u ≤ 1 / 2 ^ 52) (he : eps ≤ 1 / 2 ^ 50) {rf sf af bf Rf : F} {r s a b R : ℝ}
    (vr : A.val rf = some r) (vs : A.val sf = some s) (va : A.val af = some a) (vb : A.val bf = some b) (vR : A.val Rf = some R)
    (hr0 : 1 / 2 ^ 100 ≤ r) (hr : r ≤ 34.5) (hs0 : 1 / 2 ^ 100 ≤ s) (hs : s ≤ 34.5) (ha : |a| ≤ 700) (hb : |b| ≤ 700) (hR : |R| ≤ 34)
    (id id' c c' : ℕ) :
    (hypCosh r a s b + 1 / 2 ^ 46 * (Real.cosh r * Real.cosh s + Real.cosh R) < Real.cosh R →
      (HPoint.make id rf af c).isDistanceBelowR (HPoint.make id' sf bf c') (CFloat.cosh Rf) = true) ∧
    (Real.cosh R + 1 / 2 ^ 46 * (Real.cosh r * Real.cosh s + Real.cosh R) ≤ hypCosh r a s b →
      (HPoint.make id rf af c).isDistanceBelowR (HPoint.make id' sf bf c') (CFloat.cosh Rf) = false) := by
  have hu0 := A.u_nonneg
  obtain ⟨lo1, hi1, ch1, inv1, coth1⟩ := radVals E hu he vr hr0 hr
  obtain ⟨lo2, hi2, ch2, inv2, coth2⟩ := radVals E hu he vs hs0 hs
  have sp1 : 0 < Real.sinh r := lt_of_lt_of_le (by positivity) lo1
  have sp2 : 0 < Real.sinh s := lt_of_lt_of_le (by positivity) lo2
  have c1 := Real.one_le_cosh r
  have c2 := Real.one_le_cosh s
  have cR := Real.one_le_cosh R
  have chR := cosh_34 (hR.trans (by norm_num))
  obtain ⟨z, vz, hz⟩ := E.cosh _ _ vR (by linarith)
  have nR : RV A 2 (CFloat.cosh Rf) (Real.cosh R) := by
    refine ⟨z, vz, hz.trans ?_⟩
    have h1 : eps * Real.cosh R ≤ 1 / 2 ^ 50 * Real.cosh R := mul_le_mul_of_nonneg_right he (by linarith)
    norm_num at h1 ⊢
    linarith
  have inv_hi : ∀ {x : ℝ}, 1 / 2 ^ 100 ≤ x → 1 / x ≤ 2 ^ 100 := by
    intro x hx
    have hx0 : 0 < x := lt_of_lt_of_le (by positivity) hx
    rw [div_le_iff₀ hx0]
    have := mul_le_mul_of_nonneg_left hx (show (0 : ℝ) ≤ 2 ^ 100 by positivity)
    rwa [mul_one_div, div_self (by positivity)] at this
  have i1 := inv_hi lo1
  have i2 := inv_hi lo2
  have j1 : 1 / 2 ^ 50 ≤ 1 / Real.sinh r := one_div_le_one_div_of_le sp1 hi1
  have j2 : 1 / 2 ^ 50 ≤ 1 / Real.sinh s := one_div_le_one_div_of_le sp2 hi2
  have ip1 : 0 < 1 / Real.sinh r := by positivity
  have ip2 : 0 < 1 / Real.sinh s := by positivity
  have hsmall : ∀ k : ℕ, k ≤ 1000 → (1 : ℝ) / 2 ^ 1000 ≤ 1 / 2 ^ k := by
    intro k hk
    apply one_div_le_one_div_of_le (by positivity); exact pow_le_pow_right₀ (by norm_num) hk
  have hbig : ∀ k : ℕ, k ≤ 1000 → (2 : ℝ) ^ k ≤ 2 ^ 1000 := fun k hk => pow_le_pow_right₀ (by norm_num) hk
  have co1 : 1 ≤ Real.cosh r / Real.sinh r := by rw [le_div_iff₀ sp1, one_mul]; exact (Real.sinh_lt_cosh r).le
  have co2 : 1 ≤ Real.cosh s / Real.sinh s := by rw [le_div_iff₀ sp2, one_mul]; exact (Real.sinh_lt_cosh s).le
  have cu1 : Real.cosh r / Real.sinh r ≤ 2 ^ 150 := by
    rw [div_eq_mul_one_div, show (150 : ℕ) = 50 + 100 by norm_num, pow_add]
    exact mul_le_mul ch1 i1 ip1.le (by positivity)
  have cu2 : Real.cosh s / Real.sinh s ≤ 2 ^ 150 := by
    rw [div_eq_mul_one_div, show (150 : ℕ) = 50 + 100 by norm_num, pow_add]
    exact mul_le_mul ch2 i2 ip2.le (by positivity)
  set P := Real.cosh r / Real.sinh r * (Real.cosh s / Real.sinh s) with hP
  have hP1 : 1 ≤ P := by rw [hP]; exact one_le_mul_of_one_le_of_one_le co1 co2
  have hPu : P ≤ 2 ^ 300 := by
    rw [hP, show (300 : ℕ) = 150 + 150 by norm_num, pow_add]
    exact mul_le_mul cu1 cu2 (by positivity) (by positivity)
  have nP := coth1.mul coth2 hu (by norm_num) (by norm_num) (by norm_num) (by norm_num) (by positivity) (by positivity)
    ((hsmall 0 (by norm_num)).trans (by rw [pow_zero, div_one]; exact hP1)) (hPu.trans (hbig _ (by norm_num)))
  have q1lo : 1 / 2 ^ 50 ≤ Real.cosh R * (1 / Real.sinh r) := by
    have := mul_le_mul cR j1 (by positivity) (by linarith)
    rwa [one_mul] at this
  have q1hi : Real.cosh R * (1 / Real.sinh r) ≤ 2 ^ 150 := by
    rw [show (150 : ℕ) = 50 + 100 by norm_num, pow_add]
    exact mul_le_mul chR i1 ip1.le (by positivity)
  have nQ1 := nR.mul inv1 hu (by norm_num) (by norm_num) (by norm_num) (by norm_num) (by linarith) ip1
    ((hsmall 50 (by norm_num)).trans q1lo) (q1hi.trans (hbig _ (by norm_num)))
  set Q := Real.cosh R * (1 / Real.sinh r) * (1 / Real.sinh s) with hQ
  have hQlo : 1 / 2 ^ 100 ≤ Q := by
    have := mul_le_mul q1lo j2 (by positivity) (by positivity)
    refine le_trans (le_of_eq ?_) this
    norm_num
  have hQhi : Q ≤ 2 ^ 250 := by
    rw [hQ, show (250 : ℕ) = 150 + 100 by norm_num, pow_add]
    exact mul_le_mul q1hi i2 ip2.le (by positivity)
  have hQ0 : 0 < Q := lt_of_lt_of_le (by positivity) hQlo
  have nQ := nQ1.mul inv2 hu (by norm_num) (by norm_num) (by norm_num) (by norm_num) (by positivity) ip2
    ((hsmall 100 (by norm_num)).trans hQlo) (hQhi.trans (hbig _ (by norm_num)))
  obtain ⟨P', vP, hP'⟩ := nP
  obtain ⟨Q', vQ, hQ'⟩ := nQ
  rw [← hP] at hP'
  rw [← hQ] at hQ'
  norm_num at hP' hQ'
  have hPQ : |P' - Q'| ≤ 5 / 4 * (P + Q) := by
    obtain ⟨a1, a2⟩ := abs_le.1 hP'
    obtain ⟨a3, a4⟩ := abs_le.1 hQ'
    rw [abs_le]; constructor <;> linarith
  have hPQb : |P' - Q'| ≤ 2 ^ 1023 := by
    refine two_pow_1023 (k := 302) (by norm_num) (hPQ.trans ?_)
    have := hQhi.trans (show (2 : ℝ) ^ 250 ≤ 2 ^ 300 from pow_le_pow_right₀ (by norm_num) (by norm_num))
    have e : (2 : ℝ) ^ 302 = 2 ^ 300 * 4 := by rw [show (302 : ℕ) = 300 + 2 by norm_num, pow_add]; norm_num
    rw [e]
    exact four_bound hP1 hPu this
  have vX := A.sub _ _ _ _ vP vQ hPQb
  obtain ⟨Y, vY, hY⟩ := cosSum_val E hu he va vb ha hb
  have hX : |A.rnd (P' - Q') - (P - Q)| ≤ 18 / 2 ^ 51 * (P + Q) := by
    have h1 := A.err_all (P' - Q')
    have h2 : u * |P' - Q'| ≤ 1 / 2 ^ 52 * (5 / 4 * (P + Q)) := mul_le_mul hu hPQ (abs_nonneg _) (by norm_num)
    have h3 := abs_sub_le (A.rnd (P' - Q')) (P' - Q') (P - Q)
    have h4 : |P' - Q' - (P - Q)| ≤ |P' - P| + |Q' - Q| := by
      rw [show P' - Q' - (P - Q) = (P' - P) - (Q' - Q) by ring]
      exact abs_sub _ _
    have h5 := tau_small
    clear hPu hQhi hPQb cu1 cu2 q1hi hsmall hbig
    norm_num at h2 h5 ⊢
    linarith
  have hSp : 0 < Real.sinh r * Real.sinh s := mul_pos sp1 sp2
  have eP : P * (Real.sinh r * Real.sinh s) = Real.cosh r * Real.cosh s := by rw [hP]; field_simp
  have eQ : Q * (Real.sinh r * Real.sinh s) = Real.cosh R := by rw [hQ]; field_simp
  have eH : hypCosh r a s b = (P - Real.cos (a - b)) * (Real.sinh r * Real.sinh s) := by
    rw [sub_mul, eP]; unfold hypCosh; ring
  have eS : Real.cosh r * Real.cosh s + Real.cosh R = (P + Q) * (Real.sinh r * Real.sinh s) := by rw [add_mul, eP, eQ]
  have htest : (HPoint.make id rf af c).isDistanceBelowR (HPoint.make id' sf bf c') (CFloat.cosh Rf) = true ↔ A.rnd (P' - Q') < Y :=
    A.lt _ _ _ _ vX vY
  obtain ⟨x1, x2⟩ := abs_le.1 hX
  obtain ⟨y1, y2⟩ := abs_le.1 hY
  rw [eS, eH]
  generalize A.rnd (P' - Q') = X at *
  generalize Real.cos (a - b) = Z at *
  clear hPu hQhi hPQb cu1 cu2 q1hi hsmall hbig hP' hQ' hPQ
  constructor
  · intro h
    rw [htest]
    rw [← eQ] at h
    have h1 : (P - Z + 1 / 2 ^ 46 * (P + Q)) * (Real.sinh r * Real.sinh s) < Q * (Real.sinh r * Real.sinh s) := by nlinarith
    have h2 := lt_of_mul_lt_mul_right h1 hSp.le
    norm_num at h2 x2 y1
    linarith
  · intro h
    rw [← Bool.not_eq_true, htest, not_lt]
    rw [← eQ] at h
    have h1 : (Q + 1 / 2 ^ 46 * (P + Q)) * (Real.sinh r * Real.sinh s) ≤ (P - Z) * (Real.sinh r * Real.sinh s) := by nlinarith
    have h2 := le_of_mul_le_mul_right h1 hSp
    norm_num at h2 x1 y2
    linarith

end Girgs
