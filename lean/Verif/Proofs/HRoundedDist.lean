import Verif.Spec.HRounding
import Verif.Proofs.RoundedBuild
import Verif.Proofs.HypLevel
import Verif.Model.HyperBuild
/-!
Rounding errors of `hyperbolicDistance`.
-/
namespace Girgs
open Real Spec CFloat HBuild

variable {F : Type} [CFloat F] {u lam eps p : ℝ} {A : Rounded F u lam}

/-- the error of rounding a subnormal number -/
noncomputable def tau : ℝ := (2 : ℝ) ^ (-1021 : ℤ)

theorem tau_pos : 0 < tau := zpow_pos (by norm_num) _

theorem tau_le {k : ℕ} (hk : k ≤ 1021) : tau * 2 ^ k ≤ 1 / 2 ^ (1021 - k) := by
  unfold tau
  rw [zpow_neg, le_div_iff₀ (by positivity), mul_assoc, ← pow_add, Nat.add_sub_of_le hk]
  rw [inv_mul_le_iff₀ (by positivity), mul_one, show (1021 : ℤ) = ((1021 : ℕ) : ℤ) from rfl, zpow_natCast]

theorem Spec.Rounded.err_all (A : Rounded F u lam) (x : ℝ) : |A.rnd x - x| ≤ u * |x| + tau := by
  rcases le_or_gt ((2 : ℝ) ^ (-1022 : ℤ)) |x| with h | h
  · have := A.rel x h
    have := tau_pos
    linarith
  · have h1 : |A.rnd x| ≤ 2 ^ (-1022 : ℤ) := by
      obtain ⟨h1, h2⟩ := abs_le.1 h.le
      rw [abs_le]
      constructor
      · have := A.rnd_le_pow (x := -x) (k := -1022) (by norm_num) (by norm_num) (by linarith)
        rw [A.odd] at this
        linarith
      · exact A.rnd_le_pow (by norm_num) (by norm_num) h2
    have h2 := abs_sub (A.rnd x) x
    have h3 : tau = (2 : ℝ) ^ (-1022 : ℤ) + 2 ^ (-1022 : ℤ) := by
      unfold tau
      rw [show (-1021 : ℤ) = -1022 + 1 by norm_num, zpow_add_one₀ (by norm_num)]; ring
    have h4 : 0 ≤ u * |x| := mul_nonneg A.u_nonneg (abs_nonneg x)
    rw [h3]; linarith

/-- `y` approximates `x` -/
def Near (k t y x : ℝ) : Prop := |y - x| ≤ k * |x| + t

theorem Near.mul {A : Rounded F u lam} (hu : u ≤ 1 / 2 ^ 52) {a b t x y x' y' B : ℝ} (hx : Near a t x' x) (hy : Near b t y' y)
    (ha : 0 ≤ a) (hb : 0 ≤ b) (ha1 : a ≤ 1 / 2 ^ 40) (hb1 : b ≤ 1 / 2 ^ 40) (ht : tau ≤ t) (ht1 : t ≤ 1) (hxB : |x| ≤ B) (hyB : |y| ≤ B) (hB : 1 ≤ B) :
    Near (a + b + 1 / 2 ^ 51) (8 * t * B) (A.rnd (x' * y')) (x * y) := by
  unfold Near at *
  have hu0 := A.u_nonneg
  have ht0 := tau_pos
  have ht2 : 0 ≤ t := by linarith
  have hx0 := abs_nonneg x
  have hy0 := abs_nonneg y
  have e1 : x' * y' - x * y = (x' - x) * (y' - y) + (x' - x) * y + x * (y' - y) := by ring
  have h1 : |x' * y' - x * y| ≤ (a * |x| + t) * (b * |y| + t) + (a * |x| + t) * |y| + |x| * (b * |y| + t) := by
    rw [e1]
    refine (abs_add_le _ _).trans (add_le_add ((abs_add_le _ _).trans (add_le_add ?_ ?_)) ?_)
    · rw [abs_mul]; exact mul_le_mul hx hy (abs_nonneg _) (by positivity)
    · rw [abs_mul]; exact mul_le_mul_of_nonneg_right hx hy0
    · rw [abs_mul]; exact mul_le_mul_of_nonneg_left hy hx0
  have hab : a * b ≤ 1 / 2 ^ 80 := by
    have := mul_le_mul ha1 hb1 hb (by norm_num)
    norm_num at this ⊢; linarith
  have hbt : b * t ≤ 1 / 2 ^ 40 * t := mul_le_mul_of_nonneg_right hb1 (by linarith)
  have hat : a * t ≤ 1 / 2 ^ 40 * t := mul_le_mul_of_nonneg_right ha1 (by linarith)
  have hP : |x * y| = |x| * |y| := abs_mul x y
  have hP0 : 0 ≤ |x| * |y| := by positivity
  have htt : t * t ≤ t := by nlinarith
  -- the error of the exact product
  have h2 : |x' * y' - x * y| ≤ (a + b + 1 / 2 ^ 80) * (|x| * |y|) + 5 * t * B := by
    have i1 : a * b * (|x| * |y|) ≤ 1 / 2 ^ 80 * (|x| * |y|) := mul_le_mul_of_nonneg_right hab hP0
    have i2 : b * t * |y| ≤ 1 / 2 ^ 40 * t * B := mul_le_mul hbt hyB hy0 (by positivity)
    have i3 : a * t * |x| ≤ 1 / 2 ^ 40 * t * B := mul_le_mul hat hxB hx0 (by positivity)
    have i4 : t * |y| ≤ t * B := mul_le_mul_of_nonneg_left hyB (by linarith)
    have i5 : t * |x| ≤ t * B := mul_le_mul_of_nonneg_left hxB (by linarith)
    have i6 : t * t ≤ t * B := by nlinarith
    have i7 : 0 ≤ t * B := mul_nonneg (by linarith) (by linarith)
    nlinarith
  have h3 := A.err_all (x' * y')
  have h4 : |x' * y'| ≤ |x| * |y| + |x' * y' - x * y| := by
    have := abs_add_le (x * y) (x' * y' - x * y)
    rw [hP] at this
    refine le_trans (le_of_eq ?_) this
    congr 1; ring
  have h5 : |A.rnd (x' * y') - x * y| ≤ |A.rnd (x' * y') - x' * y'| + |x' * y' - x * y| := abs_sub_le _ _ _
  have h6 : u * |x' * y'| ≤ 1 / 2 ^ 52 * (|x| * |y| + |x' * y' - x * y|) := mul_le_mul hu h4 (abs_nonneg _) (by norm_num)
  rw [hP]
  have i8 : tau ≤ t * B := by nlinarith
  have i9 : 0 ≤ t * B := by nlinarith
  have i10 : (a + b + 1 / 2 ^ 80) * (|x| * |y|) ≤ 1 * (|x| * |y|) := mul_le_mul_of_nonneg_right (by norm_num at ha1 hb1 ⊢; linarith) hP0
  norm_num at *
  nlinarith

theorem cosh_34 {x : ℝ} (h : |x| ≤ 34.5) : cosh x ≤ 2 ^ 50 := by
  have h1 := Real.log_two_gt_d9
  have h2 : Real.exp 34.5 ≤ 2 ^ 50 := by
    rw [← Real.le_log_iff_exp_le (by positivity), Real.log_pow]
    push_cast
    linarith
  obtain ⟨h3, h4⟩ := abs_le.1 h
  have h5 : Real.exp x ≤ Real.exp 34.5 := Real.exp_le_exp.2 h4
  have h6 : Real.exp (-x) ≤ Real.exp 34.5 := Real.exp_le_exp.2 (by linarith)
  rw [cosh_eq]; linarith

theorem cosh_68 {x : ℝ} (h : |x| ≤ 68) : cosh x ≤ 2 ^ 100 := by
  have h1 := Real.log_two_gt_d9
  have h2 : Real.exp 68 ≤ 2 ^ 100 := by
    rw [← Real.le_log_iff_exp_le (by positivity), Real.log_pow]
    push_cast
    linarith
  obtain ⟨h3, h4⟩ := abs_le.1 h
  have h5 : Real.exp x ≤ Real.exp 68 := Real.exp_le_exp.2 h4
  have h6 : Real.exp (-x) ≤ Real.exp 68 := Real.exp_le_exp.2 (by linarith)
  rw [cosh_eq]; linarith

theorem sinh_34 {x : ℝ} (h : |x| ≤ 34.5) : |sinh x| ≤ 2 ^ 50 := by
  refine le_trans ?_ (cosh_34 h)
  rw [abs_le]
  constructor
  · have := sinh_lt_cosh (-x); rw [sinh_neg, cosh_neg] at this; linarith
  · exact (sinh_lt_cosh x).le

/-- `1 - cos` -/
theorem oneSubCos_val (E : RoundedElem A eps p) (hu : u ≤ 1 / 2 ^ 52) (he : eps ≤ 1 / 2 ^ 50) {φ : F} {ψ : ℝ} (hφ : A.val φ = some ψ)
    (hψ : |ψ| ≤ 600) : ∃ v, A.val (ofRat 1 -. CFloat.cos (ofRat 0 -. φ)) = some v ∧ |v - (1 - cos ψ)| ≤ 1 / 2 ^ 49 := by
  have hu0 := A.u_nonneg
  have v1 := A.sub _ _ _ _ A.val_zero hφ (by
    rw [zero_sub, abs_neg]; exact two_pow_1023 (k := 10) (by norm_num) (by norm_num; linarith))
  rw [zero_sub, A.odd, A.rep _ _ hφ] at v1
  obtain ⟨c, vc, hc⟩ := E.cos _ _ v1 (by rw [abs_neg]; linarith)
  rw [cos_neg] at hc
  have hc1 := Real.abs_cos_le_one ψ
  obtain ⟨a1, a2⟩ := abs_le.1 hc1
  obtain ⟨b1, b2⟩ := abs_le.1 (hc.trans he)
  have hc2 : |1 - c| ≤ 2 + 1 / 2 ^ 50 := by rw [abs_le]; constructor <;> linarith
  have v2 := A.sub _ _ _ _ A.val_one vc (two_pow_1023 (k := 2) (by norm_num) (by norm_num at hc2 ⊢; linarith))
  refine ⟨_, v2, ?_⟩
  have h3 := A.err_all (1 - c)
  have h4 : u * |1 - c| ≤ 1 / 2 ^ 52 * (2 + 1 / 2 ^ 50) := mul_le_mul hu hc2 (abs_nonneg _) (by norm_num)
  have h5 := tau_le (k := 0) (by norm_num)
  have h6 : (1 : ℝ) / 2 ^ (1021 - 0) ≤ 1 / 2 ^ 60 := by
    apply one_div_le_one_div_of_le (by positivity); exact pow_le_pow_right₀ (by norm_num) (by norm_num)
  have h7 := h5.trans h6
  rw [pow_zero, mul_one] at h7
  have h8 := abs_sub_le (A.rnd (1 - c)) (1 - c) (1 - cos ψ)
  have h9 : |1 - c - (1 - cos ψ)| ≤ 1 / 2 ^ 50 := by
    rw [show 1 - c - (1 - cos ψ) = -(c - cos ψ) by ring, abs_neg]; exact hc.trans he
  norm_num at *
  linarith

/-- `hyperbolicDistance(r1, 0, r2, φ)` -/
theorem hypDist_val (E : RoundedElem A eps p) (hu : u ≤ 1 / 2 ^ 52) (he : eps ≤ 1 / 2 ^ 50) {r1 r2 φ : F} {ρ σ ψ : ℝ}
    (h1 : A.val r1 = some ρ) (h2 : A.val r2 = some σ) (hφ : A.val φ = some ψ) (b1 : |ρ| ≤ 34) (b2 : |σ| ≤ 34)
    (hd : A.rnd (ρ - σ) = ρ - σ) (hψ : |ψ| ≤ 600) :
    ∃ v m d, A.val (ofRat 1 -. CFloat.cos (ofRat 0 -. φ)) = some v ∧ |v - (1 - cos ψ)| ≤ 1 / 2 ^ 49 ∧
      A.val (hyperbolicDistance r1 (ofRat 0) r2 φ) = some d ∧
      |d - arcosh (max 1 m)| ≤ eps * arcosh (max 1 m) + tau ∧
      |m - (cosh (ρ - σ) + v * (sinh ρ * sinh σ))| ≤ 1 / 2 ^ 47 * (cosh (ρ - σ) + |v * (sinh ρ * sinh σ)|) + 1 / 2 ^ 800 ∧ max 1 m ≤ 2 ^ 105 := by
  have hu0 := A.u_nonneg
  have he0 := E.eps_nonneg
  have ht0 := tau_pos
  obtain ⟨v, hv, hve⟩ := oneSubCos_val E hu he hφ hψ
  have hc1 := Real.abs_cos_le_one ψ
  have hv3 : |v| ≤ 3 := by
    obtain ⟨a1, a2⟩ := abs_le.1 hc1
    obtain ⟨b1, b2⟩ := abs_le.1 hve
    norm_num at b1 b2
    rw [abs_le]; constructor <;> linarith
  have hdiff : |ρ - σ| ≤ 68 := (abs_sub ρ σ).trans (by linarith)
  have vd := A.sub _ _ _ _ h1 h2 (two_pow_1023 (k := 10) (by norm_num) (by norm_num; linarith))
  rw [hd] at vd
  obtain ⟨C, vC, hC⟩ := E.cosh _ _ vd (by linarith)
  obtain ⟨s, vs, hs⟩ := E.sinh _ _ h1 (by linarith)
  obtain ⟨t, vt, ht⟩ := E.sinh _ _ h2 (by linarith)
  have tau1 : tau ≤ 1 := by
    have := tau_le (k := 0) (by norm_num)
    rw [pow_zero, mul_one] at this
    exact this.trans (by rw [div_le_one (by positivity)]; exact one_le_pow₀ (by norm_num))
  have nv : Near 0 tau v v := by unfold Near; simp [ht0.le]
  have ns : Near (1 / 2 ^ 50) tau s (sinh ρ) := hs.trans (add_le_add (mul_le_mul_of_nonneg_right he (abs_nonneg _)) le_rfl)
  have nt : Near (1 / 2 ^ 50) tau t (sinh σ) := ht.trans (add_le_add (mul_le_mul_of_nonneg_right he (abs_nonneg _)) le_rfl)
  have s50 := sinh_34 (b1.trans (by norm_num))
  have t50 := sinh_34 (b2.trans (by norm_num))
  have hv50 : |v| ≤ 2 ^ 60 := hv3.trans (by norm_num)
  have n1 := Near.mul (A := A) hu nv ns le_rfl (by norm_num) (by norm_num) (by norm_num) le_rfl tau1 hv50 (s50.trans (by norm_num)) (by norm_num)
  have habs : ∀ {k t y x : ℝ}, Near k t y x → |y| ≤ (1 + k) * |x| + t := by
    intro k t y x h
    unfold Near at h
    have := abs_add_le x (y - x)
    rw [add_sub_cancel] at this
    linarith
  have hvs : |v * sinh ρ| ≤ 3 * 2 ^ 50 := by rw [abs_mul]; exact mul_le_mul hv3 s50 (abs_nonneg _) (by norm_num)
  have tauB : 8 * tau * 2 ^ 60 ≤ 1 / 2 ^ 900 := by
    have := tau_le (k := 63) (by norm_num)
    refine le_trans (le_of_eq (by ring)) (this.trans ?_)
    apply one_div_le_one_div_of_le (by positivity); exact pow_le_pow_right₀ (by norm_num) (by norm_num)
  have small : (1 : ℝ) / 2 ^ 900 ≤ 1 / 2 ^ 100 := by
    apply one_div_le_one_div_of_le (by positivity); exact pow_le_pow_right₀ (by norm_num) (by norm_num)
  have sx : |s| ≤ 2 ^ 52 := by
    have := habs ns
    norm_num at this s50 ⊢
    linarith
  have tx : |t| ≤ 2 ^ 52 := by
    have := habs nt
    norm_num at this t50 ⊢
    linarith
  have v1 := A.mul _ _ _ _ hv vs (by
    rw [abs_mul]
    exact two_pow_1023 (k := 60) (by norm_num) ((mul_le_mul hv3 sx (abs_nonneg _) (by norm_num)).trans (by norm_num)))
  have h1x : |A.rnd (v * s)| ≤ 2 ^ 55 := by
    have := habs n1
    have h9 := tauB.trans small
    norm_num at this h9 hvs ⊢
    linarith
  have n2 := Near.mul (A := A) (B := 2 ^ 60) (t := 8 * tau * 2 ^ 60) hu n1
    (show Near (1 / 2 ^ 50) (8 * tau * 2 ^ 60) t (sinh σ) from le_trans nt (by
      have : tau ≤ 8 * tau * 2 ^ 60 := by nlinarith
      linarith)) (by norm_num) (by norm_num) (by norm_num) (by norm_num) (by nlinarith)
      (tauB.trans (small.trans (by norm_num))) (hvs.trans (by norm_num)) (t50.trans (by norm_num)) (by norm_num)
  have v2 := A.mul _ _ _ _ v1 vt (by
    rw [abs_mul]
    exact two_pow_1023 (k := 110) (by norm_num) ((mul_le_mul h1x tx (abs_nonneg _) (by norm_num)).trans (by norm_num)))
  rw [mul_assoc v] at n2
  generalize hP : A.rnd (A.rnd (v * s) * t) = P at *
  have tauB2 : 8 * (8 * tau * 2 ^ 60) * 2 ^ 60 ≤ 1 / 2 ^ 850 := by
    have := tau_le (k := 126) (by norm_num)
    refine le_trans (le_of_eq (by ring)) (this.trans ?_)
    apply one_div_le_one_div_of_le (by positivity); exact pow_le_pow_right₀ (by norm_num) (by norm_num)
  have n3 : |P - v * (sinh ρ * sinh σ)| ≤ 3 / 2 ^ 50 * |v * (sinh ρ * sinh σ)| + 1 / 2 ^ 850 := by
    refine le_trans n2 (add_le_add (le_of_eq ?_) tauB2)
    norm_num
  have hC68 := cosh_68 hdiff
  have hC1 := one_le_cosh (ρ - σ)
  set Q := v * (sinh ρ * sinh σ) with hQ
  have hQ1 : |Q| ≤ 3 * 2 ^ 100 := by
    rw [hQ, abs_mul, abs_mul]
    refine (mul_le_mul hv3 (mul_le_mul s50 t50 (abs_nonneg _) (by norm_num)) (by positivity) (by norm_num)).trans (by norm_num)
  have hCe : |C - cosh (ρ - σ)| ≤ 1 / 2 ^ 50 * cosh (ρ - σ) := hC.trans (mul_le_mul_of_nonneg_right he (by linarith))
  have h850 : (1 : ℝ) / 2 ^ 850 ≤ 1 / 2 ^ 100 := by
    apply one_div_le_one_div_of_le (by positivity); exact pow_le_pow_right₀ (by norm_num) (by norm_num)
  have hsum : |C + P - (cosh (ρ - σ) + Q)| ≤ 1 / 2 ^ 50 * cosh (ρ - σ) + 3 / 2 ^ 50 * |Q| + 1 / 2 ^ 850 := by
    rw [show C + P - (cosh (ρ - σ) + Q) = (C - cosh (ρ - σ)) + (P - Q) by ring]
    refine (abs_add_le _ _).trans ?_
    linarith
  have hCP : |C + P| ≤ 2 * (cosh (ρ - σ) + |Q|) := by
    have h3 := abs_add_le (cosh (ρ - σ) + Q) (C + P - (cosh (ρ - σ) + Q))
    rw [add_sub_cancel] at h3
    have h4 := abs_add_le (cosh (ρ - σ)) Q
    rw [abs_of_pos (cosh_pos _)] at h4
    have := abs_nonneg Q
    generalize (1 : ℝ) / 2 ^ 850 = w at *
    linarith
  have hbig : |C + P| ≤ 2 ^ 110 := by
    refine hCP.trans ?_
    norm_num at hC68 hQ1 ⊢
    linarith
  have v3 := A.add _ _ _ _ vC v2 (two_pow_1023 (k := 110) (by norm_num) hbig)
  have v4 := A.val_fmax A.val_one v3
  have hm : |A.rnd (C + P) - (cosh (ρ - σ) + Q)| ≤ 1 / 2 ^ 47 * (cosh (ρ - σ) + |Q|) + 1 / 2 ^ 800 := by
    have h3 := A.err_all (C + P)
    have h4 : u * |C + P| ≤ 1 / 2 ^ 52 * (2 * (cosh (ρ - σ) + |Q|)) := mul_le_mul hu hCP (abs_nonneg _) (by norm_num)
    have h5 : tau ≤ 1 / 2 ^ 850 := by nlinarith
    have h6 : (1 : ℝ) / 2 ^ 850 + 1 / 2 ^ 850 ≤ 1 / 2 ^ 800 := by
      have e : (2 : ℝ) ^ 850 = 2 ^ 800 * 2 ^ 50 := by rw [← pow_add]
      have hp : (0 : ℝ) < 2 ^ 800 := by positivity
      rw [e]
      generalize (2 : ℝ) ^ 800 = z at hp ⊢
      rw [← add_div, div_le_div_iff₀ (by positivity) hp]
      nlinarith
    have h7 := abs_sub_le (A.rnd (C + P)) (C + P) (cosh (ρ - σ) + Q)
    have := abs_nonneg Q
    generalize (1 : ℝ) / 2 ^ 850 = w at *
    generalize (1 : ℝ) / 2 ^ 800 = w' at *
    norm_num at h4 hsum ⊢
    linarith
  have h800 : (1 : ℝ) / 2 ^ 800 ≤ 1 := by
    rw [div_le_one (by positivity)]; exact one_le_pow₀ (by norm_num)
  have hmx : max 1 (A.rnd (C + P)) ≤ 2 ^ 105 := by
    apply max_le (one_le_pow₀ (by norm_num))
    have h3 := (abs_le.1 hm).2
    have h4 := le_abs_self Q
    generalize (1 : ℝ) / 2 ^ 800 = w' at *
    norm_num at hC68 hQ1 h3 ⊢
    linarith
  obtain ⟨d, vdd, hdd⟩ := E.acosh _ _ v4 (le_max_left _ _) (hmx.trans (pow_le_pow_right₀ (by norm_num) (by norm_num)))
  exact ⟨v, A.rnd (C + P), d, hv, hve, vdd, hdd, hm, hmx⟩

end Girgs
