import Verif.Proofs.HRoundedPoint
/-!
Type II pairs of the hyperbolic sampler are not closer than `R`, up to rounding.
-/
namespace Girgs
open Spec CFloat HBuild Angle

variable {F : Type} [CFloat F] {u lam eps p : ℝ} {A : Rounded F u lam} {Rf : F} {R : ℝ}

/-- the distance is convex in a radius -/
theorem hc_convex {ρ r s φ : ℝ} (h0 : 0 < ρ) (h : ρ ≤ r) : r * hc ρ s φ ≤ ρ * hc r s φ + (r - ρ) * Real.cosh s := by
  have hr : 0 < r := lt_of_lt_of_le h0 h
  have w1 : 0 ≤ ρ / r := by positivity
  have w0 : 0 ≤ 1 - ρ / r := by
    have : ρ / r ≤ 1 := by rw [div_le_one hr]; exact h
    linarith
  have h1 := convexOn_exp.2 (Set.mem_univ r) (Set.mem_univ 0) w1 w0 (by ring)
  have h2 := convexOn_exp.2 (Set.mem_univ (-r)) (Set.mem_univ 0) w1 w0 (by ring)
  simp only [smul_eq_mul, mul_zero, add_zero, Real.exp_zero, mul_one] at h1 h2
  rw [div_mul_cancel₀ _ hr.ne'] at h1
  rw [show ρ / r * -r = -ρ by field_simp] at h2
  have e1 : ρ / r * Real.exp r + (1 - ρ / r) = (ρ * Real.exp r + (r - ρ)) / r := by field_simp
  have e2 : ρ / r * Real.exp (-r) + (1 - ρ / r) = (ρ * Real.exp (-r) + (r - ρ)) / r := by field_simp
  rw [e1, le_div_iff₀ hr] at h1
  rw [e2, le_div_iff₀ hr] at h2
  have hK : |Real.sinh s * Real.cos φ| ≤ Real.cosh s := by
    rw [abs_mul]
    have hsc : |Real.sinh s| ≤ Real.cosh s := by
      rw [abs_le]
      constructor
      · have := Real.sinh_lt_cosh (-s); rw [Real.sinh_neg, Real.cosh_neg] at this; linarith
      · exact (Real.sinh_lt_cosh s).le
    have h3 := mul_le_mul hsc (Real.abs_cos_le_one φ) (abs_nonneg _) (Real.cosh_pos s).le
    rwa [mul_one] at h3
  obtain ⟨k1, k2⟩ := abs_le.1 hK
  rw [hc_eq', hc_eq', Real.cosh_eq ρ, Real.cosh_eq r, Real.sinh_eq ρ, Real.sinh_eq r]
  generalize hKe : Real.sinh s * Real.cos φ = K at *
  have q1 := mul_le_mul_of_nonneg_left h1 (show 0 ≤ Real.cosh s - K by linarith)
  have q2 := mul_le_mul_of_nonneg_left h2 (show 0 ≤ Real.cosh s + K by linarith)
  have e3 : ∀ x : ℝ, x * Real.sinh s * Real.cos φ = x * K := by intro x; rw [← hKe]; ring
  rw [e3, e3]
  nlinarith

theorem hc_raise {ρ r s φ : ℝ} (h0 : 0 < ρ) (h : ρ ≤ r) (hs : Real.cosh s ≤ hc ρ s φ) : hc ρ s φ ≤ hc r s φ := by
  have h1 := hc_convex (s := s) (φ := φ) h0 h
  have h2 : (r - ρ) * Real.cosh s ≤ (r - ρ) * hc ρ s φ := mul_le_mul_of_nonneg_left hs (by linarith)
  have h3 : ρ * hc ρ s φ ≤ ρ * hc r s φ := by nlinarith
  exact le_of_mul_le_mul_left h3 h0

theorem cosh_slack (R : ℝ) : Real.cosh (R + 1 / 2 ^ 44) ≤ (1 + 1.01 / 2 ^ 44) * Real.cosh R := by
  have h := (abs_le.1 (Real.abs_exp_sub_one_sub_id_le (x := 1 / 2 ^ 44) (by rw [abs_of_pos (by positivity)]; norm_num))).2
  have h1 : Real.exp (1 / 2 ^ 44) ≤ 1 + 1.01 / 2 ^ 44 := by norm_num at h ⊢; linarith
  have h2 : Real.exp (-(1 / 2 ^ 44)) ≤ 1 + 1.01 / 2 ^ 44 := by
    refine le_trans (Real.exp_le_one_iff.2 (by norm_num)) (by norm_num)
  rw [Real.cosh_eq, Real.cosh_eq, Real.exp_add, show -(R + 1 / 2 ^ 44) = -R + -(1 / 2 ^ 44) by ring, Real.exp_add]
  have a := mul_le_mul_of_nonneg_left h1 (Real.exp_pos R).le
  have b := mul_le_mul_of_nonneg_left h2 (Real.exp_pos (-R)).le
  linarith

/-- the last step of raising both radii -/
theorem raise_final {ρ s c δ f g q : ℝ} (hρ : 0.379 ≤ ρ) (hs : s - ρ ≤ 1 + 1 / 2 ^ 44) (hc : 0 ≤ c) (hδ : 0 ≤ δ) (q1 : s * (c - δ) ≤ s * f)
    (q2 : (s - ρ) * q ≤ (s - ρ) * ((1 + 1.01 / 2 ^ 44) * c)) (g2 : s * f ≤ ρ * g + (s - ρ) * q) :
    c - 3.64 * δ - 1.4 / 2 ^ 43 * c ≤ g := by
  have h1 : s * δ ≤ 3.64 * ρ * δ := mul_le_mul_of_nonneg_right (by norm_num at hs ⊢; linarith) hδ
  have h2 : (s - ρ) * (1.01 / 2 ^ 44 * c) ≤ (1 + 1 / 2 ^ 44) * (1.01 / 2 ^ 44 * c) := mul_le_mul_of_nonneg_right hs (by positivity)
  have h3 : (1 + 1 / 2 ^ 44) * (1.01 / 2 ^ 44 * c) ≤ ρ * (1.4 / 2 ^ 43 * c) := by
    refine le_trans ?_ (mul_le_mul_of_nonneg_right hρ (by positivity))
    rw [← mul_assoc, ← mul_assoc]
    exact mul_le_mul_of_nonneg_right (by norm_num) hc
  have q3 : ρ * (c - 3.64 * δ - 1.4 / 2 ^ 43 * c) ≤ ρ * g := by
    have e : (s - ρ) * ((1 + 1.01 / 2 ^ 44) * c) = (s - ρ) * c + (s - ρ) * (1.01 / 2 ^ 44 * c) := by ring
    have e2 : ρ * (c - 3.64 * δ - 1.4 / 2 ^ 43 * c) = ρ * c - 3.64 * ρ * δ - ρ * (1.4 / 2 ^ 43 * c) := by ring
    have e3 : s * (c - δ) = s * c - s * δ := by ring
    rw [e] at q2
    rw [e2]
    rw [e3] at q1
    have e4 : (s - ρ) * c = s * c - ρ * c := by ring
    linarith
  exact le_of_mul_le_mul_left q3 (by linarith)

theorem cosh_half_gap {R : ℝ} (h : 1.379 ≤ R) : Real.cosh (R - 1 / 2) ≤ 0.72 * Real.cosh R := by
  have hb : Real.exp (1 / 2) ≤ 1.6488 := by
    refine le_of_sq_le_sq ?_ (by norm_num)
    rw [← Real.exp_nat_mul, show ((2 : ℕ) : ℝ) * (1 / 2) = 1 by norm_num]
    exact le_trans Real.exp_one_lt_d9.le (by norm_num)
  have ha : Real.exp (-(1 / 2)) ≤ 0.6066 := by
    refine le_of_sq_le_sq ?_ (by norm_num)
    rw [← Real.exp_nat_mul, show ((2 : ℕ) : ℝ) * (-(1 / 2)) = -1 by norm_num, Real.exp_neg, inv_le_comm₀ (Real.exp_pos 1) (by norm_num)]
    exact le_trans (by norm_num) Real.exp_one_gt_d9.le
  have hx : 8.2 * Real.exp (-R) ≤ Real.exp R := by
    have e : Real.exp R = Real.exp (-R) * (Real.exp 1 ^ 2 * Real.exp (2 * R - 2)) := by
      rw [← Real.exp_nat_mul, ← Real.exp_add, ← Real.exp_add]; congr 1; push_cast; ring
    have h1 := Real.add_one_le_exp (2 * R - 2)
    have h2 : (2.718 : ℝ) ^ 2 ≤ Real.exp 1 ^ 2 := pow_le_pow_left₀ (by norm_num) (le_trans (by norm_num) Real.exp_one_gt_d9.le) 2
    have h3 : 8.2 ≤ Real.exp 1 ^ 2 * Real.exp (2 * R - 2) := by
      refine le_trans (by norm_num) (mul_le_mul h2 (show (1.7 : ℝ) ≤ _ by linarith) (by norm_num) (by positivity))
    have := mul_le_mul_of_nonneg_left h3 (Real.exp_pos (-R)).le
    rw [← e] at this
    linarith
  rw [Real.cosh_eq, Real.cosh_eq, show R - 1 / 2 = R + -(1 / 2) by ring, Real.exp_add, show -(R + -(1 / 2)) = -R + 1 / 2 by ring, Real.exp_add]
  have q1 := mul_le_mul_of_nonneg_left ha (Real.exp_pos R).le
  have q2 := mul_le_mul_of_nonneg_left hb (Real.exp_pos (-R)).le
  have := Real.exp_pos (-R)
  linarith

namespace RDisk
variable (D : RDisk A eps p Rf R)
include D

/-- the inner corner of two layers that are compared on a finer level -/
theorem cond_hc {i j L : ℕ} (hi : i < ⌈R⌉.toNat) (hj : j < ⌈R⌉.toNat) (hL : L ≤ 100) {a b : F} (ha : A.val a = some (R - i - 1))
    (hb : A.val b = some (R - j - 1)) (h1 : 0 < R - i - 1) (h2 : 0 < R - j - 1) (h : RadiusLayer.pblCond a b Rf L = true) :
    Real.cosh R - (1 / 2 ^ 43 * Real.cosh R + 1.01 / 2 ^ 48 * (Real.sinh (R - i - 1) * Real.sinh (R - j - 1))) ≤
      hc (R - i - 1) (R - j - 1) (Real.pi / 2 ^ L) := by
  obtain ⟨v, m, _, hv, hm, h3, _⟩ := D.cond_spec hi hj hL ha hb
  have h4 := h3 h
  have hsp : 0 < Real.sinh (R - i - 1) * Real.sinh (R - j - 1) := mul_pos (Real.sinh_pos_iff.2 h1) (Real.sinh_pos_iff.2 h2)
  have hC := Real.one_le_cosh ((R - i - 1) - (R - j - 1))
  have hR := Real.one_le_cosh R
  have h8 := small800
  have hv0 : 0 ≤ 1 - Real.cos (Real.pi / 2 ^ L) := by linarith [Real.cos_le_one (Real.pi / 2 ^ L)]
  unfold hc
  rw [mul_assoc]
  generalize Real.sinh (R - i - 1) * Real.sinh (R - j - 1) = S at *
  generalize Real.cosh ((R - i - 1) - (R - j - 1)) = C at *
  generalize 1 - Real.cos (Real.pi / 2 ^ L) = v0 at *
  obtain ⟨v1, v2⟩ := abs_le.1 hv
  have hvS : v * S ≤ v0 * S + 1 / 2 ^ 48 * S := by nlinarith
  have hvS' : |v * S| ≤ v0 * S + 1 / 2 ^ 48 * S := by
    rw [abs_le]
    refine ⟨?_, hvS⟩
    have : 0 ≤ (v0 + (v + 1 / 2 ^ 48)) * S := mul_nonneg (by linarith) hsp.le
    nlinarith
  have hm2 := (abs_le.1 hm).2
  have hvp : 0 ≤ v0 * S := mul_nonneg hv0 hsp.le
  generalize (1 : ℝ) / 2 ^ 800 = w at *
  generalize |v * S| = q at *
  generalize v * S = q' at *
  generalize v0 * S = z at *
  generalize Real.cosh R = c at *
  clear hv h3 h hm
  norm_num at h4 h8 hm2 hvS hvS' ⊢
  linarith

theorem ge_of_two (h : 1 < R) : 1.379 ≤ R := by
  have h1 : 1 < ⌈R⌉ := by
    have : (1 : ℝ) < (⌈R⌉ : ℝ) := lt_of_lt_of_le h (Int.le_ceil R)
    exact_mod_cast this
  have h2 : (2 : ℝ) ≤ (⌈R⌉ : ℝ) := by exact_mod_cast h1
  have := D.ceil
  norm_num
  linarith

/-- raising the radii from the inner corner of the layers -/
theorem hc_layers {i j : ℕ} {r s φ : ℝ} (h1 : 0 < R - i - 1) (h2 : 0 < R - j - 1) (hr : R - i - 1 < r) (hs : R - j - 1 < s) (hrR : r ≤ R + 1 / 2 ^ 44)
    (hsR : s ≤ R + 1 / 2 ^ 44) (hri : 1 ≤ i → r ≤ R - 1 / 2) (hsj : 1 ≤ j → s ≤ R - 1 / 2)
    (h : Real.cosh R - (1 / 2 ^ 43 * Real.cosh R + 1.01 / 2 ^ 48 * (Real.sinh (R - i - 1) * Real.sinh (R - j - 1))) ≤
      hc (R - i - 1) (R - j - 1) φ) :
    Real.cosh R - 3.64 * (1 / 2 ^ 43 * Real.cosh R + 1.01 / 2 ^ 48 * (Real.sinh r * Real.sinh s)) - 1.4 / 2 ^ 43 * Real.cosh R ≤ hc r s φ := by
  have h34 := D.le34
  have hi0 : (0 : ℝ) ≤ i := Nat.cast_nonneg _
  have hj0 : (0 : ℝ) ≤ j := Nat.cast_nonneg _
  have hR := D.ge_of_two (by linarith)
  have hgap := cosh_half_gap hR
  have hmono : ∀ x : ℝ, 0 ≤ x → x ≤ R - 1 / 2 → Real.cosh x ≤ 0.72 * Real.cosh R := by
    intro x hx0 hx
    refine le_trans (Real.cosh_le_cosh.2 ?_) hgap
    rw [abs_of_nonneg hx0, abs_of_nonneg (by linarith)]; exact hx
  have sp1 : 0 < Real.sinh (R - i - 1) := Real.sinh_pos_iff.2 h1
  have sp2 : 0 < Real.sinh (R - j - 1) := Real.sinh_pos_iff.2 h2
  have sm1 : Real.sinh (R - i - 1) ≤ Real.sinh r := Real.sinh_le_sinh.2 hr.le
  have sm2 : Real.sinh (R - j - 1) ≤ Real.sinh s := Real.sinh_le_sinh.2 hs.le
  have hSS : Real.sinh (R - i - 1) * Real.sinh (R - j - 1) ≤ Real.sinh r * Real.sinh s := mul_le_mul sm1 sm2 sp2.le (by linarith)
  have hS0 : 0 < Real.sinh (R - i - 1) * Real.sinh (R - j - 1) := mul_pos sp1 sp2
  -- the error is at most a quarter
  have hSR : 1.01 / 2 ^ 48 * (Real.sinh (R - i - 1) * Real.sinh (R - j - 1)) ≤ 0.2526 * Real.cosh R := by
    have k1 : ∀ x : ℝ, 0 < x → x ≤ R - 1 → Real.sinh x ≤ Real.exp (R - 1) / 2 := by
      intro x _ hx
      rw [Real.sinh_eq]
      have := Real.exp_pos (-x)
      have := Real.exp_le_exp.2 hx
      linarith
    have k2 := mul_le_mul (k1 _ h1 (by linarith)) (k1 _ h2 (by linarith)) sp2.le (by positivity)
    have k3 : Real.exp (R - 1) * Real.exp (R - 1) = Real.exp (R - 2) * Real.exp R := by rw [← Real.exp_add, ← Real.exp_add]; congr 1; ring
    have k4 : Real.exp (R - 2) ≤ 2 ^ 47 := by
      refine (Real.exp_le_exp.2 (show R - 2 ≤ 32 by linarith)).trans ?_
      have := Real.log_two_gt_d9
      rw [← Real.le_log_iff_exp_le (by positivity), Real.log_pow]
      push_cast
      linarith
    have k5 : Real.exp R ≤ 2 * Real.cosh R := by rw [Real.cosh_eq]; have := Real.exp_pos (-R); linarith
    have k6 := mul_le_mul k4 k5 (Real.exp_pos R).le (by positivity)
    rw [← k3] at k6
    have k7 : Real.sinh (R - i - 1) * Real.sinh (R - j - 1) ≤ 2 ^ 47 * (2 * Real.cosh R) / 4 := by linarith
    have := mul_le_mul_of_nonneg_left k7 (show (0 : ℝ) ≤ 1.01 / 2 ^ 48 by norm_num)
    refine this.trans (le_of_eq_of_le ?_ (mul_le_mul_of_nonneg_right (show (0.2525 : ℝ) ≤ 0.2526 by norm_num) (Real.cosh_pos R).le))
    norm_num
    ring
  have hcR := Real.one_le_cosh R
  have hlow : 0.74 * Real.cosh R ≤ hc (R - i - 1) (R - j - 1) φ := by
    refine le_trans ?_ h
    clear hgap hmono h
    norm_num at hSR ⊢
    linarith
  have hfin : ∀ x : ℝ, Real.cosh R - (1 / 2 ^ 43 * Real.cosh R + 1.01 / 2 ^ 48 * (Real.sinh (R - i - 1) * Real.sinh (R - j - 1))) ≤ x →
      Real.cosh R - 3.64 * (1 / 2 ^ 43 * Real.cosh R + 1.01 / 2 ^ 48 * (Real.sinh r * Real.sinh s)) - 1.4 / 2 ^ 43 * Real.cosh R ≤ x := by
    intro x hx
    refine le_trans ?_ hx
    have : (1 : ℝ) * (1 / 2 ^ 43 * Real.cosh R + 1.01 / 2 ^ 48 * (Real.sinh (R - i - 1) * Real.sinh (R - j - 1))) ≤
        3.64 * (1 / 2 ^ 43 * Real.cosh R + 1.01 / 2 ^ 48 * (Real.sinh r * Real.sinh s)) := by
      apply mul_le_mul (by norm_num) _ (by positivity) (by norm_num)
      have := mul_le_mul_of_nonneg_left hSS (show (0 : ℝ) ≤ 1.01 / 2 ^ 48 by norm_num)
      linarith
    have hx0 : 0 ≤ 1.4 / 2 ^ 43 * Real.cosh R := mul_nonneg (by norm_num) (Real.cosh_pos R).le
    linarith
  have hr0 : 0 < r := by linarith
  have hs0 : 0 < s := by linarith
  by_cases hi : 1 ≤ i
  · -- first r, then s
    have g1 := hc_raise h1 hr.le (le_trans (hmono _ h2.le (by linarith)) (le_trans (by linarith) hlow))
    have g2 : hc r (R - j - 1) φ ≤ hc r s φ := by
      rw [hc_symm r, hc_symm r s]
      refine hc_raise h2 hs.le (le_trans (hmono _ hr0.le (hri hi)) ?_)
      rw [hc_symm]
      linarith
    exact hfin _ (h.trans (g1.trans g2))
  · by_cases hj : 1 ≤ j
    · have g1 : hc (R - i - 1) (R - j - 1) φ ≤ hc (R - i - 1) s φ := by
        rw [hc_symm _ (R - j - 1), hc_symm _ s]
        refine hc_raise h2 hs.le (le_trans (hmono _ h1.le (by linarith)) ?_)
        rw [hc_symm]
        linarith
      have g2 := hc_raise (s := s) (φ := φ) h1 hr.le (le_trans (hmono _ hs0.le (hsj hj)) (by linarith))
      exact hfin _ (h.trans (g1.trans g2))
    · have ei : i = 0 := by omega
      have ej : j = 0 := by omega
      subst ei ej
      have g1 := hc_raise h1 hr.le (le_trans (hmono _ h2.le (by linarith)) (le_trans (by linarith) hlow))
      have g2 := hc_convex (ρ := R - (0 : ℕ) - 1) (r := s) (s := r) (φ := φ) h2 hs.le
      rw [hc_symm _ r, hc_symm s r] at g2
      have g3 := h.trans g1
      have g4 : Real.cosh r ≤ (1 + 1.01 / 2 ^ 44) * Real.cosh R := by
        have hle : |r| ≤ |R + 1 / 2 ^ 44| := by
          rw [abs_of_pos hr0, abs_of_pos (lt_of_lt_of_le hr0 hrR)]; exact hrR
        exact (Real.cosh_le_cosh.2 hle).trans (cosh_slack R)
      have hρ : 0.379 ≤ R - (0 : ℕ) - 1 := by push_cast; linarith
      have hse : s - (R - (0 : ℕ) - 1) ≤ 1 + 1 / 2 ^ 44 := by push_cast; linarith
      have hsn : 0 ≤ s - (R - (0 : ℕ) - 1) := by linarith
      have hδ : 0 ≤ 1 / 2 ^ 43 * Real.cosh R + 1.01 / 2 ^ 48 * (Real.sinh (R - (0 : ℕ) - 1) * Real.sinh (R - (0 : ℕ) - 1)) := by positivity
      have hδ' : 1 / 2 ^ 43 * Real.cosh R + 1.01 / 2 ^ 48 * (Real.sinh (R - (0 : ℕ) - 1) * Real.sinh (R - (0 : ℕ) - 1)) ≤
          1 / 2 ^ 43 * Real.cosh R + 1.01 / 2 ^ 48 * (Real.sinh r * Real.sinh s) := by
        have := mul_le_mul_of_nonneg_left hSS (show (0 : ℝ) ≤ 1.01 / 2 ^ 48 by norm_num)
        linarith
      generalize hδe : 1 / 2 ^ 43 * Real.cosh R + 1.01 / 2 ^ 48 * (Real.sinh (R - (0 : ℕ) - 1) * Real.sinh (R - (0 : ℕ) - 1)) = δ at *
      refine le_trans (show _ ≤ Real.cosh R - 3.64 * δ - 1.4 / 2 ^ 43 * Real.cosh R by linarith) ?_
      generalize hc r (R - (0 : ℕ) - 1) φ = f at *
      generalize R - (0 : ℕ) - 1 = ρ at *
      -- ρ * hc r s ≥ s f - (s - ρ) cosh R ≥ ρ cosh R - s δ
      have q1 : s * (Real.cosh R - δ) ≤ s * f := mul_le_mul_of_nonneg_left g3 hs0.le
      have q2 : (s - ρ) * Real.cosh r ≤ (s - ρ) * ((1 + 1.01 / 2 ^ 44) * Real.cosh R) := mul_le_mul_of_nonneg_left g4 hsn
      exact raise_final hρ hse (by linarith) hδ q1 q2 g2

/-- points of a type II call are not closer than `R`, up to rounding -/
theorem far {i j l cA cB : ℕ} (hi : i < ⌈R⌉.toNat) (hj : j < ⌈R⌉.toNat) (hA : OnLv l cA) (hB : OnLv l cB) (ht : touchN l cA cB = false)
    (hl : l ≤ rpbl Rf i j) {r s a b a' b' : ℝ} (hr : R - i - 1 < r) (hs : R - j - 1 < s) (hrR : r ≤ R + 1 / 2 ^ 44) (hsR : s ≤ R + 1 / 2 ^ 44)
    (hri : 1 ≤ i → r ≤ R - 1 / 2) (hsj : 1 ≤ j → s ≤ R - 1 / 2) (ha' : InArc l cA a') (hb' : InArc l cB b') (ha : |a' - a| ≤ 1 / 2 ^ 47)
    (hb : |b' - b| ≤ 1 / 2 ^ 47) :
    Real.cosh R ≤ hypCosh r a s b + 1 / 2 ^ 40 * (Real.cosh r * Real.cosh s + Real.cosh R) := by
  have hl2 := two_le_level hA hB ht
  obtain ⟨e1, e31⟩ := D.rpbl_eq hi hj
  obtain ⟨_, hk⟩ := pbl_some_iff.1 e1
  obtain ⟨h1, h2⟩ := D.cond_pos hi hj (D.radMin_val hi) (D.radMin_val hj) (hk 0 (by omega))
  have h3 := D.cond_hc hi hj (L := l - 1) (by omega) (D.radMin_val hi) (D.radMin_val hj) h1 h2 (hk (l - 1) (by omega))
  have e : Real.pi / 2 ^ (l - 1) = 2 * Real.pi / 2 ^ l := by
    obtain ⟨m, hm⟩ : ∃ m, l = m + 1 := ⟨l - 1, by omega⟩
    rw [hm, Nat.add_sub_cancel, pow_succ]; field_simp
  rw [e] at h3
  have h4 := D.hc_layers h1 h2 hr hs hrR hsR hri hsj h3
  have sr : 0 < Real.sinh r := Real.sinh_pos_iff.2 (by linarith)
  have ss : 0 < Real.sinh s := Real.sinh_pos_iff.2 (by linarith)
  have hss : 0 < Real.sinh r * Real.sinh s := mul_pos sr ss
  have hb1 := betweenN_pos hA hB ht
  have hcos := (ha'.cos_le hA hB hb').trans (cos_between_le hb1 (betweenN_le hA hB hb1) rfl)
  have h5 := hc_angle hss.le hcos
  have hcd : |Real.cos (a' - b') - Real.cos (a - b)| ≤ 1 / 2 ^ 46 := by
    refine (Real.abs_cos_sub_cos_le _ _).trans ?_
    rw [show a' - b' - (a - b) = (a' - a) - (b' - b) by ring]
    refine (abs_sub _ _).trans ?_
    norm_num at ha hb ⊢
    linarith
  have hcd2 := (abs_le.1 hcd).1
  have hle : Real.sinh r * Real.sinh s ≤ Real.cosh r * Real.cosh s :=
    mul_le_mul (Real.sinh_lt_cosh r).le (Real.sinh_lt_cosh s).le ss.le (Real.cosh_pos r).le
  have h6 : hc r s (a' - b') ≤ hypCosh r a s b + 1 / 2 ^ 46 * (Real.sinh r * Real.sinh s) := by
    rw [← hc_eq, hc_eq', hc_eq']
    have := mul_le_mul_of_nonneg_left (show Real.cos (a - b) - 1 / 2 ^ 46 ≤ Real.cos (a' - b') by linarith) hss.le
    linarith
  have h7 := h4.trans (h5.trans h6)
  generalize Real.sinh r * Real.sinh s = S at *
  generalize Real.cosh r * Real.cosh s = C at *
  generalize hypCosh r a s b = f at *
  have hcR := Real.one_le_cosh R
  generalize Real.cosh R = c at *
  clear h3 h4 h5 h6 hcd hcd2 ha hb
  norm_num at h7 ⊢
  linarith

end RDisk
end Girgs
