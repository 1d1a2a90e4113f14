import Verif.Proofs.HRoundedLevel
import Mathlib.Analysis.Convex.SpecificFunctions.Basic
/-!
The levels computed by `partitioningBaseLevel` in floating point arithmetic.
-/
namespace Girgs
open Spec CFloat HBuild
open Real (exp sinh arcosh)

variable {F : Type} [CFloat F] {u lam eps p : ℝ} {A : Rounded F u lam} {Rf : F} {R : ℝ}

theorem small800 : (1 : ℝ) / 2 ^ 800 ≤ 1 / 2 ^ 100 := by
  apply one_div_le_one_div_of_le (by positivity); exact pow_le_pow_right₀ (by norm_num) (by norm_num)

theorem cosh_gap {R : ℝ} (h1 : 1 < R) : 0.19 * Real.exp R ≤ Real.cosh R - Real.cosh (R - 1) := by
  have hE1 := Real.exp_one_gt_d9
  have hE2 := Real.exp_one_lt_d9
  have hEi : (Real.exp 1)⁻¹ ≤ 0.36788 := by
    rw [inv_le_comm₀ (Real.exp_pos 1) (by norm_num)]
    refine le_trans ?_ hE1.le
    norm_num
  apply coshdiff _ rfl
  have h3 : Real.exp 1 ≤ Real.exp R := Real.exp_le_exp.2 h1.le
  have h4 : (7.389 : ℝ) ≤ Real.exp R ^ 2 := by
    have h8 : ((2.7182818283 : ℝ)) ^ 2 ≤ Real.exp R ^ 2 := pow_le_pow_left₀ (by positivity) (hE1.le.trans h3) 2
    refine le_trans (by norm_num) h8
  have h9 : (0.25212 : ℝ) ≤ 1 - (Real.exp 1)⁻¹ - 2 * 0.19 := by linarith
  have := mul_le_mul h9 h4 (by norm_num) (by linarith)
  refine le_trans ?_ this
  refine le_trans (sub_le_sub_right hE2.le 1) (by norm_num)

theorem cosh_le_exp {R : ℝ} (h : 0 ≤ R) : Real.cosh R ≤ Real.exp R := by
  have : Real.exp (-R) ≤ Real.exp R := Real.exp_le_exp.2 (by linarith)
  rw [Real.cosh_eq]; linarith

theorem cosh_ninetenths (R : ℝ) : Real.cosh (0.9 * R) ≤ 0.9 * Real.cosh R + 0.1 := by
  have h1 := convexOn_exp.2 (Set.mem_univ R) (Set.mem_univ 0) (show (0 : ℝ) ≤ 0.9 by norm_num) (show (0 : ℝ) ≤ 0.1 by norm_num) (by norm_num)
  have h2 := convexOn_exp.2 (Set.mem_univ (-R)) (Set.mem_univ 0) (show (0 : ℝ) ≤ 0.9 by norm_num) (show (0 : ℝ) ≤ 0.1 by norm_num) (by norm_num)
  simp only [smul_eq_mul, mul_zero, add_zero, Real.exp_zero, mul_one] at h1 h2
  rw [Real.cosh_eq, Real.cosh_eq, show -(0.9 * R) = 0.9 * -R by ring]
  linarith

theorem sinh_mul_e {x : ℝ} (h : 0 ≤ x) {k : ℕ} (hk : 1 ≤ k) : 2.7182 * sinh x ≤ sinh (x + k) := by
  have hk' : (1 : ℝ) ≤ k := by exact_mod_cast hk
  have h1 : sinh (x + 1) ≤ sinh (x + k) := Real.sinh_le_sinh.2 (by linarith)
  refine le_trans ?_ h1
  have hE1 := Real.exp_one_gt_d9
  have hs := Real.sinh_nonneg_iff.2 h
  rw [Real.sinh_add]
  have h2 : sinh x ≤ Real.cosh x := (Real.sinh_lt_cosh x).le
  have h3 : 0 ≤ Real.sinh 1 := Real.sinh_nonneg_iff.2 (by norm_num)
  have h4 : Real.cosh 1 + Real.sinh 1 = Real.exp 1 := Real.cosh_add_sinh 1
  have h5 := mul_le_mul_of_nonneg_right h2 h3
  nlinarith

namespace RDisk
variable (D : RDisk A eps p Rf R)
include D

theorem last {k : ℕ} (hk : k < ⌈R⌉.toNat) (h : R - k - 1 ≤ 0) : (k : ℝ) + 1 = (⌈R⌉ : ℝ) ∧ k + 1 = ⌈R⌉.toNat := by
  have h1 : R ≤ ((k + 1 : ℤ) : ℝ) := by push_cast; linarith
  have h2 := Int.ceil_le.2 h1
  have h3 : ((k : ℤ) + 1 : ℤ) = ⌈R⌉ := by omega
  refine ⟨by rw [← h3]; push_cast; rfl, by omega⟩

theorem cosh_ge' : 1.237 ≤ Real.cosh R := by
  have h1 := cosh_quad R
  have h2 := D.ge
  nlinarith

theorem half_case {i j : ℕ} (hi : i < ⌈R⌉.toNat) (hj : j < ⌈R⌉.toNat) (h1 : 0 < R - i - 1) (h2 : R - j - 1 ≤ 0) {v m : ℝ}
    (hv : |v - 2| ≤ 1 / 2 ^ 48)
    (hm : |m - (Real.cosh ((R - i - 1) - (R - j - 1)) + v * (sinh (R - i - 1) * sinh (R - j - 1)))| ≤
        1 / 2 ^ 47 * (Real.cosh ((R - i - 1) - (R - j - 1)) + |v * (sinh (R - i - 1) * sinh (R - j - 1))|) + 1 / 2 ^ 800)
    (h : Real.cosh R * (1 - 1 / 2 ^ 44) < m) : False := by
  obtain ⟨hj1, hj2⟩ := D.last hj h2
  have hcl := D.ceil
  have hRp := D.pos
  have hlt := Int.ceil_lt_add_one R
  have hij : (i : ℝ) + 2 ≤ (⌈R⌉ : ℝ) := by
    have h3 : i + 2 ≤ ⌈R⌉.toNat := by
      by_contra hc
      have : i + 1 = ⌈R⌉.toNat := by omega
      have : i = j := by omega
      subst this; linarith
    have h4 : (i : ℤ) + 2 ≤ ⌈R⌉ := by omega
    exact_mod_cast h4
  have hi0 : (0 : ℝ) ≤ i := Nat.cast_nonneg _
  have hR1 : 1 < R := by linarith
  have hgap := cosh_gap hR1
  have hexp := cosh_le_exp hRp.le
  have hc0 := Real.cosh_pos R
  have hC : Real.cosh ((R - i - 1) - (R - j - 1)) ≤ Real.cosh R := Real.cosh_le_cosh.2 (by
    rw [abs_of_pos hRp]; exact (layers_sub hi hj).le)
  have hsum : Real.cosh ((R - i - 1) + (R - j - 1)) ≤ Real.cosh (R - 1) := Real.cosh_le_cosh.2 (by
    rw [abs_of_pos (show 0 < R - 1 by linarith), abs_le]; constructor <;> linarith)
  generalize R - i - 1 = a at *
  generalize R - j - 1 = b at *
  have hid : Real.cosh (a - b) + 2 * (sinh a * sinh b) = Real.cosh (a + b) := by
    rw [Real.cosh_sub, Real.cosh_add]; ring
  have hS : sinh a * sinh b ≤ 0 := mul_nonpos_of_nonneg_of_nonpos (Real.sinh_nonneg_iff.2 h1.le) (Real.sinh_nonpos_iff.2 h2)
  have hp := Real.cosh_pos (a + b)
  generalize Real.cosh (a + b) = cp at *
  generalize Real.cosh (a - b) = cm at *
  generalize sinh a * sinh b = S at *
  obtain ⟨v1, v2⟩ := abs_le.1 hv
  have h3 := (abs_le.1 hm).2
  have h8 := small800
  generalize (1 : ℝ) / 2 ^ 800 = w at *
  have hvS : |v * S| ≤ 3 * -S := by
    rw [abs_mul, abs_of_nonpos hS]
    apply mul_le_mul_of_nonneg_right _ (by linarith)
    rw [abs_le]; norm_num at v1 v2; constructor <;> linarith
  have hvS2 : v * S ≤ 2 * S + 1 / 2 ^ 48 * (-S) := by nlinarith
  have hc1 := D.cosh_ge'
  norm_num at *
  linarith

/-- a positive level is computed for layers of positive inner radius only -/
theorem cond_pos {i j : ℕ} (hi : i < ⌈R⌉.toNat) (hj : j < ⌈R⌉.toNat) {a b : F} (ha : A.val a = some (R - i - 1))
    (hb : A.val b = some (R - j - 1)) (h : RadiusLayer.pblCond a b Rf 0 = true) : 0 < R - i - 1 ∧ 0 < R - j - 1 := by
  obtain ⟨v, m, _, hv, hm, h1, _⟩ := D.cond_spec hi hj (Nat.zero_le 100) ha hb
  have h2 := h1 h
  rw [pow_zero, div_one, Real.cos_pi, show (1 - -1 : ℝ) = 2 by norm_num] at hv
  rcases le_or_gt (R - i - 1) 0 with c1 | c1 <;> rcases le_or_gt (R - j - 1) 0 with c2 | c2
  · exfalso
    obtain ⟨hi1, hi2⟩ := D.last hi c1
    obtain ⟨hj1, hj2⟩ := D.last hj c2
    have e : i = j := by omega
    subst e
    have hcl := D.ceil
    have hRp := D.pos
    rw [sub_self, Real.cosh_zero] at hm
    have h3 : 1 + 2 * (sinh (R - i - 1) * sinh (R - i - 1)) ≤ 0.9 * Real.cosh R + 0.1 := by
      refine le_trans ?_ (cosh_ninetenths R)
      have : 1 + 2 * (sinh (R - i - 1) * sinh (R - i - 1)) = Real.cosh (2 * (R - i - 1)) := by
        rw [Real.cosh_two_mul, Real.cosh_sq]; ring
      rw [this]
      apply Real.cosh_le_cosh.2
      rw [abs_of_nonpos (by linarith), abs_of_pos (by linarith)]
      linarith
    have hS : 0 ≤ sinh (R - i - 1) * sinh (R - i - 1) := mul_self_nonneg _
    generalize sinh (R - i - 1) * sinh (R - i - 1) = S at *
    obtain ⟨v1, v2⟩ := abs_le.1 hv
    have h3 := (abs_le.1 hm).2
    have h8 := small800
    generalize (1 : ℝ) / 2 ^ 800 = w at *
    have hvS : v * S ≤ 2 * S + 1 / 2 ^ 48 * S := by nlinarith
    have hvS2 : |v * S| = v * S := abs_of_nonneg (mul_nonneg (by norm_num at v1; linarith) hS)
    rw [hvS2] at h3
    have hc1 := D.cosh_ge'
    norm_num at *
    linarith
  · exact (D.half_case hj hi c2 c1 hv (by
      rw [← Real.cosh_neg, neg_sub, mul_comm (sinh (R - j - 1))]; exact hm) h2).elim
  · exact (D.half_case hi hj c1 c2 hv hm h2).elim
  · exact ⟨c1, c2⟩

/-- the size of the sine term if the loop goes on -/
theorem cond_lower {i j L : ℕ} (hi : i < ⌈R⌉.toNat) (hj : j < ⌈R⌉.toNat) (hL : L ≤ 100) {a b : F} (ha : A.val a = some (R - i - 1))
    (hb : A.val b = some (R - j - 1)) (h1 : 0 < R - i - 1) (h2 : 0 < R - j - 1) (h : RadiusLayer.pblCond a b Rf L = true) :
    ∃ v, A.val (vF F L) = some v ∧ |v - (1 - Real.cos (Real.pi / 2 ^ L))| ≤ 1 / 2 ^ 48 ∧ 0 < v ∧
      0.1899 * Real.exp R ≤ v * (sinh (R - i - 1) * sinh (R - j - 1)) := by
  obtain ⟨v, m, e1, hv, hm, h3, _⟩ := D.cond_spec hi hj hL ha hb
  refine ⟨v, e1, hv, ?_⟩
  have h4 := h3 h
  have hi0 : (0 : ℝ) ≤ i := Nat.cast_nonneg _
  have hj0 : (0 : ℝ) ≤ j := Nat.cast_nonneg _
  have hC : Real.cosh ((R - i - 1) - (R - j - 1)) ≤ Real.cosh (R - 1) := Real.cosh_le_cosh.2 (by
    rw [abs_of_pos (show 0 < R - 1 by linarith), abs_le]; constructor <;> linarith)
  have hgap := cosh_gap (show 1 < R by linarith)
  have hexp := cosh_le_exp D.pos.le
  have hc1 := D.cosh_ge'
  have hS : 0 < sinh (R - i - 1) * sinh (R - j - 1) := mul_pos (Real.sinh_pos_iff.2 h1) (Real.sinh_pos_iff.2 h2)
  generalize Real.cosh ((R - i - 1) - (R - j - 1)) = C at *
  generalize sinh (R - i - 1) * sinh (R - j - 1) = S at *
  have h5 := (abs_le.1 hm).2
  have h8 := small800
  generalize (1 : ℝ) / 2 ^ 800 = w at *
  clear hm hv h3
  rcases le_or_gt v 0 with c | c
  · exfalso
    rw [abs_of_nonpos (mul_nonpos_of_nonpos_of_nonneg c hS.le)] at h5
    have : v * S ≤ 0 := mul_nonpos_of_nonpos_of_nonneg c hS.le
    norm_num at *
    linarith
  · refine ⟨c, ?_⟩
    have hp := mul_pos c hS
    rw [abs_of_pos hp] at h5
    norm_num at *
    linarith

theorem cond_of_lower {i j L : ℕ} (hi : i < ⌈R⌉.toNat) (hj : j < ⌈R⌉.toNat) (hL : L ≤ 100) {a b : F} (ha : A.val a = some (R - i - 1))
    (hb : A.val b = some (R - j - 1)) (hR1 : 1 < R) {v : ℝ} (hvF : A.val (vF F L) = some v)
    (h : 0.5161 * Real.exp R ≤ v * (sinh (R - i - 1) * sinh (R - j - 1))) : RadiusLayer.pblCond a b Rf L = true := by
  obtain ⟨v', m, e1, _, hm, _, h3⟩ := D.cond_spec hi hj hL ha hb
  have e : v' = v := by rw [hvF] at e1; exact (Option.some.inj e1).symm
  subst e
  apply h3
  have hC := Real.one_le_cosh ((R - i - 1) - (R - j - 1))
  generalize Real.cosh ((R - i - 1) - (R - j - 1)) = C at *
  generalize v' * (sinh (R - i - 1) * sinh (R - j - 1)) = Q at *
  have hX := Real.exp_pos R
  have hX2 : 2.71 ≤ Real.exp R := by
    have h5 : Real.exp 1 ≤ Real.exp R := Real.exp_le_exp.2 hR1.le
    have := Real.exp_one_gt_d9
    linarith
  have hX3 : Real.exp (-R) ≤ 1 := Real.exp_le_one_iff.2 (by linarith)
  rw [Real.cosh_eq]
  rw [abs_of_nonneg (show 0 ≤ Q by linarith)] at hm
  have h5 := (abs_le.1 hm).1
  have h8 := small800
  have h9 := Real.exp_pos (-R)
  generalize (1 : ℝ) / 2 ^ 800 = w at *
  clear hm h3 hvF e1
  norm_num at h5 h8 h ⊢
  linarith

/-- the loop goes on for layers further outside -/
theorem cond_mono {i j i' j' L : ℕ} (hi : i < ⌈R⌉.toNat) (hj : j < ⌈R⌉.toNat) (hii : i' ≤ i) (hjj : j' ≤ j) (hL : L ≤ 100)
    {a b a' b' : F} (ha : A.val a = some (R - i - 1)) (hb : A.val b = some (R - j - 1)) (ha' : A.val a' = some (R - i' - 1))
    (hb' : A.val b' = some (R - j' - 1)) (h1 : 0 < R - i - 1) (h2 : 0 < R - j - 1) (h : RadiusLayer.pblCond a b Rf L = true) :
    RadiusLayer.pblCond a' b' Rf L = true := by
  by_cases he : i' = i ∧ j' = j
  · obtain ⟨rfl, rfl⟩ := he
    rwa [D.elem.inj a' a _ ha' ha h1.ne', D.elem.inj b' b _ hb' hb h2.ne']
  obtain ⟨v, e1, _, hv0, hv⟩ := D.cond_lower hi hj hL ha hb h1 h2 h
  have hi0 : (0 : ℝ) ≤ i := Nat.cast_nonneg _
  refine D.cond_of_lower (by omega) (by omega) hL ha' hb' (by linarith) e1 ?_
  have hX := Real.exp_pos R
  have s1 := Real.sinh_nonneg_iff.2 h1.le
  have s2 := Real.sinh_nonneg_iff.2 h2.le
  have g : ∀ k k' : ℕ, k' ≤ k → 0 ≤ R - k - 1 → sinh (R - k - 1) ≤ sinh (R - k' - 1) ∧ (k' ≠ k → 2.7182 * sinh (R - k - 1) ≤ sinh (R - k' - 1)) := by
    intro k k' hk h0
    have hc : (k' : ℝ) ≤ k := by exact_mod_cast hk
    refine ⟨Real.sinh_le_sinh.2 (by linarith), fun hne => ?_⟩
    have := sinh_mul_e h0 (k := k - k') (by omega)
    rw [Nat.cast_sub hk, show R - k - 1 + ((k : ℝ) - k') = R - k' - 1 by ring] at this
    exact this
  obtain ⟨g1, g2⟩ := g i i' hii h1.le
  obtain ⟨g3, g4⟩ := g j j' hjj h2.le
  have key : 2.7182 * (sinh (R - i - 1) * sinh (R - j - 1)) ≤ sinh (R - i' - 1) * sinh (R - j' - 1) := by
    by_cases e : i' = i
    · have := g4 (fun e2 => he ⟨e, e2⟩)
      have := mul_le_mul g1 this (by positivity) (s1.trans g1)
      linarith
    · have := mul_le_mul (g2 e) g3 s2 ((by positivity : 0 ≤ 2.7182 * sinh (R - i - 1)).trans (g2 e))
      linarith
  have := mul_le_mul_of_nonneg_left key hv0.le
  linarith

/-- a bound on the level -/
theorem cond_level {k L : ℕ} (hk : k < ⌈R⌉.toNat) (hL : L ≤ 100) {a b : F} (ha : A.val a = some (R - k - 1))
    (hb : A.val b = some (R - (0 : ℕ) - 1)) (h0 : RadiusLayer.pblCond a b Rf 0 = true) (h : RadiusLayer.pblCond a b Rf L = true) :
    (2 : ℝ) ^ (L + 1) ≤ 2.4 * Real.exp ((R - k) / 2) := by
  have h00 : 0 < ⌈R⌉.toNat := by omega
  obtain ⟨h1, h2⟩ := D.cond_pos hk h00 ha hb h0
  obtain ⟨v, _, hv, hv0, hl⟩ := D.cond_lower hk h00 hL ha hb h1 h2 h
  have hcos := Real.one_sub_sq_div_two_le_cos (x := Real.pi / 2 ^ L)
  rw [Nat.cast_zero, sub_zero] at h2 hl
  have hs1 : Real.sinh (R - k - 1) ≤ Real.exp (R - k - 1) / 2 := by
    rw [Real.sinh_eq]; linarith [Real.exp_pos (-(R - k - 1))]
  have hs2 : Real.sinh (R - 1) ≤ Real.exp (R - 1) / 2 := by
    rw [Real.sinh_eq]; linarith [Real.exp_pos (-(R - 1))]
  have hp1 : 0 < Real.sinh (R - k - 1) := Real.sinh_pos_iff.2 h1
  have hp2 : 0 < Real.sinh (R - 1) := Real.sinh_pos_iff.2 h2
  have hss : Real.sinh (R - k - 1) * Real.sinh (R - 1) ≤ Real.exp (R - 2 - k) * Real.exp R / 4 := by
    have := mul_le_mul hs1 hs2 hp2.le (by positivity)
    have e2 : Real.exp (R - k - 1) / 2 * (Real.exp (R - 1) / 2) = Real.exp (R - 2 - k) * Real.exp R / 4 := by
      rw [← Real.exp_add, div_mul_div_comm, ← Real.exp_add]; congr 2 <;> ring_nf
    linarith
  have hX := Real.exp_pos R
  have h3 : 0.1899 * 4 ≤ v * Real.exp (R - 2 - k) := by
    have := mul_le_mul_of_nonneg_left hss hv0.le
    have h4 : 0.1899 * 4 * Real.exp R ≤ v * Real.exp (R - 2 - k) * Real.exp R := by linarith
    exact le_of_mul_le_mul_right h4 hX
  have hv1 : v ≤ (Real.pi / 2 ^ L) ^ 2 / 2 + 1 / 2 ^ 48 := by
    have := (abs_le.1 hv).2
    linarith
  have hE : Real.exp (R - 2 - k) ≤ 0.13534 * Real.exp (R - k) := by
    rw [show R - 2 - k = -2 + (R - k) by ring, Real.exp_add]
    apply mul_le_mul_of_nonneg_right _ (Real.exp_pos _).le
    rw [Real.exp_neg, inv_le_comm₀ (Real.exp_pos _) (by norm_num)]
    have e2 : Real.exp 2 = Real.exp 1 ^ 2 := by rw [← Real.exp_nat_mul]; norm_num
    rw [e2]
    have := pow_le_pow_left₀ (by norm_num) Real.exp_one_gt_d9.le 2
    refine le_trans (by norm_num) this
  set W := Real.exp (R - k) with hW
  have hW0 : 0 < W := Real.exp_pos _
  have hW2 : W ≤ 584000000000000 := by
    have hk0 : (0 : ℝ) ≤ k := Nat.cast_nonneg _
    have := D.le34
    refine (Real.exp_le_exp.2 (show R - k ≤ 34 by linarith)).trans ?_
    have e34 : Real.exp 34 = Real.exp 1 ^ 34 := by rw [← Real.exp_nat_mul]; norm_num
    rw [e34]
    refine le_trans (pow_le_pow_left₀ (Real.exp_pos 1).le Real.exp_one_lt_d9.le 34) (by norm_num)
  have h5 : 0.1899 * 4 ≤ ((Real.pi / 2 ^ L) ^ 2 / 2 + 1 / 2 ^ 48) * (0.13534 * W) :=
    h3.trans (mul_le_mul hv1 hE (Real.exp_pos _).le (by positivity))
  have hpi := Real.pi_lt_d4
  have hpi0 := Real.pi_pos
  have hpi2 : Real.pi ^ 2 < 9.8702 := by nlinarith
  have hp : (0 : ℝ) < 2 ^ L := by positivity
  have h6 : ((2 : ℝ) ^ (L + 1)) ^ 2 ≤ (2.4 * Real.exp ((R - k) / 2)) ^ 2 := by
    have e3 : Real.exp ((R - k) / 2) ^ 2 = W := by
      rw [← Real.exp_nat_mul, hW]; congr 1; push_cast; ring
    rw [mul_pow, e3]
    rw [div_pow] at h5
    have hY : (0 : ℝ) < (2 ^ L) ^ 2 := by positivity
    rw [pow_succ 2 L, mul_pow]
    generalize ((2 : ℝ) ^ L) ^ 2 = Y at *
    have h7 : 0.478 ≤ Real.pi ^ 2 / Y / 2 * (0.13534 * W) := by
      norm_num at h5 hW2 ⊢
      linarith
    have h8 : 0.478 * Y ≤ Real.pi ^ 2 / 2 * (0.13534 * W) := by
      have := mul_le_mul_of_nonneg_right h7 hY.le
      have e4 : Real.pi ^ 2 / Y / 2 * (0.13534 * W) * Y = Real.pi ^ 2 / 2 * (0.13534 * W) := by field_simp
      linarith
    nlinarith
  exact le_of_sq_le_sq h6 (by positivity)

end RDisk
end Girgs
