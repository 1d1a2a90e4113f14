import Verif.Proofs.HRoundedBuild
import Verif.Proofs.HypLevel
/-!
If no comparison of `partitioningBaseLevel` is a close call, the levels computed in floating point arithmetic are those of exact arithmetic.
-/
namespace Girgs
open Spec CFloat HBuild
open Real (sinh)

variable {F : Type} [CFloat F] {u lam eps p : ℝ} {A : Rounded F u lam} {Rf : F} {R : ℝ}

namespace RDisk
variable (D : RDisk A eps p Rf R)
include D

theorem cond_clear {i j L : ℕ} (hi : i < ⌈R⌉.toNat) (hj : j < ⌈R⌉.toNat) (hL : L ≤ 100) {a b : F} (ha : A.val a = some (R - i - 1))
    (hb : A.val b = some (R - j - 1))
    (h : 1 / 2 ^ 42 * (Real.cosh R + |sinh (R - i - 1) * sinh (R - j - 1)|) < |hc (R - i - 1) (R - j - 1) (Real.pi / 2 ^ L) - Real.cosh R|) :
    RadiusLayer.pblCond a b Rf L = true ↔ Real.cosh R < hc (R - i - 1) (R - j - 1) (Real.pi / 2 ^ L) := by
  obtain ⟨v, m, _, hv, hm, h1, h2⟩ := D.cond_spec hi hj hL ha hb
  have hC : Real.cosh ((R - i - 1) - (R - j - 1)) ≤ Real.cosh R := Real.cosh_le_cosh.2 (by
    rw [abs_of_pos D.pos]; exact (layers_sub hi hj).le)
  have hC1 := Real.one_le_cosh R
  have hc1 := Real.neg_one_le_cos (Real.pi / 2 ^ L)
  have hc2 := Real.cos_le_one (Real.pi / 2 ^ L)
  have e : hc (R - i - 1) (R - j - 1) (Real.pi / 2 ^ L) =
      Real.cosh ((R - i - 1) - (R - j - 1)) + (1 - Real.cos (Real.pi / 2 ^ L)) * (sinh (R - i - 1) * sinh (R - j - 1)) := by
    unfold hc; ring
  rw [e] at h ⊢
  have hq0 : 0 ≤ 1 - Real.cos (Real.pi / 2 ^ L) := by linarith
  have hq2 : 1 - Real.cos (Real.pi / 2 ^ L) ≤ 2 := by linarith
  generalize sinh (R - i - 1) * sinh (R - j - 1) = S at *
  generalize Real.cosh ((R - i - 1) - (R - j - 1)) = C at *
  generalize 1 - Real.cos (Real.pi / 2 ^ L) = v0 at *
  have h8 := small800
  generalize (1 : ℝ) / 2 ^ 800 = w at *
  generalize Real.cosh R = cR at *
  have hv0 : |v| ≤ 3 := by
    obtain ⟨g1, g2⟩ := abs_le.1 hv
    norm_num at g1 g2
    rw [abs_le]; constructor <;> linarith
  have hS := abs_nonneg S
  have hvS : |v * S| ≤ 3 * |S| := by rw [abs_mul]; exact mul_le_mul_of_nonneg_right hv0 hS
  have hd : |v * S - v0 * S| ≤ 1 / 2 ^ 48 * |S| := by
    rw [← sub_mul, abs_mul]; exact mul_le_mul_of_nonneg_right hv hS
  have hmd : |m - (C + v0 * S)| ≤ 1 / 2 ^ 44 * (cR + |S|) := by
    have := abs_add_le (m - (C + v * S)) (v * S - v0 * S)
    rw [show m - (C + v * S) + (v * S - v0 * S) = m - (C + v0 * S) by ring] at this
    generalize |S| = s at *
    generalize |v * S| = s' at *
    generalize |v * S - v0 * S| = s'' at *
    clear h h1 h2
    norm_num at hm hd h8 ⊢
    linarith
  generalize C + v0 * S = X at *
  obtain ⟨k1, k2⟩ := abs_le.1 hmd
  clear hvS hd
  generalize |S| = s at *
  constructor
  · intro hc
    have h3 := h1 hc
    by_contra hn
    rw [not_lt] at hn
    rw [abs_of_nonpos (by linarith)] at h
    clear hv hm h1 h2
    norm_num at h h3 k1 k2
    linarith
  · intro hc
    apply h2
    rw [abs_of_pos (by linarith)] at h
    clear hv hm h1 h2
    norm_num at h k1 k2 ⊢
    linarith

/-- the computed level is the exact one -/
theorem pbl_clear {i j : ℕ} (hi : i < ⌈R⌉.toNat) (hj : j < ⌈R⌉.toNat) {a b : F} (ha : A.val a = some (R - i - 1))
    (hb : A.val b = some (R - j - 1))
    (h : ∀ L : ℕ, L ≤ 31 → (∀ k, k < L → Real.cosh R < hc (R - i - 1) (R - j - 1) (Real.pi / 2 ^ k)) →
      1 / 2 ^ 42 * (Real.cosh R + |sinh (R - i - 1) * sinh (R - j - 1)|) < |hc (R - i - 1) (R - j - 1) (Real.pi / 2 ^ L) - Real.cosh R|) :
    RadiusLayer.partitioningBaseLevel a b Rf = some (hpbl (R - i - 1) (R - j - 1) R) := by
  obtain ⟨l, hl, e⟩ := D.pbl_some hi hj ha hb
  obtain ⟨h1, h2⟩ := pbl_some_iff.1 e
  have hlt : ∀ n, n ≤ l → ∀ k, k < n → Real.cosh R < hc (R - i - 1) (R - j - 1) (Real.pi / 2 ^ k) := by
    intro n
    induction n with
    | zero => intro _ k hk; omega
    | succ n ih =>
      intro hn k hk
      have ih' := ih (by omega)
      rcases Nat.lt_succ_iff_lt_or_eq.1 hk with hk | rfl
      · exact ih' k hk
      · exact (D.cond_clear hi hj (by omega) ha hb (h k (by omega) ih')).1 (h2 k (by omega))
  have hle : hc (R - i - 1) (R - j - 1) (Real.pi / 2 ^ l) ≤ Real.cosh R := by
    rw [← not_lt, ← D.cond_clear hi hj (by omega) ha hb (h l hl (hlt l le_rfl)), h1]
    simp
  rw [e]
  congr 1
  refine le_antisymm (le_hpbl ⟨l, hle⟩ (hlt l le_rfl)) ?_
  by_contra hc
  exact absurd hle (not_le.2 (hpbl_pos_lt (not_le.1 hc)))

theorem clear_hc (h : ClearLevels R ⌈R⌉.toNat) {i j : ℕ} (hi : i < ⌈R⌉.toNat) (hj : j < ⌈R⌉.toNat) (L : ℕ) (hL : L ≤ 31)
    (hk : ∀ k, k < L → Real.cosh R < hc (R - i - 1) (R - j - 1) (Real.pi / 2 ^ k)) :
    1 / 2 ^ 42 * (Real.cosh R + |sinh (R - i - 1) * sinh (R - j - 1)|) < |hc (R - i - 1) (R - j - 1) (Real.pi / 2 ^ L) - Real.cosh R| := by
  have e : ∀ (i j k : ℕ), hypCosh (R - i - 1) (Real.pi / 2 ^ k) (R - j - 1) 0 = hc (R - i - 1) (R - j - 1) (Real.pi / 2 ^ k) := by
    intro i j k
    rw [← hc_eq, sub_zero]
  rcases le_total i j with hij | hij
  · have := h i j L hij hj hL (fun k hk' => by rw [e]; exact hk k hk')
    rwa [e] at this
  · have := h j i L hij hi hL (fun k hk' => by rw [e, hc_symm]; exact hk k hk')
    rw [e, hc_symm, mul_comm (sinh (R - j - 1))] at this
    exact this

theorem clear_pbl (h : ClearLevels R ⌈R⌉.toNat) {i j : ℕ} (hi : i < ⌈R⌉.toNat) (hj : j < ⌈R⌉.toNat) {a b : F}
    (ha : A.val a = some (R - i - 1)) (hb : A.val b = some (R - j - 1)) :
    RadiusLayer.partitioningBaseLevel a b Rf = some (hpbl (R - i - 1) (R - j - 1) R) :=
  D.pbl_clear hi hj ha hb fun L hL hk => D.clear_hc h hi hj L hL hk

theorem symmetric_of_clear (h : ClearLevels R ⌈R⌉.toNat) : SymmetricLevels Rf ⌈R⌉.toNat := by
  intro i j hi hj
  rw [D.clear_pbl h hi hj (D.radMin_val hi) (D.radMin_val hj), D.clear_pbl h hj hi (D.radMin_val hj) (D.radMin_val hi), hpbl_symm]

theorem clear_rtgt (h : ClearLevels R ⌈R⌉.toNat) {l : ℕ} (hl : l < ⌈R⌉.toNat) : rtgt Rf l = hpbl (R - l - 1) (R - 1) R := by
  have := D.clear_pbl h hl (show 0 < ⌈R⌉.toNat by omega) (D.radMin_val hl) D.sub_one_val
  unfold rtgt
  rw [this]
  norm_num

end RDisk
end Girgs
