import Verif.Spec.Rounding
import Verif.Proofs.ConstructXR
import Verif.Proofs.Torus
/-
Arithmetic with rounding: bounds for the computed quantities.
-/
namespace Girgs
open Spec CFloat

namespace Spec.Rounded
variable {F : Type} [CFloat F] {u lam : ℝ} (A : Rounded F u lam)
include A

theorem rnd_zero : A.rnd 0 = 0 := by
  have := A.int 0 (by norm_num)
  simpa using this

theorem rnd_one : A.rnd 1 = 1 := by
  have := A.int 1 (by norm_num)
  simpa using this

theorem rnd_nonneg {x : ℝ} (h : 0 ≤ x) : 0 ≤ A.rnd x := by
  have := A.mono h
  rwa [A.rnd_zero] at this

theorem rnd_le_one {x : ℝ} (h : x ≤ 1) : A.rnd x ≤ 1 := by
  have := A.mono h
  rwa [A.rnd_one] at this

theorem one_le_rnd {x : ℝ} (h : 1 ≤ x) : 1 ≤ A.rnd x := by
  have := A.mono h
  rwa [A.rnd_one] at this

theorem rnd_le_pow {x : ℝ} {k : ℤ} (h1 : -1022 ≤ k) (h2 : k ≤ 1023) (h : x ≤ 2 ^ k) : A.rnd x ≤ 2 ^ k := by
  have := A.mono h
  rwa [A.pow2 k h1 h2] at this

theorem low {x : ℝ} (h : (2 : ℝ) ^ (-1022 : ℤ) ≤ x) : (1 - u) * x ≤ A.rnd x := by
  have hx : 0 < x := lt_of_lt_of_le (zpow_pos (by norm_num) _) h
  have := A.rel x (by rw [abs_of_pos hx]; exact h)
  rw [abs_of_pos hx, abs_le] at this
  linarith [this.1]

theorem up {x : ℝ} (hu : u ≤ 1) (h : (2 : ℝ) ^ (-1022 : ℤ) ≤ x) : (1 - u) * A.rnd x ≤ x := by
  have hx : 0 < x := lt_of_lt_of_le (zpow_pos (by norm_num) _) h
  have := A.rel x (by rw [abs_of_pos hx]; exact h)
  rw [abs_of_pos hx, abs_le] at this
  have h1 : A.rnd x ≤ (1 + u) * x := by linarith [this.2]
  have h2 := mul_le_mul_of_nonneg_left h1 (sub_nonneg.2 hu)
  have h3 : 0 ≤ u ^ 2 * x := by positivity
  linarith

theorem c_pos (hu : u ≤ 1 / 2 ^ 34) : 0 < 1 - u := by
  have : (1 : ℝ) / 2 ^ 34 < 1 := by norm_num
  linarith

theorem c_le : 1 - u ≤ 1 := by have := A.u_nonneg; linarith

/-- powers of `1 - u` with exponents that occur are near 1 -/
theorem c_pow (hu : u ≤ 1 / 2 ^ 34) {k : ℕ} (hk : k ≤ 2 ^ 32) : 3 / 4 ≤ (1 - u) ^ k := by
  have h0 := A.u_nonneg
  have h1 := one_add_mul_le_pow (a := -u) (by have := A.c_pos hu; linarith) k
  have h2 : (k : ℝ) ≤ 2 ^ 32 := by exact_mod_cast hk
  have h3 : (k : ℝ) * u ≤ 2 ^ 32 * (1 / 2 ^ 34) := mul_le_mul h2 hu h0 (by norm_num)
  have h4 : (2 : ℝ) ^ 32 * (1 / 2 ^ 34) = 1 / 4 := by norm_num
  have h5 : (1 : ℝ) + k * -u = 1 - k * u := by ring
  rw [h5] at h1
  rw [h4] at h3
  rw [← sub_eq_add_neg] at h1
  linarith

theorem c_pow_le (hu : u ≤ 1 / 2 ^ 34) (k : ℕ) : (1 - u) ^ k ≤ 1 := pow_le_one₀ (A.c_pos hu).le A.c_le

theorem c_pow_pos (hu : u ≤ 1 / 2 ^ 34) (k : ℕ) : 0 < (1 - u) ^ k := pow_pos (A.c_pos hu) k

/-! ### literals and comparison -/

theorem val_ofRat_int (z : ℤ) (hz : |z| ≤ 2 ^ 53) : A.val (CFloat.ofRat (z : ℚ)) = some (z : ℝ) := by
  have h : |((z : ℚ) : ℝ)| ≤ 2 ^ 1023 := by
    have h1 : ((|z| : ℤ) : ℝ) ≤ ((2 ^ 53 : ℤ) : ℝ) := Int.cast_le.2 hz
    have h2 : (2 : ℝ) ^ 53 ≤ 2 ^ 1023 := pow_le_pow_right₀ (by norm_num) (by norm_num)
    rw [Int.cast_abs] at h1
    push_cast at h1 ⊢
    exact le_trans h1 (le_trans (by norm_num) h2)
  rw [A.ofRat _ h, Rat.cast_intCast, A.int z hz]

theorem val_ofInt (z : ℤ) (hz : |z| ≤ 2 ^ 53) : A.val (ofInt z) = some (z : ℝ) := A.val_ofRat_int z hz

theorem val_ofNat (n : ℕ) (hn : n ≤ 2 ^ 53) : A.val (ofNat n) = some (n : ℝ) := by
  have := A.val_ofRat_int n (by rw [abs_of_nonneg (by omega)]; exact_mod_cast hn)
  simpa [ofNat] using this

theorem val_zero : A.val (CFloat.ofRat 0) = some 0 := by
  have := A.val_ofRat_int 0 (by norm_num)
  simpa using this

theorem val_one : A.val (CFloat.ofRat 1) = some 1 := by
  have := A.val_ofRat_int 1 (by norm_num)
  simpa using this

theorem val_fmax {a b : F} {x y : ℝ} (ha : A.val a = some x) (hb : A.val b = some y) : A.val (fmax a b) = some (max x y) := by
  unfold fmax
  have h := A.lt a b x y ha hb
  by_cases hxy : x < y
  · rw [if_pos (h.2 hxy), hb, max_eq_right hxy.le]
  · rw [if_neg (fun hc => hxy (h.1 hc)), ha, max_eq_left (not_lt.1 hxy)]

theorem val_fmin {a b : F} {x y : ℝ} (ha : A.val a = some x) (hb : A.val b = some y) : A.val (fmin a b) = some (min x y) := by
  unfold fmin
  have h := A.lt b a y x hb ha
  by_cases hxy : y < x
  · rw [if_pos (h.2 hxy), hb, min_eq_right hxy.le]
  · rw [if_neg (fun hc => hxy (h.1 hc)), ha, min_eq_left (not_lt.1 hxy)]

/-! ### conversions -/

theorem toI32_nonneg {a : F} {x : ℝ} (ha : A.val a = some x) (h : 0 ≤ x) (h' : x < 2147483648) : toI32 a = some ⌊x⌋ := by
  rw [← Girgs.toI32_nonneg h h']
  unfold toI32
  rw [A.trunc a x ha, XR.trunc_fin x h, if_pos h]

theorem toI32_neg {a : F} {x : ℝ} (ha : A.val a = some x) (h : x < 0) (h' : -2147483648 ≤ x) : toI32 a = some ⌈x⌉ := by
  rw [← Girgs.toI32_neg h h']
  unfold toI32
  rw [A.trunc a x ha, XR.trunc_fin' x h, if_neg (not_le.2 h)]

theorem toSize_nonneg {a : F} {x : ℝ} (ha : A.val a = some x) (h : 0 ≤ x) (h' : x < 2147483648) : toSize a = some ⌊x⌋.toNat := by
  rw [← Girgs.toSize_nonneg h h']
  unfold toSize
  rw [A.trunc a x ha, XR.trunc_fin x h, if_pos h]

theorem toU32_nonneg {a : F} {x : ℝ} (ha : A.val a = some x) (h : 0 ≤ x) (h' : x < 2 ^ 32) : toU32 a = some ⌊x⌋.toNat := by
  rw [← XR.toU32_fin x h h']
  unfold toU32
  rw [A.trunc a x ha, XR.trunc_fin x h, if_pos h]

/-- conversion of a small negative number -/
theorem toU32_small {a : F} {x : ℝ} (ha : A.val a = some x) (h : -1 < x) (h' : x < 0) : toU32 a = some 0 := by
  have e : ⌈x⌉ = 0 := by rw [Int.ceil_eq_zero_iff]; exact ⟨h, h'.le⟩
  unfold toU32
  rw [A.trunc a x ha, if_neg (by linarith), e]
  rfl

/-! ### distances -/

theorem val_coordDistance {D : Nat} {p q : Fin D → F} {x y : Fin D → ℝ} (hp : ∀ d, A.val (p d) = some (x d))
    (hq : ∀ d, A.val (q d) = some (y d)) (hx : ∀ d, 0 ≤ x d ∧ x d < 1) (hy : ∀ d, 0 ≤ y d ∧ y d < 1) :
    ∃ r, A.val (coordDistance p q) = some r ∧ 0 ≤ r ∧ r ≤ 1 ∧ |r - torusDist x y| ≤ 2 * u := by
  have hu := A.u_nonneg
  have huge : (1 : ℝ) ≤ 2 ^ 1023 := one_le_pow₀ (by norm_num)
  have axis : ∀ d, ∃ s, A.val (fmin (CFloat.abs (p d -. q d)) (CFloat.ofRat 1 -. CFloat.abs (p d -. q d))) = some s ∧ s ≤ 1 ∧
      |s - circleDist (x d) (y d)| ≤ 2 * u := by
    intro d
    obtain ⟨hx0, hx1⟩ := hx d
    obtain ⟨hy0, hy1⟩ := hy d
    have h1 : |x d - y d| ≤ 1 := abs_le.2 ⟨by linarith, by linarith⟩
    have e1 := A.abs _ _ (A.sub _ _ _ _ (hp d) (hq d) (le_trans h1 huge))
    set s := |A.rnd (x d - y d)| with hs
    have hs0 : 0 ≤ s := abs_nonneg _
    have hs1 : s ≤ 1 := by
      obtain ⟨a1, a2⟩ := abs_le.1 h1
      have b1 := A.mono a1
      have b2 := A.mono a2
      rw [A.odd, A.rnd_one] at b1
      rw [A.rnd_one] at b2
      exact abs_le.2 ⟨b1, b2⟩
    have herr : |s - (|x d - y d|)| ≤ u := le_trans (abs_abs_sub_abs_le_abs_sub _ _) (A.unit _ h1)
    have h2 : |1 - s| ≤ 1 := abs_le.2 ⟨by linarith, by linarith⟩
    have e2 := A.sub _ _ _ _ A.val_one e1 (le_trans h2 huge)
    have herr2 := A.unit _ h2
    refine ⟨_, A.val_fmin e1 e2, le_trans (min_le_left _ _) hs1, ?_⟩
    have herr3 : |A.rnd (1 - s) - (1 - (|x d - y d|))| ≤ 2 * u := by
      have : A.rnd (1 - s) - (1 - |x d - y d|) = (A.rnd (1 - s) - (1 - s)) + (|x d - y d| - s) := by ring
      rw [this]
      refine le_trans (abs_add_le _ _) ?_
      rw [abs_sub_comm] at herr
      linarith
    unfold circleDist
    refine le_trans (abs_min_sub_min_le_max _ _ _ _) (max_le (by linarith) herr3)
  have fold : ∀ (L : List (Fin D)) (a : F) (r t : ℝ), A.val a = some r → 0 ≤ r → r ≤ 1 → |r - t| ≤ 2 * u →
      ∃ r', A.val (L.foldl (fun result d =>
        let dist := CFloat.abs (p d -. q d)
        let dist := fmin dist (CFloat.ofRat 1 -. dist)
        fmax result dist) a) = some r' ∧ 0 ≤ r' ∧ r' ≤ 1 ∧
        |r' - L.foldl (fun r d => max r (circleDist (x d) (y d))) t| ≤ 2 * u := by
    intro L
    induction L with
    | nil => intro a r t h1 h2 h3 h4; exact ⟨r, h1, h2, h3, h4⟩
    | cons d L ih =>
      intro a r t h1 h2 h3 h4
      obtain ⟨s, e, hs1, hs⟩ := axis d
      rw [List.foldl_cons, List.foldl_cons]
      exact ih _ _ _ (A.val_fmax h1 e) (le_trans h2 (le_max_left _ _)) (max_le h3 hs1)
        (le_trans (abs_max_sub_max_le_max _ _ _ _) (max_le h4 hs))
  obtain ⟨r, h1, h2, h3, h4⟩ := fold (List.finRange D) _ 0 0 A.val_zero le_rfl (by norm_num) (by simpa using hu)
  refine ⟨r, h1, h2, h3, ?_⟩
  have e : (List.finRange D).foldl (fun r d => max r (circleDist (x d) (y d))) 0 = torusDist x y := by
    apply eq_torusDist
    intro r
    rw [foldl_max_le]
    simp
  rw [← e]; exact h4

/-! ### powers -/

theorem val_powHelper (hu : u ≤ 1 / 2 ^ 34) (D : Nat) (hD : D ≤ 2 ^ 32) (a : F) (x : ℝ) (ha : A.val a = some x) (h0 : 0 ≤ x) (h1 : x ≤ 1) :
    ∃ r, A.val (powHelper D a) = some r ∧ 0 ≤ r ∧ r ≤ 1 ∧
      ((2 : ℝ) ^ (-1000 : ℤ) ≤ x ^ D → (1 - u) ^ D * x ^ D ≤ r) ∧
      ((1 - u) ^ D * r ≤ x ^ D ∨ r ≤ (2 : ℝ) ^ (-1000 : ℤ)) := by
  have huge : (1 : ℝ) ≤ 2 ^ 1023 := one_le_pow₀ (by norm_num)
  have hc0 := A.c_pos hu
  have hc1 := A.c_le
  have ht : (2 : ℝ) ^ (-1022 : ℤ) * 4 ≤ 2 ^ (-1000 : ℤ) := by
    rw [show (4 : ℝ) = 2 ^ (2 : ℤ) by norm_num, ← zpow_add₀ (by norm_num)]
    exact zpow_le_zpow_right₀ (by norm_num) (by norm_num)
  have ht0 : (0 : ℝ) < 2 ^ (-1022 : ℤ) := zpow_pos (by norm_num) _
  have htau : A.rnd (2 ^ (-1000 : ℤ)) = 2 ^ (-1000 : ℤ) := A.pow2 _ (by norm_num) (by norm_num)
  generalize (2 : ℝ) ^ (-1000 : ℤ) = tau at *
  have htiny := fun z h => A.low (x := z) h
  have htiny' := fun z h => A.up (x := z) (by linarith) h
  generalize (2 : ℝ) ^ (-1022 : ℤ) = tiny at *
  -- one multiplication
  have step : ∀ (k l : Nat) (b c : F) (r s : ℝ), k + l ≤ 2 ^ 32 → 1 ≤ k → 1 ≤ l → A.val b = some r → A.val c = some s →
      0 ≤ r → r ≤ 1 → 0 ≤ s → s ≤ 1 →
      (tau ≤ x ^ k → (1 - u) ^ (k - 1) * x ^ k ≤ r) → ((1 - u) ^ (k - 1) * r ≤ x ^ k ∨ r ≤ tau) →
      (tau ≤ x ^ l → (1 - u) ^ (l - 1) * x ^ l ≤ s) → ((1 - u) ^ (l - 1) * s ≤ x ^ l ∨ s ≤ tau) →
      ∃ q, A.val (b *. c) = some q ∧ 0 ≤ q ∧ q ≤ 1 ∧ (tau ≤ x ^ (k + l) → (1 - u) ^ (k + l - 1) * x ^ (k + l) ≤ q) ∧
        ((1 - u) ^ (k + l - 1) * q ≤ x ^ (k + l) ∨ q ≤ tau) := by
    intro k l b c r s hkl hk hl hb hc hr0 hr1 hs0 hs1 a1 a2 b1 b2
    have hrs0 : 0 ≤ r * s := mul_nonneg hr0 hs0
    have hrs1 : r * s ≤ 1 := mul_le_one₀ hr1 hs0 hs1
    refine ⟨_, A.mul b c r s hb hc (by rw [abs_of_nonneg hrs0]; exact le_trans hrs1 huge), A.rnd_nonneg hrs0, A.rnd_le_one hrs1, ?_, ?_⟩
    · intro h
      have hxk : tau ≤ x ^ k := by
        rw [pow_add] at h
        exact le_trans h (mul_le_of_le_one_right (pow_nonneg h0 k) (pow_le_one₀ h0 h1))
      have hxl : tau ≤ x ^ l := by
        rw [pow_add] at h
        exact le_trans h (mul_le_of_le_one_left (pow_nonneg h0 l) (pow_le_one₀ h0 h1))
      have h2 := mul_le_mul (a1 hxk) (b1 hxl) (by positivity) hr0
      have e : (1 - u) ^ (k - 1) * x ^ k * ((1 - u) ^ (l - 1) * x ^ l) = (1 - u) ^ (k + l - 2) * x ^ (k + l) := by
        rw [show k + l - 2 = (k - 1) + (l - 1) by omega, pow_add, pow_add]; ring
      rw [e] at h2
      have hbig : tiny ≤ r * s := by
        have h3 := A.c_pow hu (show k + l - 2 ≤ 2 ^ 32 by omega)
        have h4 := mul_le_mul h3 h (by linarith) (A.c_pow_pos hu _).le
        linarith
      refine le_trans ?_ (htiny _ hbig)
      have h5 := mul_le_mul_of_nonneg_left h2 hc0.le
      refine le_trans (le_of_eq ?_) h5
      rw [show k + l - 1 = (k + l - 2) + 1 by omega, pow_succ]; ring
    · by_cases hsmall : r * s ≤ tau
      · right
        have := A.mono hsmall
        rwa [htau] at this
      · left
        have hbig : tau < r * s := not_le.1 hsmall
        have hr : ¬ r ≤ tau := by
          intro h
          have := mul_le_of_le_one_right hr0 hs1
          linarith
        have hs : ¬ s ≤ tau := by
          intro h
          have := mul_le_of_le_one_left hs0 hr1
          linarith
        have c1 := a2.resolve_right hr
        have c2 := b2.resolve_right hs
        have h2 := mul_le_mul c1 c2 (mul_nonneg (A.c_pow_pos hu _).le hs0) (pow_nonneg h0 k)
        have h3 := htiny' (r * s) (by linarith)
        have h4 := mul_le_mul_of_nonneg_left h3 (A.c_pow_pos hu (k + l - 2)).le
        calc (1 - u) ^ (k + l - 1) * A.rnd (r * s) = (1 - u) ^ (k + l - 2) * ((1 - u) * A.rnd (r * s)) := by
              rw [show k + l - 1 = (k + l - 2) + 1 by omega, pow_succ]; ring
          _ ≤ (1 - u) ^ (k + l - 2) * (r * s) := h4
          _ = (1 - u) ^ (k - 1) * r * ((1 - u) ^ (l - 1) * s) := by
              rw [show k + l - 2 = (k - 1) + (l - 1) by omega, pow_add]; ring
          _ ≤ x ^ k * x ^ l := h2
          _ = x ^ (k + l) := by rw [pow_add]
  -- the recursion
  have main : ∀ D : Nat, D ≤ 2 ^ 32 → 1 ≤ D → ∃ r, A.val (powHelper D a) = some r ∧ 0 ≤ r ∧ r ≤ 1 ∧
      (tau ≤ x ^ D → (1 - u) ^ (D - 1) * x ^ D ≤ r) ∧ ((1 - u) ^ (D - 1) * r ≤ x ^ D ∨ r ≤ tau) := by
    intro D
    induction D using Nat.strong_induction_on with
    | _ D ih =>
      intro hD h1D
      rw [powHelper]
      rw [if_neg (by omega)]
      by_cases hD1 : D = 1
      · subst hD1
        rw [if_pos rfl]
        exact ⟨x, ha, h0, h1, fun _ => by simp, Or.inl (by simp)⟩
      rw [if_neg hD1]
      by_cases hD2 : D = 2
      · subst hD2
        rw [dif_pos rfl]
        exact step 1 1 a a x x (by norm_num) le_rfl le_rfl ha ha h0 h1 h0 h1 (fun _ => by simp) (Or.inl (by simp)) (fun _ => by simp) (Or.inl (by simp))
      rw [dif_neg hD2]
      obtain ⟨r, e1, e2, e3, e4, e5⟩ := ih (D / 2) (by omega) (by omega) (by omega)
      obtain ⟨s, f1, f2, f3, f4, f5⟩ := ih ((D + 1) / 2) (by omega) (by omega) (by omega)
      have := step (D / 2) ((D + 1) / 2) _ _ r s (by omega) (by omega) (by omega) e1 f1 e2 e3 f2 f3 e4 e5 f4 f5
      rw [show D / 2 + (D + 1) / 2 = D by omega] at this
      exact this
  rcases Nat.eq_zero_or_pos D with rfl | hpos
  · refine ⟨1, ?_, by norm_num, le_rfl, fun _ => by simp, Or.inl (by simp)⟩
    rw [powHelper, if_pos rfl]; exact A.val_one
  · obtain ⟨r, e1, e2, e3, e4, e5⟩ := main D hD hpos
    have hD1 : (1 - u) ^ D ≤ (1 - u) ^ (D - 1) := pow_le_pow_of_le_one hc0.le hc1 (by omega)
    refine ⟨r, e1, e2, e3, fun h => ?_, ?_⟩
    · exact le_trans (mul_le_mul_of_nonneg_right hD1 (pow_nonneg h0 D)) (e4 h)
    · exact e5.imp (fun h => le_trans (mul_le_mul_of_nonneg_right hD1 e2) h) id

end Spec.Rounded
end Girgs
