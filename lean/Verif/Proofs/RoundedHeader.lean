import Verif.Proofs.RoundedBuild
/-
The members computed by the constructor of `SpatialTree` with rounding.
-/
namespace Girgs
open Spec CFloat Build

variable {F : Type} [CFloat F] {u lam : ℝ}

/-- the members the constructor computes from the weights, with rounding -/
structure HeaderR (A : Rounded F u lam) (D : Nat) (weights : List F) (w : List ℝ) (h : Header F) (m S : ℝ) : Prop where
  eq : header D weights = some h
  mem : m ∈ w
  min : ∀ v ∈ w, m ≤ v
  w0 : A.val h.w0 = some m
  W : A.val h.W = some S
  S_low : (1 - u) ^ w.length * w.sum ≤ S
  S_up : (1 - u) ^ w.length * S ≤ w.sum
  levels : h.levels = partitioningBaseLevel D h.blc 0 0 + 1
  layers_pos : 1 ≤ h.layers
  layers_le : h.layers ≤ 30
  blc_le : h.blc ≤ 28
  blc_low : 0 < h.blc → (1 - u) ^ (w.length + 2) * ((2 : ℝ) ^ h.blc * m ^ 2) ≤ w.sum * (2 : ℝ) ^ lam
  layer : ∀ a v, A.val a = some v → v ∈ w → ∃ k : Nat, toI32 (CFloat.log2 (a /. h.w0)) = some (k : Int) ∧
    toSize (CFloat.log2 (a /. h.w0)) = some k ∧ k < h.layers ∧ (1 - u) * v < 2 ^ (k + 1) * (2 : ℝ) ^ lam * m

theorem Spec.RoundableInput.m_low {D : Nat} {w : List ℝ} {x : List (Fin D → ℝ)} (s : RoundableInput D w x) {m : ℝ} (hm : m ∈ w) :
    1 / 2 ^ 28 < m := by
  have h0 := s.wpos m hm
  have h1 := s.total m hm
  have h2 := sum_ge_mem s.wpos hm
  have h3 : m * 1 < m * (2 ^ 28 * m) := by
    have e : m * (2 ^ 28 * m) = 2 ^ 28 * m ^ 2 := by ring
    rw [e]; linarith
  have h4 := lt_of_mul_lt_mul_left h3 h0.le
  rw [div_lt_iff₀ (by norm_num)]
  linarith

theorem Spec.RoundableInput.sum_le {D : Nat} {w : List ℝ} {x : List (Fin D → ℝ)} (s : RoundableInput D w x) : w.sum ≤ 2 ^ 431 := by
  have h1 := List.sum_le_card_nsmul w (2 ^ 400) (fun v hv => (s.wfin v hv).le)
  rw [nsmul_eq_mul] at h1
  refine le_trans h1 ?_
  have h2 : (w.length : ℝ) ≤ 2 ^ 31 := by
    have := s.small
    have h3 : w.length ≤ 2 ^ 31 := by norm_num; omega
    exact_mod_cast h3
  have e : (2 : ℝ) ^ 431 = 2 ^ 31 * 2 ^ 400 := by rw [← pow_add]
  rw [e]
  exact mul_le_mul_of_nonneg_right h2 (by positivity)

theorem rpow_le_of_le_one_quarter {lam : ℝ} (h : lam ≤ 1 / 4) : (2 : ℝ) ^ lam ≤ 2 :=
  le_trans (Real.rpow_le_rpow_of_exponent_le (by norm_num) (show lam ≤ 1 by linarith)) (by norm_num)

theorem logb_four_thirds : Real.logb 2 (4 / 3) ≤ 1 / 2 := by
  rw [Real.logb_le_iff_le_rpow (by norm_num) (by norm_num)]
  have h : (2 : ℝ) ^ (1 / 2 : ℝ) = √2 := by rw [Real.sqrt_eq_rpow]
  rw [h]
  apply Real.le_sqrt_of_sq_le
  norm_num

theorem headerR_exists (A : Rounded F u lam) (hu : u ≤ 1 / 2 ^ 34) (hlam : lam ≤ 1 / 4) {D : Nat} {weights : List F}
    {positions : List (Fin D → F)} {w : List ℝ} {x : List (Fin D → ℝ)} (s : RoundableInput D w x)
    (hh : A.Holds weights positions w x) : ∃ h m S, HeaderR A D weights w h m S := by
  obtain ⟨am, m, e1, vm, hm, hmin⟩ := A.val_minElem hh.weights s.pos
  obtain ⟨aM, M, e2, vM, hM, hmax⟩ := A.val_maxElem hh.weights s.pos
  have hlow := s.m_low hm
  have hm0 : 0 < m := s.wpos m hm
  have hlam0 := A.lam_nonneg
  have hu1 : u ≤ 1 := le_trans hu (by norm_num)
  have hc0 := A.c_pos hu
  have hcl := A.c_le
  have hmW := sum_ge_mem s.wpos hm
  have hW0 : 0 < w.sum := lt_of_lt_of_le hm0 hmW
  have hsmall := s.small
  have hn2 : w.length + 2 ≤ 2 ^ 32 := by norm_num; omega
  obtain ⟨S, vS, hS0, hS1, hS2⟩ := A.val_sum hu hh.weights
    (fun y hy => tiny_le (k := 28) (by norm_num) (s.m_low hy).le) (by omega)
    (le_trans s.sum_le (pow_le_pow_right₀ (by norm_num) (by norm_num)))
  have hcn := A.c_pow hu (show w.length ≤ 2 ^ 32 by omega)
  have hcn0 := A.c_pow_pos hu w.length
  have hSW : 3 / 4 * w.sum ≤ S := le_trans (mul_le_mul_of_nonneg_right hcn hW0.le) hS1
  have hSW2 : 3 / 4 * S ≤ w.sum := le_trans (mul_le_mul_of_nonneg_right hcn hS0) hS2
  have hm28 : 1 < 2 ^ 28 * m := by rw [div_lt_iff₀ (by norm_num)] at hlow; linarith
  have hdivm : ∀ t : ℝ, 0 ≤ t → t / m ≤ 2 ^ 28 * t := by
    intro t ht
    rw [div_le_iff₀ hm0]
    have := mul_le_mul_of_nonneg_left hm28.le ht
    linarith
  -- the two quotients
  set y1 := A.rnd (S / m) with hy1
  have hq1 : 3 / 4 ≤ S / m := by
    rw [le_div_iff₀ hm0]; linarith
  have hq1' : (2 : ℝ) ^ (-1022 : ℤ) ≤ S / m := tiny_le (k := 1) (by norm_num) (by linarith)
  have hq1le : S / m ≤ 2 ^ 500 := by
    have h1 := hdivm S hS0
    have h2 : S ≤ 2 * 2 ^ 431 := le_trans (show S ≤ 2 * w.sum by linarith) (mul_le_mul_of_nonneg_left s.sum_le (by norm_num))
    have h3 : (2 : ℝ) ^ 28 * (2 * 2 ^ 431) ≤ 2 ^ 500 := by
      rw [← pow_succ', ← pow_add]
      exact pow_le_pow_right₀ (by norm_num) (by norm_num)
    exact le_trans h1 (le_trans (mul_le_mul_of_nonneg_left h2 (by norm_num)) h3)
  have vy1 : A.val (sumElems weights /. am) = some y1 :=
    A.div _ _ _ _ vS vm hm0.ne' (by rw [abs_of_nonneg (by linarith)]; exact two_pow_1023 (k := 500) (by norm_num) hq1le)
  have hy1up : (1 - u) * y1 ≤ S / m := A.up hu1 hq1'
  have hy1low : 1 / 2 ≤ y1 := by
    have h1 := A.low hq1'
    have h2 : 3 / 4 ≤ (1 - u) ^ 1 := A.c_pow hu (by norm_num)
    rw [pow_one] at h2
    have h3 := mul_le_mul h2 hq1 (by norm_num) hc0.le
    rw [← hy1] at h1
    linarith
  have hy1le : y1 ≤ 2 ^ 500 := by
    have := A.rnd_le_pow (k := 500) (by norm_num) (by norm_num) (x := S / m) (by exact_mod_cast hq1le)
    exact_mod_cast this
  have hq2low : 1 / 2 ^ 401 ≤ y1 / m := by
    rw [div_le_div_iff₀ (by positivity) hm0]
    have h1 := s.wfin m hm
    have e : (2 : ℝ) ^ 401 = 2 * 2 ^ 400 := by rw [pow_succ]; ring
    rw [e]
    have h2 : (0 : ℝ) < 2 ^ 400 := by positivity
    clear_value y1
    revert h1 h2
    generalize (2 : ℝ) ^ 400 = B
    intro h1 h2
    have h3 := mul_le_mul_of_nonneg_right hy1low (show 0 ≤ 2 * B by linarith only [h2])
    linarith only [h1, h3]
  have hq2' := tiny_le (k := 401) (by norm_num) hq2low
  have hq2le : y1 / m ≤ 2 ^ 528 := by
    have h1 := hdivm y1 (by linarith)
    have e : (2 : ℝ) ^ 528 = 2 ^ 28 * 2 ^ 500 := by rw [← pow_add]
    rw [e]
    exact le_trans h1 (mul_le_mul_of_nonneg_left hy1le (by norm_num))
  set y := A.rnd (y1 / m) with hy
  have vy : A.val (sumElems weights /. am /. am) = some y :=
    A.div _ _ _ _ vy1 vm hm0.ne' (by
      rw [abs_of_nonneg (div_nonneg (by linarith) hm0.le)]; exact two_pow_1023 (k := 528) (by norm_num) hq2le)
  have hyup : (1 - u) * y ≤ y1 / m := A.up hu1 hq2'
  have hylow : 1 / 2 ^ 401 ≤ y := by
    have h1 := A.mono hq2low
    have e : (1 : ℝ) / 2 ^ 401 = 2 ^ (-401 : ℤ) := by rw [one_div, ← zpow_natCast, ← zpow_neg]; norm_num
    rw [e] at h1 ⊢
    rwa [A.pow2 (-401) (by norm_num) (by norm_num)] at h1
  have hy0 : 0 < y := lt_of_lt_of_le (by positivity) hylow
  have hyW : (1 - u) ^ (w.length + 2) * y * m ^ 2 ≤ w.sum := by
    rw [le_div_iff₀ hm0] at hyup hy1up
    have h1 := mul_le_mul_of_nonneg_right (mul_le_mul_of_nonneg_left hyup hc0.le) hm0.le
    have h2 := mul_le_mul_of_nonneg_left (le_trans h1 hy1up) hcn0.le
    rw [pow_add]
    linarith
  have hc2 := A.c_pow hu hn2
  have hylt : y < 4 / 3 * 2 ^ 28 := by
    have h1 : (1 - u) ^ (w.length + 2) * y * m ^ 2 < 2 ^ 28 * m ^ 2 := lt_of_le_of_lt hyW (s.total m hm)
    have h2 := lt_of_mul_lt_mul_right h1 (by positivity)
    have h3 := mul_le_mul_of_nonneg_right hc2 hy0.le
    linarith
  obtain ⟨l, vl, hl⟩ := A.log2 _ _ vy (tiny_le (k := 401) (by norm_num) hylow)
  rw [abs_le] at hl
  have hlogup : Real.logb 2 y < 28 + 1 / 2 := by
    have h1 := Real.logb_lt_logb (b := 2) (by norm_num) hy0 hylt
    rw [Real.logb_mul (by norm_num) (by norm_num)] at h1
    have h2 : Real.logb 2 ((2 : ℝ) ^ 28) = 28 := by
      rw [← Real.rpow_natCast, Real.logb_rpow (by norm_num) (by norm_num)]; norm_num
    rw [h2] at h1
    have := logb_four_thirds
    linarith
  have hloglow : -401 ≤ Real.logb 2 y := by
    have h3 : Real.logb 2 ((1 : ℝ) / 2 ^ 401) = -401 := by
      rw [one_div, Real.logb_inv, ← Real.rpow_natCast, Real.logb_rpow (by norm_num) (by norm_num)]
      norm_num
    rw [← h3]
    exact Real.logb_le_logb_of_le (by norm_num) (by positivity) hylow
  obtain ⟨b, hb, hble, hblow⟩ : ∃ b : ℤ, toI32 (CFloat.log2 (sumElems weights /. am /. am)) = some b ∧ b ≤ 28 ∧
      (0 < b → (2 : ℝ) ^ b ≤ y * (2 : ℝ) ^ lam) := by
    rcases le_or_gt 0 l with h0 | h0
    · refine ⟨_, A.toI32_nonneg vl h0 (by linarith), ?_, ?_⟩
      · have : ⌊l⌋ < 29 := by rw [Int.floor_lt]; push_cast; linarith
        omega
      · intro _
        have h1 : (⌊l⌋ : ℝ) ≤ Real.logb 2 y + lam := by have := Int.floor_le l; linarith
        have h2 := Real.rpow_le_rpow_of_exponent_le (x := 2) (by norm_num) h1
        rwa [Real.rpow_add (by norm_num), Real.rpow_logb (by norm_num) (by norm_num) hy0, Real.rpow_intCast] at h2
    · have hc0 : ⌈l⌉ ≤ 0 := by rw [Int.ceil_le]; simpa using h0.le
      exact ⟨_, A.toI32_neg vl h0 (by linarith), by omega, by intro h; omega⟩
  -- layers
  have one_pow : A.val (CFloat.ofRat 1 : F) = some ((2 : ℝ) ^ (0 : ℤ)) := by rw [A.val_one]; norm_num
  have v29 : A.val (ofInt ((2 : ℤ) ^ 29) : F) = some ((2 : ℝ) ^ (29 : ℤ)) := by
    rw [A.val_ofInt _ (by norm_num)]; norm_num
  have llog : ∀ a v, A.val a = some v → v ∈ w → A.val (a /. am) = some (A.rnd (v / m)) ∧ 1 ≤ A.rnd (v / m) ∧
      A.rnd (v / m) ≤ 2 ^ 29 ∧ (1 - u) * v ≤ A.rnd (v / m) * m ∧ ∃ p, A.val (CFloat.log2 (a /. am)) = some p ∧ 0 ≤ p ∧ p ≤ 29 ∧
        Real.logb 2 (A.rnd (v / m)) ≤ p + lam := by
    intro a v va hv
    have h1 : 1 ≤ v / m := (one_le_div hm0).2 (hmin v hv)
    have h2 : v / m ≤ 2 ^ 29 := by rw [div_le_iff₀ hm0]; exact (s.spread m hm v hv).le
    have h3 : 1 ≤ A.rnd (v / m) := A.one_le_rnd h1
    have h4 : A.rnd (v / m) ≤ 2 ^ 29 := by
      have := A.rnd_le_pow (k := 29) (by norm_num) (by norm_num) (x := v / m) (by exact_mod_cast h2)
      exact_mod_cast this
    have h5 : A.val (a /. am) = some (A.rnd (v / m)) :=
      A.div _ _ _ _ va vm hm0.ne' (by rw [abs_of_nonneg (by linarith)]; exact two_pow_1023 (k := 29) (by norm_num) h2)
    have h6 : (1 - u) * v ≤ A.rnd (v / m) * m := by
      have := A.low (tiny_le (k := 0) (by norm_num) (show 1 / 2 ^ 0 ≤ v / m by simpa using h1))
      have h7 := mul_le_mul_of_nonneg_right this hm0.le
      rw [mul_assoc, div_mul_cancel₀ _ hm0.ne'] at h7
      exact h7
    obtain ⟨p, vp, hp⟩ := A.log2 _ _ h5 (tiny_le (k := 0) (by norm_num) (show 1 / 2 ^ 0 ≤ A.rnd (v / m) by simpa using h3))
    rw [abs_le] at hp
    refine ⟨h5, h3, h4, h6, p, vp, ?_, ?_, by linarith⟩
    · have := A.log2_mono _ _ _ _ _ _ one_pow h5 (by norm_num) (by simpa using h3) (A.log2_pow _ 0 one_pow) vp
      simpa using this
    · have := A.log2_mono _ _ _ _ _ _ h5 v29 (by linarith) (by exact_mod_cast h4) vp (A.log2_pow _ 29 v29)
      simpa using this
  obtain ⟨f1, f2, f3, f4, q, vq, hq0, hq29, _⟩ := llog aM M vM hM
  have hfl0 : 0 ≤ ⌊q⌋ := Int.floor_nonneg.2 hq0
  have hfl29 : ⌊q⌋ ≤ 29 := by
    have : ⌊q⌋ < 30 := by rw [Int.floor_lt]; push_cast; linarith
    omega
  have e5 : toU32 (CFloat.floor (CFloat.log2 (aM /. am))) = some ⌊q⌋.toNat := by
    have vf := A.floor _ _ vq (by rw [abs_of_nonneg hq0]; linarith [show (29 : ℝ) ≤ 2 ^ 50 by norm_num])
    have hfr : (⌊q⌋ : ℝ) ≤ 29 := by exact_mod_cast hfl29
    rw [A.toU32_nonneg vf (by exact_mod_cast hfl0) (by linarith [show (29 : ℝ) < 2 ^ 32 by norm_num]), Int.floor_intCast]
  have eh : header D weights = some (Header.mk am aM (sumElems weights) b (u32 (⌊q⌋.toNat + 1))
      (u32 (partitioningBaseLevel D b 0 0 + 1))) := by
    unfold header
    refine (obind e1 _).trans ?_
    refine (obind e2 _).trans ?_
    refine (obind hb _).trans ?_
    refine (obind e5 _).trans ?_
    rfl
  have huk : u32 (⌊q⌋.toNat + 1) = ⌊q⌋.toNat + 1 := u32_eq (by omega)
  refine ⟨_, m, S, eh, hm, hmin, vm, vS, hS1, hS2, (header_facts eh).1, ?_, ?_, hble, ?_, ?_⟩
  · show 1 ≤ u32 (⌊q⌋.toNat + 1); omega
  · show u32 (⌊q⌋.toNat + 1) ≤ 30; omega
  · intro h
    have h1 := mul_le_mul_of_nonneg_right (hblow h) (show 0 ≤ (1 - u) ^ (w.length + 2) * m ^ 2 by positivity)
    have h2 := mul_le_mul_of_nonneg_right hyW (show 0 ≤ (2 : ℝ) ^ lam by positivity)
    show (1 - u) ^ (w.length + 2) * ((2 : ℝ) ^ b * m ^ 2) ≤ _
    generalize (2 : ℝ) ^ b = B at *
    generalize (2 : ℝ) ^ lam = L at *
    linarith
  · intro a v va hv
    obtain ⟨g1, g2, g3, g4, p, vp, hp0, hp29, hp⟩ := llog a v va hv
    have hfp0 : 0 ≤ ⌊p⌋ := Int.floor_nonneg.2 hp0
    have hpq : p ≤ q := by
      refine A.log2_mono _ _ _ _ _ _ g1 f1 (by linarith) (A.mono ?_) vp vq
      rw [div_le_div_iff_of_pos_right hm0]; exact hmax v hv
    have hfpq : ⌊p⌋ ≤ ⌊q⌋ := Int.floor_le_floor hpq
    refine ⟨⌊p⌋.toNat, ?_, A.toSize_nonneg vp hp0 (by linarith), ?_, ?_⟩
    · rw [Int.toNat_of_nonneg hfp0]; exact A.toI32_nonneg vp hp0 (by linarith)
    · show ⌊p⌋.toNat < u32 (⌊q⌋.toNat + 1); omega
    · have h1 : Real.logb 2 (A.rnd (v / m)) < ((⌊p⌋.toNat + 1 : ℕ) : ℝ) + lam := by
        have h2 := Int.lt_floor_add_one p
        have h3 : ((⌊p⌋.toNat : ℕ) : ℝ) = (⌊p⌋ : ℝ) := by
          have : ((⌊p⌋.toNat : ℤ)) = ⌊p⌋ := Int.toNat_of_nonneg hfp0
          exact_mod_cast congrArg (Int.cast (R := ℝ)) this
        push_cast
        rw [h3]; linarith
      rw [Real.logb_lt_iff_lt_rpow (by norm_num) (by linarith), Real.rpow_add (by norm_num), Real.rpow_natCast] at h1
      exact lt_of_le_of_lt g4 (mul_lt_mul_of_pos_right h1 hm0)

end Girgs
