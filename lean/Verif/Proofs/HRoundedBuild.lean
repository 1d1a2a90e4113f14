import Verif.Proofs.HRoundedPbl
import Verif.Proofs.HGenerate
/-!
The constructor of the hyperbolic sampler in floating point arithmetic.
-/
namespace Girgs
open Spec CFloat HBuild

variable {F : Type} [CFloat F] {u lam eps p : ℝ} {A : Rounded F u lam} {Rf : F} {R : ℝ}

theorem pbl_some_iff {a b Rf : F} {l : ℕ} : RadiusLayer.partitioningBaseLevel a b Rf = some l ↔
    RadiusLayer.pblCond a b Rf l = false ∧ ∀ k, k < l → RadiusLayer.pblCond a b Rf k = true := by
  classical
  unfold RadiusLayer.partitioningBaseLevel
  by_cases h : ∃ level, RadiusLayer.pblCond a b Rf level = false
  · rw [dif_pos h, Option.some.injEq, Nat.find_eq_iff]
    simp only [Bool.not_eq_false]
  · rw [dif_neg h]
    refine ⟨fun h => by simp at h, fun h' => absurd ⟨l, h'.1⟩ h⟩

theorem pbl_exists {a b Rf : F} {n : ℕ} (h : RadiusLayer.pblCond a b Rf n = false) :
    ∃ l, l ≤ n ∧ RadiusLayer.partitioningBaseLevel a b Rf = some l := by
  classical
  have hex : ∃ n, RadiusLayer.pblCond a b Rf n = false := ⟨n, h⟩
  refine ⟨Nat.find hex, Nat.find_min' hex h, ?_⟩
  rw [pbl_some_iff]
  refine ⟨Nat.find_spec hex, fun k hk => ?_⟩
  have := Nat.find_min hex hk
  simpa using this

/-- the computed comparison level of two layers -/
noncomputable def rpbl (Rf : F) (i j : ℕ) : ℕ := (RadiusLayer.partitioningBaseLevel (radMin Rf i) (radMin Rf j) Rf).getD 0

/-- the computed target level of a layer -/
noncomputable def rtgt (Rf : F) (l : ℕ) : ℕ := (RadiusLayer.partitioningBaseLevel (radMin Rf l) (Rf -. ofRat 1) Rf).getD 0

theorem exp17 : Real.exp 17 ≤ 24160000 := by
  have e : Real.exp 17 = Real.exp 1 ^ 17 := by rw [← Real.exp_nat_mul]; norm_num
  rw [e]
  refine le_trans (pow_le_pow_left₀ (Real.exp_pos 1).le Real.exp_one_lt_d9.le 17) (by norm_num)

namespace RDisk
variable (D : RDisk A eps p Rf R)
include D

theorem exp_half (k : ℕ) : Real.exp ((R - k) / 2) ≤ Real.exp 17 * Real.exp (-(1 / 2)) ^ k := by
  rw [← Real.exp_nat_mul, ← Real.exp_add]
  apply Real.exp_le_exp.2
  have := D.le34
  linarith

theorem ceil34 : ⌈R⌉ ≤ 34 := Int.ceil_le.2 (by exact_mod_cast D.le34)

theorem ceil_pos : 0 < ⌈R⌉ := Int.ceil_pos.2 D.pos

/-- all levels are at most 31 -/
theorem cond_false {i j : ℕ} (hi : i < ⌈R⌉.toNat) (hj : j < ⌈R⌉.toNat) {a b : F} (ha : A.val a = some (R - i - 1))
    (hb : A.val b = some (R - j - 1)) : ∃ n, n ≤ 31 ∧ RadiusLayer.pblCond a b Rf n = false := by
  by_contra hc
  have hall : ∀ n, n ≤ 31 → RadiusLayer.pblCond a b Rf n = true := by
    intro n hn
    by_contra h
    exact hc ⟨n, hn, by simpa using h⟩
  obtain ⟨h1, h2⟩ := D.cond_pos hi hj ha hb (hall 0 (by norm_num))
  have h3 : ∀ n, n ≤ 31 → RadiusLayer.pblCond a (Rf -. ofRat 1) Rf n = true := fun n hn =>
    D.cond_mono hi hj le_rfl (Nat.zero_le _) (by omega) ha hb ha D.sub_one_val h1 h2 (hall n hn)
  have h4 := D.cond_level hi (L := 31) (by norm_num) ha D.sub_one_val (h3 0 (by norm_num)) (h3 31 le_rfl)
  have h5 := D.exp_half i
  have h6 := exp17
  have h7 : Real.exp (-(1 / 2)) ^ i ≤ 1 := pow_le_one₀ (Real.exp_pos _).le (Real.exp_le_one_iff.2 (by norm_num))
  have h8 : Real.exp 17 * Real.exp (-(1 / 2)) ^ i ≤ Real.exp 17 * 1 := mul_le_mul_of_nonneg_left h7 (Real.exp_pos _).le
  norm_num at h4 h8
  linarith

theorem pbl_some {i j : ℕ} (hi : i < ⌈R⌉.toNat) (hj : j < ⌈R⌉.toNat) {a b : F} (ha : A.val a = some (R - i - 1))
    (hb : A.val b = some (R - j - 1)) : ∃ l, l ≤ 31 ∧ RadiusLayer.partitioningBaseLevel a b Rf = some l := by
  obtain ⟨n, hn, h⟩ := D.cond_false hi hj ha hb
  obtain ⟨l, hl, e⟩ := pbl_exists h
  exact ⟨l, by omega, e⟩

theorem rpbl_eq {i j : ℕ} (hi : i < ⌈R⌉.toNat) (hj : j < ⌈R⌉.toNat) :
    RadiusLayer.partitioningBaseLevel (radMin Rf i) (radMin Rf j) Rf = some (rpbl Rf i j) ∧ rpbl Rf i j ≤ 31 := by
  obtain ⟨l, hl, e⟩ := D.pbl_some hi hj (D.radMin_val hi) (D.radMin_val hj)
  unfold rpbl
  rw [e]; exact ⟨rfl, hl⟩

theorem rtgt_eq {l : ℕ} (h : l < ⌈R⌉.toNat) :
    RadiusLayer.partitioningBaseLevel (radMin Rf l) (Rf -. ofRat 1) Rf = some (rtgt Rf l) ∧ rtgt Rf l ≤ 31 := by
  obtain ⟨l', hl, e⟩ := D.pbl_some h (show 0 < ⌈R⌉.toNat by omega) (D.radMin_val h) D.sub_one_val
  unfold rtgt
  rw [e]; exact ⟨rfl, hl⟩

/-- levels decrease towards the inside -/
theorem level_mono {i j i' j' : ℕ} (hi : i < ⌈R⌉.toNat) (hj : j < ⌈R⌉.toNat) (hii : i' ≤ i) (hjj : j' ≤ j) {a b a' b' : F}
    (ha : A.val a = some (R - i - 1)) (hb : A.val b = some (R - j - 1)) (ha' : A.val a' = some (R - i' - 1))
    (hb' : A.val b' = some (R - j' - 1)) {l l' : ℕ} (hl : RadiusLayer.partitioningBaseLevel a b Rf = some l)
    (hl' : RadiusLayer.partitioningBaseLevel a' b' Rf = some l') : l ≤ l' := by
  by_contra hc
  rw [not_le] at hc
  obtain ⟨_, h2⟩ := pbl_some_iff.1 hl
  obtain ⟨h3, _⟩ := pbl_some_iff.1 hl'
  obtain ⟨p1, p2⟩ := D.cond_pos hi hj ha hb (h2 0 (by omega))
  obtain ⟨n, hn, hf⟩ := D.cond_false hi hj ha hb
  have hl31 : l' ≤ 100 := by
    by_contra hc2
    have := h2 n (by omega)
    rw [hf] at this
    cases this
  have := D.cond_mono hi hj hii hjj hl31 ha hb ha' hb' p1 p2 (h2 l' hc)
  rw [h3] at this
  cases this

theorem two_pow_rtgt {k : ℕ} (hk : k < ⌈R⌉.toNat) : (2 : ℝ) ^ rtgt Rf k ≤ 1 + 2.4 * Real.exp 17 * Real.exp (-(1 / 2)) ^ k := by
  obtain ⟨h1, h2⟩ := D.rtgt_eq hk
  have hpos : 0 < 2.4 * Real.exp 17 * Real.exp (-(1 / 2)) ^ k := by positivity
  rcases Nat.eq_zero_or_pos (rtgt Rf k) with h0 | h0
  · rw [h0, pow_zero]; linarith
  · obtain ⟨_, h4⟩ := pbl_some_iff.1 h1
    have h5 := D.cond_level hk (L := rtgt Rf k - 1) (by omega) (D.radMin_val hk) D.sub_one_val (h4 0 h0) (h4 _ (by omega))
    rw [Nat.sub_add_cancel h0] at h5
    have h6 := D.exp_half k
    linarith

theorem total_lt : hTotal (rtgt Rf) ⌈R⌉.toNat < 2147483648 := by
  have h1 : (hTotal (rtgt Rf) ⌈R⌉.toNat : ℝ) ≤ ∑ k ∈ Finset.range ⌈R⌉.toNat, (1 + 2.4 * Real.exp 17 * Real.exp (-(1 / 2)) ^ k) := by
    unfold hTotal
    push_cast
    exact Finset.sum_le_sum fun k hk => D.two_pow_rtgt (Finset.mem_range.1 hk)
  rw [Finset.sum_add_distrib, ← Finset.mul_sum] at h1
  have hcard : (∑ k ∈ Finset.range ⌈R⌉.toNat, (1 : ℝ)) ≤ 34 := by
    have := D.ceil34
    have : ⌈R⌉.toNat ≤ 34 := by omega
    simp only [Finset.sum_const, Finset.card_range, nsmul_eq_mul, mul_one]
    exact_mod_cast this
  have hs : ∑ k ∈ Finset.range ⌈R⌉.toNat, Real.exp (-(1 / 2)) ^ k ≤ 34 := by
    refine le_trans (Finset.sum_le_sum fun k _ => pow_le_one₀ (Real.exp_pos _).le (Real.exp_le_one_iff.2 (by norm_num))) hcard
  have hs0 : 0 ≤ ∑ k ∈ Finset.range ⌈R⌉.toNat, Real.exp (-(1 / 2)) ^ k := Finset.sum_nonneg fun k _ => by positivity
  have he := exp17
  have hm : 2.4 * Real.exp 17 * ∑ k ∈ Finset.range ⌈R⌉.toNat, Real.exp (-(1 / 2)) ^ k ≤ 2.4 * 24160000 * 34 :=
    mul_le_mul (by linarith) hs hs0 (by norm_num)
  have : (hTotal (rtgt Rf) ⌈R⌉.toNat : ℝ) < 2147483648 := by
    refine lt_of_le_of_lt (h1.trans (add_le_add hcard hm)) (by norm_num)
  exact_mod_cast this

theorem layers_val : numLayers Rf = some ⌈R⌉.toNat := by
  have hp := D.pos
  have h34 := D.le34
  have v1 := A.div _ _ _ _ D.val A.val_one one_ne_zero (two_pow_1023 (k := 6) (by norm_num) (by rw [div_one, abs_of_pos hp]; norm_num; linarith))
  rw [div_one, D.rep] at v1
  have v2 := A.ceil _ _ v1 (by rw [abs_of_pos hp]; norm_num; linarith)
  have h1 := D.ceil34
  have h2 := D.ceil_pos
  unfold numLayers
  rw [A.toU32_nonneg v2 (by exact_mod_cast h2.le) (by
    have : (⌈R⌉ : ℝ) ≤ 34 := by exact_mod_cast h1
    norm_num; linarith), Int.floor_intCast]

theorem layer_val_le {rf : F} {r : ℝ} (vr : A.val rf = some r) (h1 : u * R < r) (h2 : r ≤ R) :
    radiusToLayer Rf rf = some ⌊A.rnd (R - r)⌋.toNat ∧ ⌊A.rnd (R - r)⌋.toNat < ⌈R⌉.toNat := by
  have hp := D.pos
  have h34 := D.le34
  have hu0 := A.u_nonneg
  have hr0 : 0 < r := lt_of_le_of_lt (by positivity) h1
  have hd0 : 0 ≤ R - r := by linarith
  have hr1 := A.rnd_nonneg hd0
  have hr2 : A.rnd (R - r) ≤ R := by
    have := A.mono (show R - r ≤ R by linarith)
    rwa [D.rep] at this
  have v1 := A.sub _ _ _ _ D.val vr (two_pow_1023 (k := 6) (by norm_num) (by rw [abs_of_nonneg hd0]; norm_num; linarith))
  have v2 := A.div _ _ _ _ v1 A.val_one one_ne_zero (two_pow_1023 (k := 6) (by norm_num) (by rw [div_one, abs_of_nonneg hr1]; norm_num; linarith))
  rw [div_one, A.rep _ _ v1] at v2
  constructor
  · unfold radiusToLayer
    rw [A.toU32_nonneg v2 hr1 (by norm_num; linarith)]
  · have h3 : A.rnd (R - r) < (⌈R⌉ : ℝ) := by
      refine lt_of_le_of_ne (hr2.trans (Int.le_ceil R)) fun he => ?_
      have heR : A.rnd (R - r) = R := le_antisymm hr2 (by rw [he]; exact Int.le_ceil R)
      have hge : (2 : ℝ) ^ (-1022 : ℤ) ≤ |R - r| := by
        rw [abs_of_nonneg hd0]
        by_contra hc
        have := A.rnd_le_pow (x := R - r) (k := -1022) (by norm_num) (by norm_num) (not_le.1 hc).le
        rw [heR] at this
        have h4 := D.ge
        have h5 := tiny_le (k := 1) (by norm_num) (show (1 : ℝ) / 2 ^ 1 ≤ 1 / 2 by norm_num)
        have h6 := this.trans h5
        norm_num at h6
        linarith
      have h4 := A.rel (R - r) hge
      rw [heR, abs_of_nonneg hd0, abs_of_nonneg (by linarith)] at h4
      nlinarith
    have h4 : ⌊A.rnd (R - r)⌋ < ⌈R⌉ := by rw [Int.floor_lt]; exact h3
    have h5 := D.ceil_pos
    omega

/-- a radius slightly above `R` -/
theorem layer_val_gt {rf : F} {r : ℝ} (vr : A.val rf = some r) (h1 : R < r) (h2 : r ≤ R + 1 / 2 ^ 44) :
    radiusToLayer Rf rf = some 0 ∧ A.rnd (R - r) ≤ 0 ∧ -1 < A.rnd (R - r) := by
  have a1 : A.rnd (R - r) ≤ 0 := by
    have := A.mono (show R - r ≤ 0 by linarith)
    rwa [A.rnd_zero] at this
  have a2 : -1 < A.rnd (R - r) := by
    have h3 := A.mono (show (-(2 : ℝ) ^ (-1 : ℤ)) ≤ R - r by norm_num at h2 ⊢; linarith)
    rw [A.odd, A.pow2 (-1) (by norm_num) (by norm_num)] at h3
    norm_num at h3
    linarith
  have v1 := A.sub _ _ _ _ D.val vr (two_pow_1023 (k := 6) (by norm_num) (by rw [abs_of_neg (by linarith)]; norm_num at h2 ⊢; linarith))
  have v2 := A.div _ _ _ _ v1 A.val_one one_ne_zero (two_pow_1023 (k := 6) (by norm_num) (by rw [div_one, abs_of_nonpos a1]; norm_num; linarith))
  rw [div_one, A.rep _ _ v1] at v2
  refine ⟨?_, a1, a2⟩
  unfold radiusToLayer
  rcases a1.lt_or_eq with h | h
  · exact A.toU32_small v2 a2 h
  · rw [A.toU32_nonneg v2 h.ge (by rw [h]; norm_num), h, Int.floor_zero]
    rfl

theorem layer_val {rf : F} {r : ℝ} (vr : A.val rf = some r) (h1 : u * R < r) (h2 : r ≤ R + 1 / 2 ^ 44) :
    radiusToLayer Rf rf = some ⌊A.rnd (R - r)⌋.toNat ∧ ⌊A.rnd (R - r)⌋.toNat < ⌈R⌉.toNat := by
  rcases le_or_gt r R with h | h
  · exact D.layer_val_le vr h1 h
  · obtain ⟨e, a1, a2⟩ := D.layer_val_gt vr h h2
    have e0 : ⌊A.rnd (R - r)⌋.toNat = 0 := by
      have : ⌊A.rnd (R - r)⌋ ≤ 0 := by
        have := Int.floor_le (A.rnd (R - r))
        have : (⌊A.rnd (R - r)⌋ : ℝ) ≤ 0 := by linarith
        exact_mod_cast this
      omega
    have := D.ceil_pos
    rw [e0]
    exact ⟨e, by omega⟩

theorem cell_val {af : F} {a : ℝ} (va : A.val af = some a) (h0 : 0 ≤ a) (h1 : a < 2 * p) {t : ℕ} (ht : t ≤ 31) :
    ∃ c, c < 2 ^ t ∧ Angle.cellForPoint af t = some c := by
  obtain ⟨p3, p4⟩ := D.p_pos
  have v2 : A.val (ofRat 2 : F) = some 2 := by
    have := A.val_ofRat_int (F := F) 2 (by norm_num)
    simpa using this
  have w1 := A.div _ _ _ _ va v2 (by norm_num) (two_pow_1023 (k := 4) (by norm_num) (by rw [abs_of_nonneg (by linarith)]; norm_num; linarith))
  have hx0 := A.rnd_nonneg (show 0 ≤ a / 2 by linarith)
  have hx1 : A.rnd (a / 2) < p := by
    rcases le_or_gt a 2 with h | h
    · have := A.rnd_le_one (x := a / 2) (by linarith)
      linarith
    · rw [D.elem.half a (A.rep _ _ va) (by
        rw [abs_of_pos (by linarith)]
        have := zpow_le_one_of_nonpos₀ (show (1 : ℝ) ≤ 2 by norm_num) (show (-1000 : ℤ) ≤ 0 by norm_num)
        linarith)]
      linarith
  have w2 := A.div _ _ _ _ w1 D.elem.pi (by linarith) (two_pow_1023 (k := 4) (by norm_num) (by
    rw [abs_of_nonneg (by positivity)]
    have : A.rnd (a / 2) / p ≤ 1 := by rw [div_le_one (by linarith)]; exact hx1.le
    norm_num; linarith))
  have hy0 := A.rnd_nonneg (show 0 ≤ A.rnd (a / 2) / p by positivity)
  have hy1 := D.elem.quot _ _ (A.rep _ _ w1) (A.rep _ _ D.elem.pi) (by
    have := zpow_le_one_of_nonpos₀ (show (1 : ℝ) ≤ 2 by norm_num) (show (-1000 : ℤ) ≤ 0 by norm_num)
    linarith) hx1
  have hn : 2 ^ t ≤ 2 ^ 31 := Nat.pow_le_pow_right (by norm_num) ht
  have v3 := A.val_ofNat (F := F) (2 ^ t) (hn.trans (by norm_num))
  push_cast at v3
  have hle : (2 : ℝ) ^ t ≤ 2 ^ 31 := pow_le_pow_right₀ (by norm_num) ht
  have hw : (0 : ℝ) < 2 ^ t := by positivity
  generalize A.rnd (A.rnd (a / 2) / p) = y at *
  have hlt : y * 2 ^ t < 2 ^ t := by nlinarith
  have w3 := A.mul _ _ _ _ w2 v3 (two_pow_1023 (k := 31) (by norm_num) (by
    rw [abs_of_nonneg (by positivity)]; linarith))
  rw [A.scale y (A.rep _ _ w2)] at w3
  refine ⟨⌊y * 2 ^ t⌋.toNat, ?_, ?_⟩
  · have h2 : ⌊y * 2 ^ t⌋ < 2 ^ t := by rw [Int.floor_lt]; push_cast; exact hlt
    have h3 : (0 : ℤ) < 2 ^ t := by positivity
    have h4 : ((2 ^ t : ℕ) : ℤ) = 2 ^ t := by push_cast; rfl
    omega
  · unfold Angle.cellForPoint
    refine (obind (Angle.numCellsInLevel_eq ht) _).trans ?_
    exact A.toU32_nonneg w3 (by positivity) (by norm_num at hle ⊢; linarith)

end RDisk

variable {radii angles : List F} {Tf : F} {r a : List ℝ} {T : ℝ}

theorem Spec.RInput.disk (I : RInput A eps p radii angles Tf Rf r a T R) : RDisk A eps p Rf R :=
  ⟨I.elem, I.hu, I.he, I.vR, I.hyp.disk, I.hyp.disk34, I.hyp.disk_pos⟩

/-- comparison levels of existing layers -/
noncomputable def rpair (Rf : F) (nl : ℕ) (i j : ℕ) : ℕ := if i < nl ∧ j < nl then rpbl Rf i j else 0

theorem Spec.RInput.inputOK (I : RInput A eps p radii angles Tf Rf r a T R) (hs : SymmetricLevels Rf ⌈R⌉.toNat) :
    HInputOK Rf radii angles ⌈R⌉.toNat (rtgt Rf) (rpair Rf ⌈R⌉.toNat) := by
  have D := I.disk
  have hl1 := I.radii.length_eq
  have hl2 := I.angles.length_eq
  have h := I.hyp
  have hc1 := D.ceil34
  have hc0 := D.ceil_pos
  have h00 : 0 < ⌈R⌉.toNat := by omega
  have hsym : ∀ i j, rpair Rf ⌈R⌉.toNat i j = rpair Rf ⌈R⌉.toNat j i := by
    intro i j
    unfold rpair
    by_cases hij : i < ⌈R⌉.toNat ∧ j < ⌈R⌉.toNat
    · rw [if_pos hij, if_pos hij.symm]
      unfold rpbl
      rw [hs i j hij.1 hij.2]
    · rw [if_neg hij, if_neg fun h => hij h.symm]
  refine ⟨?_, ?_, ?_, D.layers_val, by omega, by omega, ?_, ?_, hsym, ?_, ?_, D.total_lt, ?_, ?_⟩
  · rw [hl1, hl2, h.len]
  · rw [hl1]; exact h.pos
  · rw [hl1]; exact h.small
  · intro l hl
    exact (D.rtgt_eq hl).1
  · intro i j hi hj
    unfold rpair
    rw [if_pos ⟨hi, hj⟩]
    exact (D.rpbl_eq hi hj).1
  · intro i j hi hj
    unfold rpair
    rw [if_pos ⟨hi, hj⟩]
    exact D.level_mono hi hj le_rfl (Nat.zero_le _) (D.radMin_val hi) (D.radMin_val hj) (D.radMin_val hi) D.sub_one_val
      (D.rpbl_eq hi hj).1 (D.rtgt_eq hi).1
  · intro i j hi hj
    unfold rpair
    rw [if_pos ⟨hi, hj⟩]
    exact D.level_mono hi hj (Nat.zero_le _) (Nat.zero_le _) (D.radMin_val hi) (D.radMin_val hj) (D.radMin_val h00) D.sub_one_val
      (D.rpbl_eq hi hj).1 (D.rtgt_eq h00).1
  · intro rf hrf
    obtain ⟨x, hx, vx⟩ := forall2_mem I.radii hrf
    obtain ⟨e1, e2⟩ := D.layer_val vx (h.radius x hx).1 (h.radius x hx).2
    exact ⟨_, e2, e1⟩
  · intro af haf k hk
    obtain ⟨x, hx, vx⟩ := forall2_mem I.angles haf
    exact D.cell_val vx (h.angle x hx).1 (h.angle x hx).2 (D.rtgt_eq hk).2

end Girgs
