import Verif.Proofs.RoundedTree
import Verif.Proofs.Threshold
/-
The threshold decision with rounding.
-/
namespace Girgs
open Spec CFloat Build Tree

variable {F : Type} [CFloat F] {u lam : ℝ} {A : Rounded F u lam} {D : Nat} {ndebug : Bool} {w : List ℝ} {x : List (Fin D → ℝ)}
  {alpha : F} {T : Tree F D} {m S : ℝ}

theorem Spec.RoundableInput.ratio_low (s : RoundableInput D w x) {a b : ℝ} (ha : a ∈ w) (hb : b ∈ w) :
    1 / 2 ^ 487 ≤ a * b / w.sum := by
  have h1 := s.m_low ha
  have h2 := s.m_low hb
  have hW0 : 0 < w.sum := lt_of_lt_of_le (s.wpos a ha) (sum_ge_mem s.wpos ha)
  have h3 : (1 : ℝ) / 2 ^ 28 * (1 / 2 ^ 28) ≤ a * b := mul_le_mul h1.le h2.le (by positivity) (s.wpos a ha).le
  have h4 : (1 : ℝ) / 2 ^ 487 = 1 / 2 ^ 28 * (1 / 2 ^ 28) / 2 ^ 431 := by
    rw [div_mul_div_comm, one_mul, ← pow_add, div_div, ← pow_add]
  rw [h4]
  exact div_le_div₀ (mul_pos (s.wpos a ha) (s.wpos b hb)).le h3 hW0 s.sum_le

theorem BuiltR.wTerm_val (b : BuiltR A D ndebug w x alpha T m S) (s : RoundableInput D w x) (hu : u ≤ 1 / 2 ^ 34)
    {y z : Node F D} {v v' : ℝ} (hy : A.val y.weight = some v) (hz : A.val z.weight = some v') (hv : v ∈ w) (hv' : v' ∈ w) :
    ∃ r, A.val (T.wTerm y z) = some r ∧ (1 - u) ^ (w.length + 2) * (v * v' / w.sum) ≤ r ∧
      (1 - u) ^ (w.length + 2) * r ≤ v * v' / w.sum := by
  have hu1 : u ≤ 1 := le_trans hu (by norm_num)
  have hc0 := A.c_pos hu
  have hv0 := s.wpos v hv
  have hv0' := s.wpos v' hv'
  have hW0 : 0 < w.sum := lt_of_lt_of_le hv0 (sum_ge_mem s.wpos hv)
  have hn : w.length ≤ 2 ^ 32 := by have := s.small; norm_num; omega
  have hcn := A.c_pow hu hn
  have hcn0 := A.c_pow_pos hu w.length
  have hS1 := b.S_low
  have hS2 := b.S_up
  have hSW : 3 / 4 * w.sum ≤ S := le_trans (mul_le_mul_of_nonneg_right hcn hW0.le) hS1
  have hS0 : 0 < S := by linarith
  have hSW2 : 3 / 4 * S ≤ w.sum := le_trans (mul_le_mul_of_nonneg_right hcn hS0.le) hS2
  have hp0 : 0 < v * v' := mul_pos hv0 hv0'
  have hpup : v * v' ≤ 2 ^ 800 := by
    have := mul_le_mul (s.wfin v hv).le (s.wfin v' hv').le hv0'.le (by positivity)
    refine le_trans this (le_of_eq ?_)
    rw [← pow_add]
  have hplow : 1 / 2 ^ 56 ≤ v * v' := by
    have := mul_le_mul (s.m_low hv).le (s.m_low hv').le (by positivity) hv0.le
    refine le_trans (le_of_eq ?_) this
    norm_num
  have e1 := A.mul _ _ _ _ hy hz (by rw [abs_of_pos hp0]; exact two_pow_1023 (k := 800) (by norm_num) hpup)
  have l1 := A.low (tiny_le (k := 56) (by norm_num) hplow)
  have u1 := A.up hu1 (tiny_le (k := 56) (by norm_num) hplow)
  set p := A.rnd (v * v') with hp
  have hp2 : p ≤ 2 ^ 800 := by
    have := A.rnd_le_pow (k := 800) (by norm_num) (by norm_num) (x := v * v') (by exact_mod_cast hpup)
    exact_mod_cast this
  have hp1 : 1 / 2 ^ 57 ≤ p := by
    have h3 : 3 / 4 ≤ (1 - u) ^ 1 := A.c_pow hu (by norm_num)
    rw [pow_one] at h3
    have h4 := mul_le_mul h3 hplow (by positivity) hc0.le
    have h5 : (1 : ℝ) / 2 ^ 57 ≤ 3 / 4 * (1 / 2 ^ 56) := by norm_num
    linarith
  have hpp : 0 < p := lt_of_lt_of_le (by positivity) hp1
  have hq0 : 0 < p / S := div_pos hpp hS0
  have hqlow : 1 / 2 ^ 489 ≤ p / S := by
    have h4 : (1 : ℝ) / 2 ^ 489 = 1 / 2 ^ 57 / 2 ^ 432 := by rw [div_div, ← pow_add]
    rw [h4]
    refine div_le_div₀ hpp.le hp1 hS0 ?_
    have e : (2 : ℝ) ^ 432 = 2 * 2 ^ 431 := by rw [pow_succ]; ring
    rw [e]
    exact le_trans (show S ≤ 2 * w.sum by linarith) (mul_le_mul_of_nonneg_left s.sum_le (by norm_num))
  have hqup : p / S ≤ 2 ^ 829 := by
    rw [div_le_iff₀ hS0]
    have h3 : 1 / 2 ^ 29 ≤ S := by
      have h4 := s.m_low hv
      have h5 := sum_ge_mem s.wpos hv
      have h6 : (1 : ℝ) / 2 ^ 29 = 1 / 2 ^ 28 / 2 := by norm_num
      rw [h6]
      linarith
    have e : (2 : ℝ) ^ 800 = 2 ^ 829 * (1 / 2 ^ 29) := by
      rw [show (829 : ℕ) = 800 + 29 by norm_num, pow_add, mul_assoc, mul_one_div_cancel (by positivity), mul_one]
    rw [e] at hp2
    exact le_trans hp2 (mul_le_mul_of_nonneg_left h3 (by positivity))
  have e2 := A.div _ _ _ _ e1 b.W hS0.ne' (by rw [abs_of_pos hq0]; exact two_pow_1023 (k := 829) (by norm_num) hqup)
  have l2 := A.low (tiny_le (k := 489) (by norm_num) hqlow)
  have u2 := A.up hu1 (tiny_le (k := 489) (by norm_num) hqlow)
  refine ⟨_, e2, ?_, ?_⟩
  · refine le_trans ?_ l2
    rw [pow_add, ← mul_div_assoc, ← mul_div_assoc, div_le_div_iff₀ hW0 hS0]
    have h3 := mul_le_mul_of_nonneg_left hS2 (show 0 ≤ (1 - u) * p by positivity)
    have h4 := mul_le_mul_of_nonneg_left l1 (show 0 ≤ (1 - u) * ((1 - u) ^ w.length * S) by positivity)
    linarith
  · generalize A.rnd (p / S) = r at u2
    have h3 := mul_le_mul_of_nonneg_left u2 (show 0 ≤ (1 - u) ^ w.length * (1 - u) by positivity)
    rw [pow_add]
    refine le_trans (show _ ≤ (1 - u) ^ w.length * (1 - u) * (p / S) by linarith) ?_
    rw [← mul_div_assoc, div_le_div_iff₀ hS0 hW0]
    have h4 := mul_le_mul_of_nonneg_left u1 (show 0 ≤ (1 - u) ^ w.length * w.sum by positivity)
    have h5 := mul_le_mul_of_nonneg_left hS1 hp0.le
    linarith

theorem dTerm_val (A : Rounded F u lam) (hu : u ≤ 1 / 2 ^ 34) (hD : D ≤ 5) {y z : Node F D} {p q : Fin D → ℝ}
    (hp : ∀ d, A.val (y.coord d) = some (p d)) (hq : ∀ d, A.val (z.coord d) = some (q d)) (up : ∀ d, 0 ≤ p d ∧ p d < 1)
    (uq : ∀ d, 0 ≤ q d ∧ q d < 1) : ∃ r t, A.val (dTerm y z) = some t ∧ 0 ≤ r ∧ |r - torusDist p q| ≤ 2 * u ∧
      ((2 : ℝ) ^ (-1000 : ℤ) ≤ r ^ D → (1 - u) ^ D * r ^ D ≤ t) ∧ ((1 - u) ^ D * t ≤ r ^ D ∨ t ≤ (2 : ℝ) ^ (-1000 : ℤ)) := by
  obtain ⟨r, e1, h0, h1, h2⟩ := A.val_coordDistance hp hq up uq
  obtain ⟨t, e2, _, _, h3, h4⟩ := A.val_powHelper hu D (by omega) _ r e1 h0 h1
  exact ⟨r, t, e2, h0, h2, h3, h4⟩

theorem margin_pos (A : Rounded F u lam) (hu : u ≤ 1 / 2 ^ 34) (n D : Nat) : 0 < margin u lam n D := by
  have := A.c_pos hu
  unfold margin; positivity

theorem two_rpow_le_one {lam : ℝ} (h : 0 ≤ lam) : (2 : ℝ) ^ (-(3 * lam)) ≤ 1 :=
  Real.rpow_le_one_of_one_le_of_nonpos (by norm_num) (by linarith)

theorem tiny_lt_ratio {r : ℝ} (h : 1 / 2 ^ 487 ≤ r) : (2 : ℝ) ^ (-1000 : ℤ) ≤ 1 / 2 * r := by
  have e : (1 : ℝ) / 2 ^ 488 = 1 / 2 * (1 / 2 ^ 487) := by rw [pow_succ]; ring
  refine le_trans ?_ (mul_le_mul_of_nonneg_left h (by norm_num))
  rw [← e, one_div, ← zpow_natCast, ← zpow_neg]
  exact zpow_le_zpow_right₀ (by norm_num) (by norm_num)

/-- the computed decision for a pair of nodes -/
theorem BuiltR.rule (b : BuiltR A D ndebug w x alpha T m S) (s : RoundableInput D w x) (hu : u ≤ 1 / 2 ^ 34)
    {y z : Node F D} (hy : y ∈ T.nodes) (hz : z ∈ T.nodes) :
    ((dTerm y z <. T.wTerm y z) = true → ¬ SurelyFar u lam w x y.index z.index) ∧
    (SurelyClose u lam w x y.index z.index → (dTerm y z <. T.wTerm y z) = true) := by
  obtain ⟨v, p, _, f1, f2, f3, f4, _⟩ := b.node y hy
  obtain ⟨v', q, _, g1, g2, g3, g4, _⟩ := b.node z hz
  have hv := List.mem_of_getElem? f1
  have hv' := List.mem_of_getElem? g1
  obtain ⟨rw, ew, wl, wu⟩ := b.wTerm_val s hu f3 g3 hv hv'
  obtain ⟨r, t, et, hr0, hr, tl, tu⟩ := dTerm_val A hu s.D5 f4 g4 (s.unit p (List.mem_of_getElem? f2)) (s.unit q (List.mem_of_getElem? g2))
  have hlt := A.lt _ _ _ _ et ew
  have hlam0 := A.lam_nonneg
  have hc0 := A.c_pos hu
  have hcD := A.c_pow_pos hu D
  have hcn := A.c_pow_pos hu (w.length + 2)
  have hn : w.length + 2 ≤ 2 ^ 32 := by have := s.small; norm_num; omega
  have hcn34 := A.c_pow hu hn
  have hL := two_rpow_le_one hlam0
  have hL0 : 0 < (2 : ℝ) ^ (-(3 * lam)) := by positivity
  have hratio := s.ratio_low hv hv'
  have htiny := tiny_lt_ratio hratio
  have hratio0 : 0 < v * v' / w.sum := lt_of_lt_of_le (by positivity) hratio
  rw [abs_le] at hr
  have emargin : margin u lam w.length D = (1 - u) ^ (w.length + 2) * ((1 - u) ^ D * ((1 - u) ^ 2 * (2 : ℝ) ^ (-(3 * lam)))) := by
    unfold margin
    rw [show w.length + D + 4 = (w.length + 2) + (D + 2) by omega, pow_add, pow_add (1 - u) D 2]; ring
  have hk1 : (1 - u) ^ 2 * (2 : ℝ) ^ (-(3 * lam)) ≤ 1 := mul_le_one₀ (A.c_pow_le hu 2) hL0.le hL
  have hk0 : 0 < (1 - u) ^ 2 * (2 : ℝ) ^ (-(3 * lam)) := by positivity
  generalize (1 - u) ^ 2 * (2 : ℝ) ^ (-(3 * lam)) = K at emargin hk1 hk0
  have hm1 : margin u lam w.length D ≤ 1 := by
    rw [emargin]
    exact mul_le_one₀ (A.c_pow_le hu _) (by positivity) (mul_le_one₀ (A.c_pow_le hu _) hk0.le hk1)
  generalize (2 : ℝ) ^ (-1000 : ℤ) = tau at htiny tl tu
  constructor
  · rintro hd ⟨a, a', p', q', h1, h2, h3, h4, h5, h6⟩
    rw [f1, Option.some.injEq] at h1
    rw [g1, Option.some.injEq] at h2
    rw [f2, Option.some.injEq] at h3
    rw [g2, Option.some.injEq] at h4
    subst h1 h2 h3 h4
    have hlt' := hlt.1 hd
    set X := (torusDist p q - 2 * u) ^ D with hX
    have hX0 : 0 ≤ X := pow_nonneg (by linarith) D
    have hXr : X ≤ r ^ D := pow_le_pow_left₀ (by linarith) (by linarith) D
    have h7 : v * v' / w.sum ≤ X := le_trans h6 (mul_le_of_le_one_left hX0 hm1)
    have h8 := tl (by linarith)
    have h9 := mul_le_mul_of_nonneg_left hXr hcD.le
    -- the upper bound for the right side
    have h10 : (1 - u) ^ (w.length + 2) * rw ≤ (1 - u) ^ (w.length + 2) * ((1 - u) ^ D * X) := by
      refine le_trans wu (le_trans h6 ?_)
      rw [emargin, mul_assoc, mul_assoc]
      refine mul_le_mul_of_nonneg_left (mul_le_mul_of_nonneg_left ?_ hcD.le) hcn.le
      exact mul_le_of_le_one_left hX0 hk1
    have h11 := le_of_mul_le_mul_left h10 hcn
    linarith
  · rintro ⟨a, a', p', q', h1, h2, h3, h4, h5⟩
    rw [f1, Option.some.injEq] at h1
    rw [g1, Option.some.injEq] at h2
    rw [f2, Option.some.injEq] at h3
    rw [g2, Option.some.injEq] at h4
    subst h1 h2 h3 h4
    rw [hlt]
    rcases tu with h6 | h6
    · have h7 : r ^ D ≤ (torusDist p q + 2 * u) ^ D := pow_le_pow_left₀ hr0 (by linarith) D
      have h8 : (1 - u) ^ D * t < (1 - u) ^ D * ((1 - u) ^ (w.length + 2) * (v * v' / w.sum)) := by
        refine lt_of_le_of_lt (le_trans h6 h7) (lt_of_lt_of_le h5 ?_)
        rw [emargin]
        have h9 := mul_le_mul_of_nonneg_left hk1 (show 0 ≤ (1 - u) ^ D * ((1 - u) ^ (w.length + 2) * (v * v' / w.sum)) by positivity)
        linarith
      exact lt_of_lt_of_le (lt_of_mul_lt_mul_left h8 hcD.le) wl
    · have h7 := mul_le_mul_of_nonneg_right hcn34 hratio0.le
      linarith

/-- pairs of type II calls are not close -/
theorem BuiltR.hit (b : BuiltR A D ndebug w x alpha T m S) (s : RoundableInput D w x) (hu : u ≤ 1 / 2 ^ 34) {t : Task} (ht : TaskOK T t)
    (h2 : t.two = true) {i j : Nat} (hh : Hit T t i j) : ¬ SurelyClose u lam w x (T.idx i) (T.idx j) := by
  obtain ⟨y, z, hy, hz, hiy, hiz, _⟩ := hh
  rw [Tree.idx_eq hy, Tree.idx_eq hz]
  obtain ⟨v, p, k, f1, f2, f3, f4, f5, f6, f7⟩ := b.node y (List.mem_of_getElem? hy)
  obtain ⟨v', q, k', g1, g2, g3, g4, g5, g6, g7⟩ := b.node z (List.mem_of_getElem? hz)
  have hv := List.mem_of_getElem? f1
  have hv' := List.mem_of_getElem? g1
  have ok := b.ok
  have hlev : t.level < T.levels := by
    have := ht.hl
    have := pbl_le_zero (D := D) (blc := T.blc) t.i t.j
    rw [ok.levels_eq]; omega
  have hdl := ok.depth_le hlev
  have hlA : t.level ≤ weightLayerTargetLevel D T.blc t.i := le_trans ht.hl (pbl_le_target_left _ _)
  have hlB : t.level ≤ weightLayerTargetLevel D T.blc t.j := le_trans ht.hl (pbl_le_target_right _ _)
  -- layer and box of a node
  have key : ∀ (y : Node F D) (p : Fin D → ℝ) (k i C : Nat), (∀ d, 0 ≤ p d ∧ p d < 1) → k < T.layers →
      y.cellId = layerOff D T.blc k + cellR D (weightLayerTargetLevel D T.blc k) p → i < T.layers →
      t.level ≤ weightLayerTargetLevel D T.blc i → OnLevel D t.level C → InLC T y i t.level C → k = i ∧ InBox D t.level C p := by
    intro y p k i C hpu hk hc hi hl hC hin
    have htk := ok.target_depth hk
    have hcell := cellR_lt s.D1 s.D5 (show D * weightLayerTargetLevel D T.blc k ≤ 32 by omega) p hpu
    have hin0 : InLC T y k 0 0 := by
      refine ⟨by omega, by rw [layerOff_succ]; omega, by omega, ?_⟩
      rw [levelStart_zero, hc, Nat.add_sub_cancel_left, Nat.sub_zero, Nat.div_eq_of_lt hcell]
    have e := hin.layer_eq hin0
    subst e
    refine ⟨rfl, ?_⟩
    have hlt : D * t.level ≤ 32 := le_trans (Nat.mul_le_mul_left _ hl) (by omega)
    have hC' : C = levelStart D t.level + (C - levelStart D t.level) := by have := hC.1; omega
    rw [hC', ← cellR_unique s.D1 s.D5 hlt p hpu hC.local_lt]
    have := hin.2.2.2
    rw [hc, Nat.add_sub_cancel_left, cellR_div s.D1 s.D5 (by omega) hl p hpu] at this
    omega
  obtain ⟨rfl, boxA⟩ := key y p k t.i t.cellA (s.unit p (List.mem_of_getElem? f2)) f5 f7 ht.hi hlA ht.hA hiy
  obtain ⟨rfl, boxB⟩ := key z q k' t.j t.cellB (s.unit q (List.mem_of_getElem? g2)) g5 g7 ht.hj hlB ht.hB hiz
  obtain ⟨r, h3, h4, _, h6⟩ := Props.C07_cell_distance D t.level t.cellA t.cellB s.D1 s.D5 hdl ht.hA ht.hB
  have htouch : Coord.touching D t.cellA t.cellB t.level = some false := by
    rw [Coord.touching_eq ok.D1 ok.D5 hdl ht.hA ht.hB]
    have := (ht.two h2).2
    unfold touchB at this
    rw [this]
  have hr := h6 htouch
  obtain ⟨d, hd1, hd2⟩ := h4 p q (inBox_closed boxA) (inBox_closed boxB)
  rw [coordDistance_eq, XR.fin.injEq] at hd1
  have htd : 1 / 2 ^ t.level ≤ torusDist p q := by rw [hd1]; exact le_trans hr hd2
  -- the level is not the root level
  have hl1 : 1 ≤ t.level := by
    by_contra hc
    have h0 : t.level = 0 := by omega
    have hA := ht.hA; have hB := ht.hB
    rw [h0] at hA hB
    have e1 : levelStart D 1 = 1 := by simp [levelStart]
    unfold OnLevel at hA hB
    rw [levelStart_zero] at hA hB
    simp only [Nat.zero_add, e1] at hA hB
    exact (ht.two h2).1 (by omega)
  have hpbl : 0 < partitioningBaseLevel D T.blc t.i t.j := by have := ht.hl; omega
  have h1 := Props.pbl_mul_le hpbl
  have hDl : 0 < D * partitioningBaseLevel D T.blc t.i t.j := Nat.mul_pos s.D1 hpbl
  have hblc : 0 < T.blc := by omega
  have hlow := b.blc_low hblc
  obtain ⟨N, hN⟩ : ∃ N : Nat, T.blc = N := ⟨T.blc.toNat, by omega⟩
  rw [hN, zpow_natCast] at hlow
  have hDl2 : D * t.level ≤ D * partitioningBaseLevel D T.blc t.i t.j := Nat.mul_le_mul_left _ ht.hl
  have hN2 : D * t.level + (t.i + 1) + (t.j + 1) ≤ N := by omega
  have hvol : 1 / (2 : ℝ) ^ (D * t.level) ≤ torusDist p q ^ D := by
    have e : 1 / (2 : ℝ) ^ (D * t.level) = (1 / 2 ^ t.level) ^ D := by
      rw [div_pow, one_pow, ← pow_mul, Nat.mul_comm]
    rw [e]
    exact pow_le_pow_left₀ (by positivity) htd D
  have hm := s.wpos m b.mem
  have hv0 := s.wpos v hv
  have hv0' := s.wpos v' hv'
  have hW0 : 0 < w.sum := lt_of_lt_of_le hv0 (sum_ge_mem s.wpos hv)
  have hc0 := A.c_pos hu
  have hcn := A.c_pow_pos hu (w.length + 2)
  have hu0 := A.u_nonneg
  set L := (2 : ℝ) ^ lam with hL
  have hL0 : 0 < L := by positivity
  have hL3 : (2 : ℝ) ^ (-(3 * lam)) * L ^ 3 = 1 := by
    rw [hL, ← Real.rpow_natCast, ← Real.rpow_mul (by norm_num), ← Real.rpow_add (by norm_num)]
    rw [show -(3 * lam) + lam * ((3 : ℕ) : ℝ) = 0 by push_cast; ring, Real.rpow_zero]
  have hcD1 := A.c_pow_le hu D
  -- the product of the weights
  have hab : (1 - u) * v * ((1 - u) * v') ≤ 2 ^ (t.i + 1) * L * m * (2 ^ (t.j + 1) * L * m) :=
    mul_le_mul f6.le g6.le (by positivity) (by positivity)
  have hpow : (2 : ℝ) ^ (t.i + 1) * 2 ^ (t.j + 1) * 2 ^ (D * t.level) ≤ 2 ^ N := by
    rw [← pow_add, ← pow_add]
    exact pow_le_pow_right₀ (by norm_num) (by omega)
  have hP : (0 : ℝ) < 2 ^ (D * t.level) := by positivity
  have hmain : (1 - u) ^ (w.length + 4) * (v * v') * 2 ^ (D * t.level) ≤ w.sum * L ^ 3 := by
    have a1 := mul_le_mul_of_nonneg_left hab (show 0 ≤ (1 - u) ^ (w.length + 2) * 2 ^ (D * t.level) by positivity)
    have a2 := mul_le_mul_of_nonneg_left hpow (show 0 ≤ (1 - u) ^ (w.length + 2) * (L ^ 2 * m ^ 2) by positivity)
    have a3 := mul_le_mul_of_nonneg_left hlow (show 0 ≤ L ^ 2 by positivity)
    rw [show w.length + 4 = (w.length + 2) + 2 by omega, pow_add]
    generalize (2 : ℝ) ^ (t.i + 1) = P1 at *
    generalize (2 : ℝ) ^ (t.j + 1) = P2 at *
    generalize (2 : ℝ) ^ (D * t.level) = P3 at *
    generalize (2 : ℝ) ^ N = P4 at *
    generalize (1 - u) ^ (w.length + 2) = C at *
    clear_value L
    linarith
  rintro ⟨a, a', p', q', h1, h2, h3, h4, h5⟩
  rw [f1, Option.some.injEq] at h1
  rw [g1, Option.some.injEq] at h2
  rw [f2, Option.some.injEq] at h3
  rw [g2, Option.some.injEq] at h4
  subst h1 h2 h3 h4
  have htd0 : 0 ≤ torusDist p q := le_trans (by positivity) htd
  have h7 : torusDist p q ^ D ≤ (torusDist p q + 2 * u) ^ D := pow_le_pow_left₀ htd0 (by linarith) D
  have h8 : margin u lam w.length D * (v * v' / w.sum) ≤ 1 / 2 ^ (D * t.level) := by
    rw [← mul_div_assoc, div_le_div_iff₀ hW0 hP, one_mul]
    unfold margin
    rw [show w.length + D + 4 = (w.length + 4) + D by omega, pow_add]
    have a1 := mul_le_mul_of_nonneg_left hmain (show 0 ≤ (1 - u) ^ D * (2 : ℝ) ^ (-(3 * lam)) by positivity)
    have a2 : (1 - u) ^ D * w.sum ≤ w.sum := mul_le_of_le_one_left hW0.le hcD1
    have e : (1 - u) ^ D * (2 : ℝ) ^ (-(3 * lam)) * (w.sum * L ^ 3) = (1 - u) ^ D * w.sum * ((2 : ℝ) ^ (-(3 * lam)) * L ^ 3) := by ring
    rw [e, hL3, mul_one] at a1
    linarith
  linarith

end Girgs
