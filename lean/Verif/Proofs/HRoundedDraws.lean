import Verif.Proofs.HRoundedBuild
import Verif.Proofs.HSmallDisk
/-!
The distance filters and the start level of the hyperbolic sampler in floating point arithmetic.
-/
namespace Girgs
open Spec CFloat HBuild

variable {F : Type} [CFloat F] {u lam eps p : ℝ} {A : Rounded F u lam} {Rf : F} {R : ℝ}

theorem stages_length (mp Rf Tf : F) : (DistFilter.make mp Rf Tf).stages.length = 101 := by
  unfold DistFilter.make; simp

theorem tiny1000 {k : ℕ} (hk : k ≤ 1000) {x : ℝ} (h : 1 / 2 ^ k ≤ x) : (2 : ℝ) ^ (-1000 : ℤ) ≤ x := by
  refine le_trans ?_ h
  rw [zpow_neg, ← one_div]
  apply one_div_le_one_div_of_le (by positivity)
  rw [show (1000 : ℤ) = ((1000 : ℕ) : ℤ) from rfl, zpow_natCast]
  exact pow_le_pow_right₀ (by norm_num) hk

/-- a look-up in a table with a random number below `max_prob` -/
theorem lookup_R (E : RoundedElem A eps p) (hu : u ≤ 1 / 2 ^ 52) {mp x Tf : F} {y t : ℝ} (hmp : A.val mp = some y) (hx : A.val x = some t)
    (h0 : 1 / 2 ^ 950 ≤ y) (h1 : y ≤ 1) (ht0 : 0 ≤ t) (ht1 : t < y) : LookupOK (DistFilter.make mp Rf Tf) x := by
  have hu0 := A.u_nonneg
  have hy : 0 < y := lt_of_lt_of_le (by positivity) h0
  have v100 : A.val (ofRat 100 : F) = some 100 := by
    have := A.val_ofRat_int (F := F) 100 (by norm_num)
    simpa using this
  have hq : 100 / y ≤ 2 ^ 960 := by
    rw [div_le_iff₀ hy]
    have e : (2 : ℝ) ^ 960 = 1024 * 2 ^ 950 := by rw [show (960 : ℕ) = 10 + 950 from rfl, pow_add]; norm_num
    have h3 : (1024 : ℝ) ≤ 2 ^ 960 * y := by
      rw [e, mul_assoc]
      have : (1 : ℝ) ≤ 2 ^ 950 * y := by
        rw [div_le_iff₀ (by positivity)] at h0; linarith
      linarith
    exact le_trans (by norm_num) h3
  have hq0 : 0 < 100 / y := by positivity
  have hq1 : 100 ≤ 100 / y := by rw [le_div_iff₀ hy]; linarith
  have vw := A.div _ _ _ _ v100 hmp hy.ne' (by rw [abs_of_pos hq0]; exact two_pow_1023 (k := 960) (by norm_num) hq)
  have hw0 := A.rnd_nonneg hq0.le
  have hw1 : A.rnd (100 / y) ≤ 100 / y * (1 + u) := by
    have := A.rel (100 / y) (tiny_le (k := 0) (by norm_num) (by rw [abs_of_pos hq0]; norm_num; linarith))
    rw [abs_of_pos hq0] at this
    have := (abs_le.1 this).2
    linarith
  have ht2 := E.gap t y (A.rep _ _ hx) (A.rep _ _ hmp) (tiny1000 (k := 950) (by norm_num) h0) ht1
  have hprod : A.rnd (100 / y) * t ≤ 100 := by
    have h3 := mul_le_mul hw1 ht2 ht0 (by positivity)
    have e : 100 / y * (1 + u) * ((1 - u) * y) = 100 * (1 - u ^ 2) := by field_simp; ring
    rw [e] at h3
    nlinarith
  have hprod0 : 0 ≤ A.rnd (100 / y) * t := mul_nonneg hw0 ht0
  have vz := A.mul _ _ _ _ vw hx (by rw [abs_of_nonneg hprod0]; exact two_pow_1023 (k := 7) (by norm_num) (by norm_num; linarith))
  have hz0 := A.rnd_nonneg hprod0
  have hz1 : A.rnd (A.rnd (100 / y) * t) ≤ 100 := by
    have h3 := A.mono hprod
    have := A.int 100 (by norm_num)
    push_cast at this
    rwa [this] at h3
  generalize A.rnd (A.rnd (100 / y) * t) = z at *
  have hvz : A.val ((DistFilter.make mp Rf Tf).stageWidth *. x) = some z := vz
  have hlen := stages_length mp Rf Tf
  have get : ∀ i : ℕ, i ≤ 100 → ∃ s, (DistFilter.make mp Rf Tf).stages[i]? = some s := fun i hi =>
    ⟨_, List.getElem?_eq_getElem (by omega)⟩
  have hf0 : 0 ≤ ⌊z⌋ := Int.floor_nonneg.2 hz0
  have hf1 : ⌊z⌋ ≤ 100 := by
    have := Int.floor_le_floor hz1
    simpa using this
  have hc0 : 0 ≤ ⌈z⌉ := Int.ceil_nonneg hz0
  have hc1 : ⌈z⌉ ≤ 100 := Int.ceil_le.2 (by exact_mod_cast hz1)
  obtain ⟨s1, e1⟩ := get ⌊z⌋.toNat (by omega)
  obtain ⟨s2, e2⟩ := get ⌈z⌉.toNat (by omega)
  refine ⟨s1, s2, ?_, ?_⟩
  · unfold DistFilter.upper
    refine (obind (A.toI32_nonneg hvz hz0 (by linarith)) _).trans ?_
    rw [if_neg (by omega)]
    exact e1
  · unfold DistFilter.lower
    have vc := A.ceil _ _ hvz (by rw [abs_of_nonneg hz0]; norm_num; linarith)
    refine (obind (A.toI32_nonneg vc (by exact_mod_cast hc0) (by
      have : (⌈z⌉ : ℝ) ≤ 100 := by exact_mod_cast hc1
      linarith)) _).trans ?_
    rw [Int.floor_intCast, if_neg (by omega)]
    exact e2

namespace RDisk
variable (D : RDisk A eps p Rf R)
include D

/-- connection probabilities -/
theorem prob_val {Tf d : F} {T x : ℝ} (vT : A.val Tf = some T) (hT : 1 / 16 ≤ T) (vd : A.val d = some x) (hx0 : -1 ≤ x) (hx1 : x ≤ 80) :
    ∃ y, A.val (ofRat 1 /. HTree.probRec Rf Tf d) = some y ∧ 1 / 2 ^ 950 ≤ y ∧ y ≤ 1 := by
  have hu := D.hu
  have hu0 := A.u_nonneg
  have he := D.he
  have he0 := D.elem.eps_nonneg
  have hR := D.le34
  have hRp := D.pos
  have ht := tau_small
  have vh : A.val (ofRat (1 / 2) : F) = some (1 / 2) := by
    have h := A.ofRat (1 / 2) (by push_cast; exact two_pow_1023 (k := 0) (by norm_num) (by norm_num))
    have e := A.pow2 (-1) (by norm_num) (by norm_num)
    rw [h]; push_cast
    rw [zpow_neg_one] at e
    rw [one_div]; rw [e]
  have hT0 : 0 < T := by linarith
  have hq : |1 / 2 / T| ≤ 8 := by
    rw [abs_of_pos (by positivity), div_le_iff₀ hT0]; linarith
  have v1 := A.div _ _ _ _ vh vT hT0.ne' (two_pow_1023 (k := 3) (by norm_num) (by norm_num at hq ⊢; linarith))
  have hr : ∀ z : ℝ, ∀ B : ℝ, |z| ≤ B → |A.rnd z| ≤ B * (1 + 1 / 2 ^ 52) + 1 / 2 ^ 60 := by
    intro z B hz
    have h3 := A.err_all z
    have h4 := abs_add_le z (A.rnd z - z)
    rw [add_sub_cancel] at h4
    have h5 : u * |z| ≤ 1 / 2 ^ 52 * B := mul_le_mul hu hz (abs_nonneg _) (by norm_num)
    have : tau ≤ 1 / 2 ^ 60 := ht
    linarith
  have hq1 := hr _ _ hq
  have hd : |x - R| ≤ 80 := by rw [abs_le]; constructor <;> linarith
  have v2 := A.sub _ _ _ _ vd D.val (two_pow_1023 (k := 7) (by norm_num) (by norm_num; linarith))
  have hd1 := hr _ _ hd
  have hm : |A.rnd (1 / 2 / T) * A.rnd (x - R)| ≤ 641 := by
    rw [abs_mul]
    refine (mul_le_mul hq1 hd1 (abs_nonneg _) (by norm_num)).trans (by norm_num)
  have v3 := A.mul _ _ _ _ v1 v2 (two_pow_1023 (k := 10) (by norm_num) (hm.trans (by norm_num)))
  have hm1 := hr _ _ hm
  generalize A.rnd (A.rnd (1 / 2 / T) * A.rnd (x - R)) = z at *
  have hz : |z| ≤ 642 := hm1.trans (by norm_num)
  obtain ⟨E, vE, hE⟩ := D.elem.exp _ _ v3 (by linarith)
  have hez := Real.exp_pos z
  have hE0 : 0 ≤ E := by
    have h3 := (abs_le.1 hE).1
    have : eps * Real.exp z ≤ 1 * Real.exp z := mul_le_mul_of_nonneg_right (he.trans (by norm_num)) hez.le
    linarith
  have hexp : Real.exp z ≤ 2 ^ 930 := by
    refine (Real.exp_le_exp.2 ((le_abs_self z).trans hz)).trans ?_
    rw [← Real.le_log_iff_exp_le (by positivity), Real.log_pow]
    have := Real.log_two_gt_d9
    push_cast
    linarith
  have hE1 : E ≤ 2 * Real.exp z := by
    have h3 := (abs_le.1 hE).2
    have : eps * Real.exp z ≤ 1 * Real.exp z := mul_le_mul_of_nonneg_right (he.trans (by norm_num)) hez.le
    linarith
  have hsum : 1 + E ≤ 2 ^ 940 := by
    have e : (2 : ℝ) ^ 940 = 1024 * 2 ^ 930 := by rw [show (940 : ℕ) = 10 + 930 from rfl, pow_add]; norm_num
    have h1 : (1 : ℝ) ≤ 2 ^ 930 := one_le_pow₀ (by norm_num)
    rw [e]
    have h2 := hE1.trans (mul_le_mul_of_nonneg_left hexp (by norm_num))
    clear hexp
    generalize (2 : ℝ) ^ 930 = w at h1 h2 ⊢
    linarith
  have v4 := A.add _ _ _ _ A.val_one vE (by
    rw [abs_of_nonneg (by linarith)]; exact two_pow_1023 (k := 940) (by norm_num) hsum)
  have hs1 : 1 ≤ A.rnd (1 + E) := by
    have h3 := A.mono (show 1 ≤ 1 + E by linarith)
    have := A.int 1 (by norm_num)
    push_cast at this
    rwa [this] at h3
  have hs2 : A.rnd (1 + E) ≤ 2 ^ 940 := by
    have := A.rnd_le_pow (x := 1 + E) (k := 940) (by norm_num) (by norm_num) (by
      rw [show (940 : ℤ) = ((940 : ℕ) : ℤ) from rfl, zpow_natCast]; exact hsum)
    rwa [show (940 : ℤ) = ((940 : ℕ) : ℤ) from rfl, zpow_natCast] at this
  generalize A.rnd (1 + E) = w at *
  have hw0 : 0 < w := by linarith
  have hi1 : 1 / w ≤ 1 := by rw [div_le_one hw0]; exact hs1
  have hi0 : 1 / 2 ^ 940 ≤ 1 / w := one_div_le_one_div_of_le hw0 hs2
  have v5 := A.div _ _ _ _ A.val_one v4 hw0.ne' (by
    rw [abs_of_pos (by positivity)]; exact two_pow_1023 (k := 0) (by norm_num) (by rw [pow_zero]; exact hi1))
  refine ⟨_, v5, ?_, A.rnd_le_one hi1⟩
  have h3 := A.mono hi0
  have h4 := A.pow2 (-940) (by norm_num) (by norm_num)
  rw [zpow_neg, show (940 : ℤ) = ((940 : ℕ) : ℤ) from rfl, zpow_natCast, ← one_div] at h4
  rw [h4] at h3
  refine le_trans ?_ h3
  apply one_div_le_one_div_of_le (by positivity); exact pow_le_pow_right₀ (by norm_num) (by norm_num)

/-- the probabilities of the type II filters -/
theorem filter_val {Tf : F} {T : ℝ} (vT : A.val Tf = some T) (hT : 1 / 16 ≤ T) {i j l : ℕ} (hi : i < ⌈R⌉.toNat) (hj : j < ⌈R⌉.toNat)
    (hl : l ≤ 31) {q : DistFilter F × DistFilter F} (hq : filterPair Rf Tf (radMin Rf i) (radMin Rf j) l = some q) :
    ∃ m1 m2 y1 y2, q = (DistFilter.make m1 Rf Tf, DistFilter.make m2 Rf Tf) ∧ A.val m1 = some y1 ∧ A.val m2 = some y2 ∧
      (1 / 2 ^ 950 ≤ y1 ∧ y1 ≤ 1) ∧ (1 / 2 ^ 950 ≤ y2 ∧ y2 ≤ 1) := by
  obtain ⟨p3, p4⟩ := D.p_pos
  have key : ∀ {d : ℕ} {af : F}, 2 ^ l - 1 + d < 2 ^ 32 → d ≤ 3 → Angle.dist (F := F) (2 ^ l - 1) (2 ^ l - 1 + d) l = some af →
      ∃ y, A.val (ofRat 1 /. HTree.probRec Rf Tf (hyperbolicDistance (radMin Rf i) (ofRat 0) (radMin Rf j) af)) = some y ∧
        1 / 2 ^ 950 ≤ y ∧ y ≤ 1 := by
    intro d af hd hd3 haf
    unfold Angle.dist at haf
    simp only [Option.bind_eq_bind, Option.bind_eq_some_iff] at haf
    obtain ⟨b, hb, w, hw, haf⟩ := haf
    have hb3 : b ≤ 3 := by
      unfold Angle.cellsBetween at hb
      simp only [Option.bind_eq_bind, Option.bind_eq_some_iff, Option.some.injEq] at hb
      obtain ⟨c, _, hb⟩ := hb
      have : Angle.diff (2 ^ l - 1) (2 ^ l - 1 + d) = d := by
        unfold Angle.diff
        rw [max_eq_right (by omega), min_eq_left (by omega)]
        unfold subU; omega
      rw [this] at hb
      split at hb <;> omega
    have hwv : w = 2 ^ l ∧ l ≤ 30 := by
      unfold shl1 at hw
      split at hw
      · simp only [Option.some.injEq] at hw; exact ⟨hw.symm, by omega⟩
      · cases hw
    obtain ⟨rfl, hl30⟩ := hwv
    rw [Option.some.injEq] at haf
    subst haf
    have v2 : A.val (ofRat 2 : F) = some 2 := by
      have := A.val_ofRat_int (F := F) 2 (by norm_num)
      simpa using this
    have vb := A.val_ofNat (F := F) b (by omega)
    have hb3' : (b : ℝ) ≤ 3 := by exact_mod_cast hb3
    have hb0 : (0 : ℝ) ≤ b := Nat.cast_nonneg _
    have w1 := A.mul _ _ _ _ vb v2 (by rw [abs_of_nonneg (by positivity)]; exact two_pow_1023 (k := 3) (by norm_num) (by norm_num; linarith))
    have e1 := A.int ((b : ℤ) * 2) (by rw [abs_of_nonneg (by positivity)]; norm_num; omega)
    push_cast at e1
    rw [e1] at w1
    have hm0 : 0 ≤ (b : ℝ) * 2 * p := by positivity
    have hm1 : (b : ℝ) * 2 * p ≤ 24 := by nlinarith
    have w2 := A.mul _ _ _ _ w1 D.elem.pi (by rw [abs_of_nonneg hm0]; exact two_pow_1023 (k := 5) (by norm_num) (by norm_num; linarith))
    have hn0 := A.rnd_nonneg hm0
    have hn1 : A.rnd ((b : ℝ) * 2 * p) ≤ 32 := by
      have := A.rnd_le_pow (x := (b : ℝ) * 2 * p) (k := 5) (by norm_num) (by norm_num) (by norm_num; linarith)
      norm_num at this; exact this
    generalize A.rnd ((b : ℝ) * 2 * p) = m at *
    have hpow : (1 : ℝ) ≤ 2 ^ l := one_le_pow₀ (by norm_num)
    have h30 : (2 : ℤ) ^ l ≤ 2 ^ 30 := pow_le_pow_right₀ (by norm_num) hl30
    have vw := A.val_ofInt (F := F) ((2 : ℤ) ^ l) (by rw [abs_of_nonneg (by positivity)]; exact h30.trans (by norm_num))
    push_cast at vw
    have hd0 : 0 ≤ m / 2 ^ l := by positivity
    have hd1 : m / 2 ^ l ≤ 32 := (div_le_self hn0 hpow).trans hn1
    have w3 := A.div _ _ _ _ w2 vw (by positivity) (by rw [abs_of_nonneg hd0]; exact two_pow_1023 (k := 5) (by norm_num) (by norm_num; linarith))
    have hf0 := A.rnd_nonneg hd0
    have hf1 : A.rnd (m / 2 ^ l) ≤ 32 := by
      have := A.rnd_le_pow (x := m / 2 ^ l) (k := 5) (by norm_num) (by norm_num) (by norm_num; linarith)
      norm_num at this; exact this
    obtain ⟨v, m', d', _, _, h3, h4, _, h6⟩ := hypDist_val D.elem D.hu D.he (D.radMin_val hi) (D.radMin_val hj) w3 (D.abs_rho hi).2
      (D.abs_rho hj).2 (D.rep_sub hi hj) (by rw [abs_of_nonneg hf0]; linarith)
    have ha1 : 1 ≤ max 1 m' := le_max_left _ _
    have ha0 := Real.arcosh_nonneg ha1
    have ha : Real.arcosh (max 1 m') ≤ 74 := by
      by_contra hc
      rw [not_le] at hc
      have h8 := Real.cosh_lt_cosh.2 (show |(74 : ℝ)| < |Real.arcosh (max 1 m')| by
        rw [abs_of_nonneg ha0, abs_of_pos (by norm_num)]; exact hc)
      rw [Real.cosh_arcosh ha1] at h8
      have h9 : (2 : ℝ) ^ 106 ≤ Real.exp 74 := by
        rw [← Real.log_le_iff_le_exp (by positivity), Real.log_pow]
        have := Real.log_two_lt_d9
        push_cast
        linarith
      have h10 := Real.cosh_eq 74
      have h11 := Real.exp_pos (-74)
      have h12 := lt_of_lt_of_le h8 h6
      norm_num at h9 h12
      linarith
    have he := D.he
    have he0 := D.elem.eps_nonneg
    have ht := tau_small
    have h7 : eps * Real.arcosh (max 1 m') ≤ 1 * 1 := by
      refine (mul_le_mul he ha ha0 (by norm_num)).trans (by norm_num)
    obtain ⟨h8, h9⟩ := abs_le.1 h4
    have h10 : eps * Real.arcosh (max 1 m') ≤ 1 * Real.arcosh (max 1 m') := mul_le_mul_of_nonneg_right (he.trans (by norm_num)) ha0
    norm_num at ht
    exact D.prob_val vT hT h3 (by linarith) (by linarith)
  have hp1 : 1 ≤ 2 ^ l := Nat.one_le_two_pow
  have hp2 : 2 ^ l ≤ 2 ^ 31 := Nat.pow_le_pow_right (by norm_num) hl
  unfold filterPair at hq
  rw [Angle.firstCellOfLevel_eq hl] at hq
  simp only [Option.bind_eq_bind, Option.bind_some, u32_eq (show 2 ^ l - 1 + 2 < 2 ^ 32 by omega), u32_eq (show 2 ^ l - 1 + 3 < 2 ^ 32 by omega),
    Option.bind_eq_some_iff, Option.some.injEq] at hq
  obtain ⟨a1, h1, a2, h2, rfl⟩ := hq
  obtain ⟨y1, k1, k2⟩ := key (by omega) (by norm_num) h1
  obtain ⟨y2, k3, k4⟩ := key (by omega) (by norm_num) h2
  exact ⟨_, _, y1, y2, rfl, k1, k3, k2, k4⟩

end RDisk

theorem hstartOK_R (A : Rounded F u lam) (env : HEnv) : ∃ fpl, HStartOK F env fpl := by
  by_cases h : env.threads = 1
  · exact ⟨2, fun h' => absurd h h', le_rfl, by norm_num⟩
  have h1 := env.threads_pos
  have h2 := env.threads_le
  have ht1 : (2 : ℝ) ≤ env.threads := by exact_mod_cast (by omega : 2 ≤ env.threads)
  have ht2 : (env.threads : ℝ) ≤ 33554432 := by exact_mod_cast h2
  have vt := A.val_ofNat (F := F) (2 * env.threads) (by omega)
  push_cast at vt
  have v4 : A.val (ofInt ((2 : ℤ) ^ 2) : F) = some ((2 : ℝ) ^ (2 : ℤ)) := by
    rw [A.val_ofInt _ (by norm_num)]; norm_num
  have v26 : A.val (ofInt ((2 : ℤ) ^ 26) : F) = some ((2 : ℝ) ^ (26 : ℤ)) := by
    rw [A.val_ofInt _ (by norm_num)]; norm_num
  obtain ⟨l, vl, _⟩ := A.log2 _ _ vt (tiny_le (k := 0) (by norm_num) (by norm_num; linarith))
  have hl2 : 2 ≤ l := by
    have := A.log2_mono _ _ _ _ _ _ v4 vt (by norm_num) (by norm_num; linarith) (A.log2_pow _ 2 v4) vl
    exact_mod_cast this
  have hl26 : l ≤ 26 := by
    have := A.log2_mono _ _ _ _ _ _ vt v26 (by linarith) (by norm_num; linarith) vl (A.log2_pow _ 26 v26)
    exact_mod_cast this
  have vc := A.ceil _ _ vl (by rw [abs_of_pos (by linarith)]; norm_num; linarith)
  have hc2 : 2 ≤ ⌈l⌉ := by
    have := Int.le_ceil l
    have : (2 : ℝ) ≤ (⌈l⌉ : ℝ) := by linarith
    exact_mod_cast this
  have hc26 : ⌈l⌉ ≤ 26 := Int.ceil_le.2 (by exact_mod_cast hl26)
  refine ⟨⌈l⌉.toNat, fun _ => ?_, by omega, by omega⟩
  unfold HTree.firstParallelLevel
  rw [A.toI32_nonneg vc (by exact_mod_cast (by omega : (0 : ℤ) ≤ ⌈l⌉)) (by
    have : (⌈l⌉ : ℝ) ≤ 26 := by exact_mod_cast hc26
    linarith), Int.floor_intCast]
  simp only
  rw [if_pos (by omega)]

variable {radii angles : List F} {Tf : F} {r a : List ℝ} {T : ℝ} {ndebug : Bool} {H : HTree F}

theorem Spec.RInput.draws (I : RInput A eps p radii angles Tf Rf r a T R)
    (b : HBuilt ndebug radii angles Tf Rf ⌈R⌉.toNat (rtgt Rf) (rpair Rf ⌈R⌉.toNat) H) {rng : Tree.Rng F} (hr : RoundedRng A rng) : HDraws H rng := by
  constructor
  · intro _ g
    obtain ⟨x, e, h0, h1⟩ := hr.uniform g
    rw [b.filterI_eq]
    exact lookup_R I.elem I.hu A.val_one e (by
      rw [div_le_one (by positivity)]; exact one_le_pow₀ (by norm_num)) le_rfl h0 h1
  · intro hz i j row hi hj hrow q hq g
    have hT : 1 / 16 ≤ T := by
      rcases I.hyp.temp with h | h
      · exfalso
        unfold HTree.tZero at hz
        rw [b.T_eq] at hz
        have := (I.elem.eq _ _ _ _ I.vT A.val_zero).2 h
        rw [this] at hz
        cases hz
      · exact h.1
    obtain ⟨row', h3, h4⟩ := b.fo.rows hz i j hi hj
    rw [hrow, Option.some.injEq] at h3
    subst h3
    obtain ⟨k, hk, e⟩ := List.getElem_of_mem hq
    obtain ⟨row', q', h5, h6, h7⟩ := b.filt hz i j (k + 2) hi hj (by omega) (by omega)
    rw [hrow, Option.some.injEq] at h5
    subst h5
    rw [Nat.add_sub_cancel, List.getElem?_eq_getElem hk, e, Option.some.injEq] at h6
    subst h6
    have hl := b.layers_le
    have hk31 : k + 2 ≤ 31 := by
      have h8 := (I.disk.rpbl_eq (i := i) (j := j) (by omega) (by omega)).2
      unfold rpair at h4
      rw [if_pos ⟨by omega, by omega⟩] at h4
      omega
    obtain ⟨m1, m2, y1, y2, rfl, e1, e2, ⟨a1, a2⟩, ⟨a3, a4⟩⟩ := I.disk.filter_val I.vT hT (i := i) (j := j) (by omega) (by omega) hk31 h7
    have key : ∀ (m : F) (y : ℝ), A.val m = some y → 1 / 2 ^ 950 ≤ y → y ≤ 1 →
        LookupOK (DistFilter.make m Rf Tf) (rng.uniformTo (DistFilter.make m Rf Tf).maxProb g).1 := by
      intro m y hm h0 h1
      obtain ⟨x, e, h2, h3⟩ := hr.uniformTo m y g hm (lt_of_lt_of_le (by positivity) h0)
      exact lookup_R I.elem I.hu hm e h0 h1 h2 h3
    exact ⟨key _ _ e1 a1 a2, key _ _ e2 a3 a4⟩

end Girgs
