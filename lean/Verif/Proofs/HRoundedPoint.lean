import Verif.Proofs.HRoundedBuild
import Verif.Proofs.HCells
/-!
Where a point of the hyperbolic sampler is, in floating point arithmetic.
-/
namespace Girgs
open Spec CFloat HBuild Angle

variable {F : Type} [CFloat F] {u lam eps p : ℝ} {A : Rounded F u lam} {Rf : F} {R : ℝ}

/-- the cell of level `l` above the cell of level `t` that contains the fraction `y` of the circle -/
theorem inArc_of_floor {y : ℝ} {t l c B : ℕ} (hy : 0 ≤ y) (hc : ⌊y * 2 ^ t⌋.toNat = c) (hl : l ≤ t) (hB : B + 1 = 2 ^ l + c / 2 ^ (t - l)) :
    InArc l B (y * (2 * Real.pi)) := by
  have hz0 : 0 ≤ y * 2 ^ t := by positivity
  have hcz : (c : ℝ) = (⌊y * 2 ^ t⌋ : ℝ) := by
    rw [← hc]
    exact (Int.cast_natCast _).symm.trans (congrArg _ (Int.toNat_of_nonneg (Int.floor_nonneg.2 hz0)))
  have hz1 := Int.floor_le (y * 2 ^ t)
  have hz2 := Int.lt_floor_add_one (y * 2 ^ t)
  rw [← hcz] at hz1 hz2
  set D := 2 ^ (t - l) with hD
  have hDp : 0 < D := by rw [hD]; positivity
  have hq1 : c / D * D ≤ c := Nat.div_mul_le_self c D
  have hq2 : c < (c / D + 1) * D := by
    have := Nat.lt_mul_div_succ c hDp
    rw [Nat.mul_comm]; exact this
  generalize c / D = q at *
  have hAq : (B : ℝ) + 1 = 2 ^ l + q := by exact_mod_cast hB
  have hp : (2 : ℝ) ^ t = 2 ^ l * D := by
    rw [hD]; push_cast; rw [← pow_add]; congr 1; omega
  have hDr : (0 : ℝ) < D := by exact_mod_cast hDp
  rw [hp] at hz1 hz2
  have g1 : (q : ℝ) * D ≤ c := by exact_mod_cast hq1
  have g2 : (c : ℝ) + 1 ≤ (q + 1) * D := by
    have : c + 1 ≤ (q + 1) * D := hq2
    exact_mod_cast this
  have k1 : (q : ℝ) ≤ y * 2 ^ l := by
    have : (q : ℝ) * D ≤ y * 2 ^ l * D := by nlinarith
    exact le_of_mul_le_mul_right this hDr
  have k2 : y * 2 ^ l < q + 1 := by
    have : y * 2 ^ l * D < (q + 1) * D := by nlinarith
    exact lt_of_mul_lt_mul_right this hDr.le
  have hpi := Real.pi_pos
  have hw : (0 : ℝ) < 2 * Real.pi / 2 ^ l := by positivity
  have ea : y * (2 * Real.pi) = y * 2 ^ l * (2 * Real.pi / 2 ^ l) := by field_simp
  unfold InArc
  rw [show (B : ℝ) + 1 - 2 ^ l = q by linarith, show (B : ℝ) + 2 - 2 ^ l = q + 1 by linarith, ea]
  exact ⟨mul_le_mul_of_nonneg_right k1 hw.le, mul_lt_mul_of_pos_right k2 hw⟩

namespace RDisk
variable (D : RDisk A eps p Rf R)
include D

/-- the fraction of the circle computed for an angle -/
theorem cell_arc {af : F} {a : ℝ} (va : A.val af = some a) (h0 : 0 ≤ a) (h1 : a < 2 * p) {t c : ℕ} (ht : t ≤ 31)
    (hc : Angle.cellForPoint af t = some c) : ∃ y, 0 ≤ y ∧ ⌊y * 2 ^ t⌋.toNat = c ∧ |y * (2 * Real.pi) - a| ≤ 1 / 2 ^ 47 := by
  obtain ⟨p3, p4⟩ := D.p_pos
  have hu := D.hu
  have hu0 := A.u_nonneg
  have ht0 := tau_pos
  have hts := tau_small
  have v2 : A.val (ofRat 2 : F) = some 2 := by
    have := A.val_ofRat_int (F := F) 2 (by norm_num)
    simpa using this
  have w1 := A.div _ _ _ _ va v2 (by norm_num) (two_pow_1023 (k := 4) (by norm_num) (by rw [abs_of_nonneg (by linarith)]; norm_num; linarith))
  have hx0 := A.rnd_nonneg (show 0 ≤ a / 2 by linarith)
  have hx1 : A.rnd (a / 2) < p := by
    rcases le_or_gt a 2 with h | h
    · have := A.rnd_le_one (x := a / 2) (by linarith)
      linarith
    · rw [D.elem.half a (A.rep _ _ va) (by
        rw [abs_of_pos (by linarith)]
        have := zpow_le_one_of_nonpos₀ (show (1 : ℝ) ≤ 2 by norm_num) (show (-1000 : ℤ) ≤ 0 by norm_num)
        linarith)]
      linarith
  have hz1 : A.rnd (a / 2) / p ≤ 1 := by rw [div_le_one (by linarith)]; exact hx1.le
  have hz0 : 0 ≤ A.rnd (a / 2) / p := by positivity
  have w2 := A.div _ _ _ _ w1 D.elem.pi (by linarith) (two_pow_1023 (k := 4) (by norm_num) (by
    rw [abs_of_nonneg hz0]
    norm_num; linarith))
  have hy0 := A.rnd_nonneg hz0
  have hy1 : A.rnd (A.rnd (a / 2) / p) ≤ 1 := A.rnd_le_one hz1
  have e1 := A.err_all (a / 2)
  have e2 := A.unit (A.rnd (a / 2) / p) (by rw [abs_of_nonneg hz0]; exact hz1)
  rw [abs_of_nonneg (by linarith : 0 ≤ a / 2)] at e1
  have hn : 2 ^ t ≤ 2 ^ 31 := Nat.pow_le_pow_right (by norm_num) ht
  have v3 := A.val_ofNat (F := F) (2 ^ t) (hn.trans (by norm_num))
  push_cast at v3
  have hle : (2 : ℝ) ^ t ≤ 2 ^ 31 := pow_le_pow_right₀ (by norm_num) ht
  have hw : (0 : ℝ) < 2 ^ t := by positivity
  generalize hx : A.rnd (a / 2) = x at *
  generalize A.rnd (x / p) = y at *
  have hlt : y * 2 ^ t ≤ 2 ^ t := by nlinarith
  have w3 := A.mul _ _ _ _ w2 v3 (two_pow_1023 (k := 31) (by norm_num) (by
    rw [abs_of_nonneg (by positivity)]; linarith))
  rw [A.scale y (A.rep _ _ w2)] at w3
  refine ⟨y, hy0, ?_, ?_⟩
  · have h := hc
    unfold Angle.cellForPoint at h
    have h' := (obind (Angle.numCellsInLevel_eq ht) (fun n => toU32 (af /. ofRat 2 /. CFloat.pi *. CFloat.ofNat n))).symm.trans h
    rw [A.toU32_nonneg w3 (by positivity) (by norm_num at hle ⊢; linarith)] at h'
    exact Option.some.inj h'
  · have hpi3 := Real.pi_gt_three
    have hpi4 := Real.pi_lt_d2
    have hpe := D.elem.pi_err
    have f1 : |y * (2 * Real.pi) - x / p * (2 * Real.pi)| ≤ u * 6.3 := by
      rw [← sub_mul, abs_mul, abs_of_pos (show 0 < 2 * Real.pi by linarith)]
      exact mul_le_mul e2 (by linarith) (by linarith) hu0
    have f2 : |x / p * (2 * Real.pi) - 2 * x| ≤ 8 * u := by
      rw [show x / p * (2 * Real.pi) - 2 * x = x / p * (2 * (Real.pi - p)) by field_simp, abs_mul, abs_of_nonneg hz0]
      have : |2 * (Real.pi - p)| ≤ 8 * u := by
        rw [abs_mul, abs_sub_comm, abs_of_pos (by norm_num : (0 : ℝ) < 2)]; linarith
      have := mul_le_mul hz1 this (abs_nonneg _) (by norm_num)
      linarith
    have f3 : |2 * x - a| ≤ 8 * u + 2 * tau := by
      rw [show 2 * x - a = 2 * (x - a / 2) by ring, abs_mul, abs_of_pos (by norm_num : (0 : ℝ) < 2)]
      have : u * (a / 2) ≤ u * 4 := mul_le_mul_of_nonneg_left (by linarith) hu0
      linarith
    have g1 := abs_sub_le (y * (2 * Real.pi)) (x / p * (2 * Real.pi)) (2 * x)
    have g2 := abs_sub_le (y * (2 * Real.pi)) (2 * x) a
    norm_num at hu hts ⊢
    linarith

/-- the layer computed for a radius -/
theorem layer_range {rf : F} {r : ℝ} (vr : A.val rf = some r) (h1 : u * R < r) (h2 : r ≤ R + 1 / 2 ^ 44) {k : ℕ}
    (hk : radiusToLayer Rf rf = some k) : R - k - 1 < r ∧ (1 ≤ k → r ≤ R - 1 / 2) := by
  rcases lt_or_ge R r with hR | hR
  · have h3 := (D.layer_val_gt vr hR h2).1
    rw [h3, Option.some.injEq] at hk
    subst hk
    exact ⟨by push_cast; linarith, fun h => absurd h (by norm_num)⟩
  rw [(D.layer_val vr h1 h2).1] at hk
  have hk : ⌊A.rnd (R - r)⌋.toNat = k := Option.some.inj hk
  have hd0 : 0 ≤ R - r := by linarith
  have h0 := A.rnd_nonneg hd0
  have h34 := D.le34
  have hu0 := A.u_nonneg
  have hr0 : 0 < r := lt_of_le_of_lt (mul_nonneg hu0 D.pos.le) h1
  have hle : A.rnd (R - r) ≤ R := by
    have := A.mono (show R - r ≤ R by linarith)
    rwa [D.rep] at this
  have hf : (k : ℤ) = ⌊A.rnd (R - r)⌋ := by
    have := Int.floor_nonneg.2 h0
    omega
  have hfr : (k : ℝ) = (⌊A.rnd (R - r)⌋ : ℝ) := by exact_mod_cast hf
  have g1 := Int.floor_le (A.rnd (R - r))
  have g2 := Int.lt_floor_add_one (A.rnd (R - r))
  rw [← hfr] at g1 g2
  have hk34 : k ≤ 34 := by
    have : (k : ℝ) ≤ 34 := by linarith
    exact_mod_cast this
  constructor
  · by_contra hc
    have h3 : ((k : ℝ) + 1) ≤ R - r := by linarith
    have h4 := A.mono h3
    have h5 := A.int ((k : ℤ) + 1) (by rw [abs_of_nonneg (by positivity)]; norm_num; omega)
    push_cast at h5
    rw [h5] at h4
    linarith
  · intro hk1
    by_contra hc
    have hkr : (1 : ℝ) ≤ k := by exact_mod_cast hk1
    have h3 : R - r ≤ 1 / 2 := by linarith
    have h4 := A.rnd_le_pow (x := R - r) (k := -1) (by norm_num) (by norm_num) (by norm_num; linarith)
    norm_num at h4
    linarith

end RDisk

variable {radii angles : List F} {Tf : F} {r a : List ℝ} {T : ℝ} {ndebug : Bool} {H : HTree F}

/-- where a point is, and what it is decided by -/
theorem Spec.RInput.point_data (I : RInput A eps p radii angles Tf Rf r a T R)
    (b : HBuilt ndebug radii angles Tf Rf ⌈R⌉.toNat (rtgt Rf) (rpair Rf ⌈R⌉.toNat) H) {x : HPoint F} (hx : x ∈ H.points) :
    ∃ rf af r0 a0, A.val rf = some r0 ∧ A.val af = some a0 ∧ r[x.id]? = some r0 ∧ a[x.id]? = some a0 ∧
      x = HPoint.make x.id rf af x.cellId ∧
      ∀ i l B, HIn (rtgt Rf) ⌈R⌉.toNat x i l B → R - i - 1 < r0 ∧ (1 ≤ i → r0 ≤ R - 1 / 2) ∧ ∃ a', InArc l B a' ∧ |a' - a0| ≤ 1 / 2 ^ 47 := by
  have D := I.disk
  obtain ⟨rf, af, k, c, h1, h2, hk, h3, hc, h4, e⟩ := (b.point x hx).ex
  obtain ⟨r0, hr, vr⟩ := forall2_get I.radii h1
  obtain ⟨a0, ha, va⟩ := forall2_get I.angles h2
  have hr0 := I.hyp.radius r0 (List.mem_of_getElem? hr)
  have ha0 := I.hyp.angle a0 (List.mem_of_getElem? ha)
  have hcell : x.cellId = hOff (rtgt Rf) ⌈R⌉.toNat k + c := by rw [e]; rfl
  refine ⟨rf, af, r0, a0, vr, va, hr, ha, by rw [hcell]; exact e, ?_⟩
  intro i l B hI
  have hIk : HIn (rtgt Rf) ⌈R⌉.toNat x k (rtgt Rf k) (2 ^ rtgt Rf k + c - 1) := by
    refine ⟨hk, by omega, by omega, le_rfl, ?_⟩
    rw [hcell]
    simp only [Nat.sub_self, pow_zero, Nat.div_one]
    have := Nat.one_le_two_pow (n := rtgt Rf k)
    omega
  obtain rfl := hI.layer_eq hIk
  obtain ⟨g1, g2⟩ := D.layer_range vr hr0.1 hr0.2 h3
  refine ⟨g1, g2, ?_⟩
  obtain ⟨y, y0, hy, herr⟩ := D.cell_arc va ha0.1 ha0.2 (D.rtgt_eq hk).2 h4
  obtain ⟨_, _, _, hl, hB⟩ := hI
  rw [hcell, Nat.add_sub_cancel_left] at hB
  exact ⟨_, inArc_of_floor y0 hy hl hB, herr⟩

end Girgs
