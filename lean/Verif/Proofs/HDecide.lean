import Verif.Proofs.HCells
/-!
Hyperbolic sampler over exact reals: what the pre-computed points decide, where the points are, and the distance filter.
-/
namespace Girgs
open Angle Spec
open Real

/-- pre-computed form of a point -/
theorem make_XR {id c : ℕ} {r a : ℝ} (hr : 0 < r) : HPoint.make id (XR.fin r) (XR.fin a) c =
    ⟨id, c, XR.fin (1 / sinh r), XR.fin (cosh r / sinh r), XR.fin (cos a), XR.fin (sin a)⟩ := by
  have hs : sinh r ≠ 0 := (sinh_pos_iff.2 hr).ne'
  unfold HPoint.make
  have e1 : CFloat.ofRat 1 /. CFloat.sinh (XR.fin r) = XR.fin (1 / sinh r) := by
    refine (XR.div_fin _ _ hs).trans ?_
    norm_num
  have e2 : CFloat.cosh (XR.fin r) /. CFloat.sinh (XR.fin r) = XR.fin (cosh r / sinh r) := XR.div_fin _ _ hs
  rw [e1, e2]; rfl

theorem below_XR {id id' c c' : ℕ} {r a s b C : ℝ} (hr : 0 < r) (hs : 0 < s) :
    (HPoint.make id (XR.fin r) (XR.fin a) c).isDistanceBelowR (HPoint.make id' (XR.fin s) (XR.fin b) c') (XR.fin C) =
      decide (hc r s (a - b) < C) := by
  have h1 : 0 < sinh r := sinh_pos_iff.2 hr
  have h2 : 0 < sinh s := sinh_pos_iff.2 hs
  rw [make_XR hr, make_XR hs]
  show decide (cosh r / sinh r * (cosh s / sinh s) - C * (1 / sinh r) * (1 / sinh s) < cos a * cos b + sin a * sin b) = _
  rw [decide_eq_decide, hc_eq', cos_sub]
  have e : cosh r / sinh r * (cosh s / sinh s) - C * (1 / sinh r) * (1 / sinh s) = (cosh r * cosh s - C) / (sinh r * sinh s) := by
    field_simp
  rw [e, div_lt_iff₀ (by positivity)]
  constructor <;> intro h <;> nlinarith

theorem distCosh_XR {id id' c c' : ℕ} {r a s b : ℝ} (hr : 0 < r) (hs : 0 < s) :
    (HPoint.make id (XR.fin r) (XR.fin a) c).distCosh (HPoint.make id' (XR.fin s) (XR.fin b) c') = XR.fin (max 1 (hc r s (a - b))) := by
  have h1 : 0 < sinh r := sinh_pos_iff.2 hr
  have h2 : 0 < sinh s := sinh_pos_iff.2 hs
  rw [make_XR hr, make_XR hs]
  unfold HPoint.distCosh
  have e : (XR.fin (cosh r / sinh r) *. XR.fin (cosh s / sinh s) -. XR.fin (cos a) *. XR.fin (cos b) -. XR.fin (sin a) *. XR.fin (sin b)) /.
      (XR.fin (1 / sinh r) *. XR.fin (1 / sinh s)) = XR.fin (hc r s (a - b)) := by
    have hne : 1 / sinh r * (1 / sinh s) ≠ 0 := by positivity
    refine (XR.div_fin (cosh r / sinh r * (cosh s / sinh s) - cos a * cos b - sin a * sin b) _ hne).trans ?_
    congr 1
    rw [hc_eq', cos_sub]
    field_simp
    ring
  rw [e]
  have e1 : (CFloat.ofRat 1 : XR) = XR.fin 1 := by show XR.fin ((1 : ℚ) : ℝ) = _; norm_num
  rw [e1]
  exact XR.fmax_fin _ _

theorem arcosh_hc {r s φ : ℝ} (hr : 0 < r) (hs : 0 < s) : 1 ≤ hc r s φ := by
  unfold hc
  have h1 : 0 ≤ sinh r := sinh_nonneg_iff.2 hr.le
  have h2 : 0 ≤ sinh s := sinh_nonneg_iff.2 hs.le
  have := one_le_cosh (r - s)
  have : 0 ≤ (1 - cos φ) * sinh r * sinh s := mul_nonneg (mul_nonneg (by linarith [cos_le_one φ]) h1) h2
  linarith

theorem hypDist_eq {r s a b : ℝ} (hr : 0 < r) (hs : 0 < s) : arcosh (max 1 (hc r s (a - b))) = hypDist r a s b := by
  unfold hypDist; rw [← hc_eq, max_eq_right (arcosh_hc hr hs)]

theorem hypDist_nonneg (r a s b : ℝ) (hr : 0 < r) (hs : 0 < s) : 0 ≤ hypDist r a s b := by
  rw [← hypDist_eq hr hs]; exact arcosh_nonneg (le_max_left _ _)

theorem cosh_hypDist {r s a b : ℝ} (hr : 0 < r) (hs : 0 < s) : cosh (hypDist r a s b) = hypCosh r a s b := by
  unfold hypDist; rw [cosh_arcosh]; rw [← hc_eq]; exact arcosh_hc hr hs

theorem hypDist_lt_iff {r s a b R : ℝ} (hr : 0 < r) (hs : 0 < s) (hR : 0 < R) : hypDist r a s b < R ↔ hc r s (a - b) < cosh R := by
  rw [← hypDist_eq hr hs, arcosh_lt_iff hR]

/-! ### the points of a constructed tree -/

section
variable {ndebug : Bool} {radii angles : List ℝ} {T R : ℝ} {H : HTree XR}

theorem getElem?_xw {w : List ℝ} {k : ℕ} {y : XR} (h : (xw w)[k]? = some y) : ∃ x : ℝ, w[k]? = some x ∧ y = XR.fin x := by
  unfold xw at h
  rw [List.getElem?_map, Option.map_eq_some_iff] at h
  obtain ⟨x, hx, e⟩ := h
  exact ⟨x, hx, e.symm⟩

/-- where a point is (radii in `(0, R]`, angles in `[0, 2π)`; target levels at most 30) -/
theorem HBuiltX.point_data_of (b : HBuiltX ndebug radii angles T R H) (hrad : ∀ r ∈ radii, 0 < r ∧ r ≤ R)
    (hang : ∀ a ∈ angles, 0 ≤ a ∧ a < 2 * π) (h40 : R ≤ 165 / 4) (h30 : ∀ i, i < ⌈R⌉.toNat → htgt R i ≤ 30) {x : HPoint XR} (hx : x ∈ H.points) :
    ∃ r a, radii[x.id]? = some r ∧ angles[x.id]? = some a ∧ 0 < r ∧ r ≤ R ∧ 0 ≤ a ∧ a < 2 * π ∧
      x = HPoint.make x.id (XR.fin r) (XR.fin a) x.cellId ∧
      ∀ i l A, HIn (htgt R) ⌈R⌉.toNat x i l A → R - i - 1 < r ∧ r ≤ R - i ∧ InArc l A a := by
  obtain ⟨r', a', k, c, h1, h2, hk, h3, hc, h4, e⟩ := (b.point x hx).ex
  obtain ⟨r, hr, rfl⟩ := getElem?_xw h1
  obtain ⟨a, ha, rfl⟩ := getElem?_xw h2
  have hr0 := hrad r (List.mem_of_getElem? hr)
  have ha0 := hang a (List.mem_of_getElem? ha)
  have hcell : x.cellId = hOff (htgt R) ⌈R⌉.toNat k + c := by rw [e]; rfl
  refine ⟨r, a, hr, ha, hr0.1, hr0.2, ha0.1, ha0.2, ?_, ?_⟩
  · rw [hcell]; exact e
  intro i l A hI
  obtain ⟨hr1, hr2, hr3, hr4⟩ := radiusToLayer_XR hr0.1 hr0.2 h40
  rw [hr1] at h3
  have hk' : ⌊R - r⌋.toNat = k := Option.some.inj h3
  have hIk : HIn (htgt R) ⌈R⌉.toNat x k (htgt R k) (2 ^ htgt R k + c - 1) := by
    refine ⟨hk, by omega, by omega, le_rfl, ?_⟩
    rw [hcell]
    simp only [Nat.sub_self, pow_zero, Nat.div_one]
    have := Nat.one_le_two_pow (n := htgt R k)
    omega
  obtain rfl := hI.layer_eq hIk
  rw [hk'] at hr3 hr4
  refine ⟨hr3, hr4, ?_⟩
  have htk : htgt R i ≤ 30 := h30 i hk
  obtain ⟨hc1, hc2⟩ := cellForPoint_XR ha0.1 ha0.2 (t := htgt R i) (by omega)
  rw [hc1] at h4
  have hcf : ⌊a / (2 * π) * 2 ^ htgt R i⌋.toNat = c := Option.some.inj h4
  have hpi := pi_pos
  have hz0 : 0 ≤ a / (2 * π) * 2 ^ htgt R i := by have := ha0.1; positivity
  have hcz : (c : ℝ) = (⌊a / (2 * π) * 2 ^ htgt R i⌋ : ℝ) := by
    rw [← hcf]
    exact (Int.cast_natCast _).symm.trans (congrArg _ (Int.toNat_of_nonneg (Int.floor_nonneg.2 hz0)))
  have hz1 := Int.floor_le (a / (2 * π) * 2 ^ htgt R i)
  have hz2 := Int.lt_floor_add_one (a / (2 * π) * 2 ^ htgt R i)
  rw [← hcz] at hz1 hz2
  obtain ⟨_, _, _, hl, hA⟩ := hI
  rw [hcell, Nat.add_sub_cancel_left] at hA
  set D := 2 ^ (htgt R i - l) with hD
  have hDp : 0 < D := by rw [hD]; positivity
  have hq1 : c / D * D ≤ c := Nat.div_mul_le_self c D
  have hq2 : c < (c / D + 1) * D := by
    have := Nat.lt_mul_div_succ c hDp
    rw [Nat.mul_comm]; exact this
  generalize c / D = q at *
  have hAq : (A : ℝ) + 1 = 2 ^ l + q := by exact_mod_cast hA
  have hp : (2 : ℝ) ^ htgt R i = 2 ^ l * D := by
    rw [hD]; push_cast; rw [← pow_add]; congr 1; omega
  have hDr : (0 : ℝ) < D := by exact_mod_cast hDp
  rw [hp] at hz1 hz2
  have g1 : (q : ℝ) * D ≤ c := by exact_mod_cast hq1
  have g2 : (c : ℝ) + 1 ≤ (q + 1) * D := by have : c + 1 ≤ (q + 1) * D := hq2
                                            exact_mod_cast this
  have k1 : (q : ℝ) ≤ a / (2 * π) * 2 ^ l := by
    have : (q : ℝ) * D ≤ a / (2 * π) * 2 ^ l * D := by nlinarith
    exact le_of_mul_le_mul_right this hDr
  have k2 : a / (2 * π) * 2 ^ l < q + 1 := by
    have : a / (2 * π) * 2 ^ l * D < (q + 1) * D := by nlinarith
    exact lt_of_mul_lt_mul_right this hDr.le
  have hw : (0 : ℝ) < 2 * π / 2 ^ l := by positivity
  have ea : a = a / (2 * π) * 2 ^ l * (2 * π / 2 ^ l) := by field_simp
  unfold InArc
  rw [show (A : ℝ) + 1 - 2 ^ l = q by linarith, show (A : ℝ) + 2 - 2 ^ l = q + 1 by linarith]
  constructor
  · calc (q : ℝ) * (2 * π / 2 ^ l) ≤ a / (2 * π) * 2 ^ l * (2 * π / 2 ^ l) := mul_le_mul_of_nonneg_right k1 hw.le
      _ = a := ea.symm
  · calc a = a / (2 * π) * 2 ^ l * (2 * π / 2 ^ l) := ea
      _ < (q + 1) * (2 * π / 2 ^ l) := mul_lt_mul_of_pos_right k2 hw

/-- where a point is -/
theorem HBuiltX.point_data (b : HBuiltX ndebug radii angles T R H) (hin : HypInput radii angles T R) {x : HPoint XR} (hx : x ∈ H.points) :
    ∃ r a, radii[x.id]? = some r ∧ angles[x.id]? = some a ∧ 0 < r ∧ r ≤ R ∧ 0 ≤ a ∧ a < 2 * π ∧
      x = HPoint.make x.id (XR.fin r) (XR.fin a) x.cellId ∧
      ∀ i l A, HIn (htgt R) ⌈R⌉.toNat x i l A → R - i - 1 < r ∧ r ≤ R - i ∧ InArc l A a :=
  b.point_data_of hin.radius hin.angle (by rcases hin.disk with h | h <;> linarith [h.2]) (fun _ hi => (HypInput.inputOK hin).tgt_lt hi) hx

/-- the level condition of a type II call -/
theorem HTaskOK.level_cond (b : HBuiltX ndebug radii angles T R H) (hin : HypInput radii angles T R) {t : Task} (ht : HTaskOK H (hpair R) t)
    (h2 : t.two = true) : 0 < R - t.i - 1 ∧ 0 < R - t.j - 1 ∧ cosh R < hc (R - t.i - 1) (R - t.j - 1) (2 * π / 2 ^ t.level) := by
  have hl := two_le_level ht.hA ht.hB (ht.two h2)
  have h1 := hpbl_pos_lt (r := R - t.i - 1) (s := R - t.j - 1) (R := R) (k := t.level - 1) (by have := ht.hl; unfold hpair at this; omega)
  have e : π / 2 ^ (t.level - 1) = 2 * π / 2 ^ t.level := by
    obtain ⟨m, hm⟩ : ∃ m, t.level = m + 1 := ⟨t.level - 1, by omega⟩
    rw [hm, Nat.add_sub_cancel, pow_succ]; field_simp
  rw [e] at h1
  have hi := lt_of_lt_of_le ht.hi b.layers_le
  have hj := lt_of_lt_of_le ht.hj b.layers_le
  exact ⟨(layers_pos (disk_ceil hin.disk) hi hj h1).1, (layers_pos (disk_ceil hin.disk) hi hj h1).2, h1⟩

/-- the points of a type II call are at distance more than `R`, and at least at the distance its filter was made for -/
theorem HTaskOK.far (b : HBuiltX ndebug radii angles T R H) (hin : HypInput radii angles T R) {t : Task} (ht : HTaskOK H (hpair R) t)
    (h2 : t.two = true) {r a s c : ℝ}
    (hx : R - t.i - 1 < r ∧ r ≤ R - t.i ∧ InArc t.level t.cellA a) (hy : R - t.j - 1 < s ∧ s ≤ R - t.j ∧ InArc t.level t.cellB c) :
    cosh R < hc (R - t.i - 1) (R - t.j - 1) (betweenN t.level t.cellA t.cellB * (2 * π / 2 ^ t.level)) ∧
    hc (R - t.i - 1) (R - t.j - 1) (betweenN t.level t.cellA t.cellB * (2 * π / 2 ^ t.level)) ≤ hc r s (a - c) := by
  obtain ⟨h3, h4, h5⟩ := ht.level_cond b hin h2
  have hi : (0 : ℝ) ≤ t.i := Nat.cast_nonneg _
  have hj : (0 : ℝ) ≤ t.j := Nat.cast_nonneg _
  exact hc_cells ht.hA ht.hB (ht.two h2) h3 h4 hx.1.le hy.1.le (by linarith) (by linarith) h5 hx.2.2 hy.2.2

end

end Girgs
