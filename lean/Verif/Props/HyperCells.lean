import Verif.Proofs.HThreshold
import Verif.Spec.Circle
/-
C36, C37, C38: circular cells, distance decisions and comparison levels of hypergirgs.
-/
namespace Girgs.Props
open Angle Spec
open Real

/-! ### C36 -/

/-- C36 (tree).  Level `l ≤ 31` has `2^l` cells with ids starting at `2^l-1`; the children of a cell `c` of level `l ≤ 30` are the
cells `2c+1` and `2c+2` of level `l+1`; these and only these cells have parent `c`. -/
theorem C36_tree (l c : ℕ) (hl : l ≤ 30) (hc : OnBinLevel l c) :
    numCellsInLevel l = some (2 ^ l) ∧ firstCellOfLevel l = some (2 ^ l - 1) ∧
    firstChild c = 2 * c + 1 ∧ secondChild c = 2 * c + 2 ∧ OnBinLevel (l + 1) (firstChild c) ∧ OnBinLevel (l + 1) (secondChild c) ∧
    ∀ d, OnBinLevel (l + 1) d → (parent d = c ↔ d = firstChild c ∨ d = secondChild c) := by
  have hc' : OnLv l c := hc
  have h1 := onLv_lt hc' (by omega)
  have h2 : c + 1 < 2 ^ 31 := by
    have := (onLv_iff.1 hc').2
    have h3 : 2 ^ l ≤ 2 ^ 30 := two_pow_le hl
    omega
  have e1 : firstChild c = 2 * c + 1 := firstChild_eq (by omega)
  have e2 : secondChild c = 2 * c + 2 := secondChild_eq (by omega)
  refine ⟨numCellsInLevel_eq (by omega), firstCellOfLevel_eq (by omega), e1, e2, ?_, ?_, ?_⟩
  · rw [e1]; exact onLv_child hc' (by omega) (by omega)
  · rw [e2]; exact onLv_child hc' (by omega) (by omega)
  · intro d hd
    have hd1 := (onLv_iff.1 (show OnLv (l + 1) d from hd))
    have : 2 ^ (l + 1) ≤ 2 ^ 31 := two_pow_le (by omega)
    have h2p : 2 ≤ 2 ^ (l + 1) := by rw [pow_succ]; have := Nat.one_le_two_pow (n := l); omega
    unfold parent
    rw [subU_eq (by omega) (by omega), e1, e2, hparent_iff (by omega)]
    omega

/-- C36 (cells of points).  For an angle in [0, 2π) and a level `l ≤ 30`, `cellForPoint` returns the number `i` of the arc containing the
angle, which is in the bounds returned by `bounds` for that cell; it is the only such arc; and on level `l+1` it is a child. -/
theorem C36_cellForPoint (a : ℝ) (h0 : 0 ≤ a) (h1 : a < 2 * π) (l : ℕ) (hl : l ≤ 30) :
    ∃ i, cellForPoint (XR.fin a) l = some i ∧ i < 2 ^ l ∧ InArcNo l i a ∧ (∀ j, InArcNo l j a → j = i) ∧
      bounds (F := XR) (2 ^ l - 1 + i) l = some (XR.fin (i * (2 * π / 2 ^ l)), XR.fin ((i + 1) * (2 * π / 2 ^ l))) ∧
      ∃ j, cellForPoint (XR.fin a) (l + 1) = some j ∧ (j = 2 * i ∨ j = 2 * i + 1) := by
  have arc : ∀ t, t ≤ 31 → ∃ i, cellForPoint (XR.fin a) t = some i ∧ i < 2 ^ t ∧ InArcNo t i a ∧ ∀ j, InArcNo t j a → j = i := by
    intro t ht
    obtain ⟨e, h2⟩ := cellForPoint_XR h0 h1 ht
    have hpi := pi_pos
    have hz0 : 0 ≤ a / (2 * π) * 2 ^ t := by positivity
    have hc : ((⌊a / (2 * π) * 2 ^ t⌋.toNat : ℕ) : ℝ) = (⌊a / (2 * π) * 2 ^ t⌋ : ℝ) :=
      (Int.cast_natCast _).symm.trans (congrArg _ (Int.toNat_of_nonneg (Int.floor_nonneg.2 hz0)))
    have hw : (0 : ℝ) < 2 * π / 2 ^ t := by positivity
    have ea : a = a / (2 * π) * 2 ^ t * (2 * π / 2 ^ t) := by field_simp
    have k1 := Int.floor_le (a / (2 * π) * 2 ^ t)
    have k2 := Int.lt_floor_add_one (a / (2 * π) * 2 ^ t)
    rw [← hc] at k1 k2
    have hI : InArcNo t ⌊a / (2 * π) * 2 ^ t⌋.toNat a := by
      constructor
      · calc _ ≤ a / (2 * π) * 2 ^ t * (2 * π / 2 ^ t) := mul_le_mul_of_nonneg_right k1 hw.le
          _ = a := ea.symm
      · calc a = a / (2 * π) * 2 ^ t * (2 * π / 2 ^ t) := ea
          _ < _ := mul_lt_mul_of_pos_right k2 hw
    refine ⟨_, e, h2, hI, ?_⟩
    intro j hj
    have q1 : (j : ℝ) < (⌊a / (2 * π) * 2 ^ t⌋.toNat : ℕ) + 1 := lt_of_mul_lt_mul_right (hj.1.trans_lt hI.2) hw.le
    have q2 : ((⌊a / (2 * π) * 2 ^ t⌋.toNat : ℕ) : ℝ) < j + 1 := lt_of_mul_lt_mul_right (hI.1.trans_lt hj.2) hw.le
    have q1' : j < ⌊a / (2 * π) * 2 ^ t⌋.toNat + 1 := by exact_mod_cast q1
    have q2' : ⌊a / (2 * π) * 2 ^ t⌋.toNat < j + 1 := by exact_mod_cast q2
    omega
  obtain ⟨i, e, hi, hI, hu⟩ := arc l (by omega)
  obtain ⟨j, e', hj, hJ, _⟩ := arc (l + 1) (by omega)
  refine ⟨i, e, hi, hI, hu, ?_, j, e', ?_⟩
  · have h4 : 2 ^ l ≤ 2 ^ 30 := two_pow_le hl
    have h5 := Nat.one_le_two_pow (n := l)
    unfold bounds
    have hs : shl1 l = some (2 ^ l) := Coord.shl1_eq hl
    refine (obind hs _).trans ?_
    refine (obind (firstCellOfLevel_eq (by omega)) _).trans ?_
    rw [subU_eq (by omega) (by omega), Nat.add_sub_cancel_left]
    simp only
    rw [u32_eq (show i + 1 < _ by omega)]
    have hne : (2 : ℝ) ^ l ≠ 0 := by positivity
    have ed : (CFloat.ofRat 2 *. CFloat.pi /. CFloat.ofInt (2 ^ l) : XR) = XR.fin (2 * π / 2 ^ l) := by
      have := XR.div_fin (2 * π) (2 ^ l) hne
      rw [← this]
      have e1 : (CFloat.ofRat 2 *. CFloat.pi : XR) = XR.fin (2 * π) := by
        show XR.fin (((2 : ℚ) : ℝ) * π) = _
        norm_num
      have e2 : (CFloat.ofInt (2 ^ l) : XR) = XR.fin (2 ^ l) := by
        rw [XR.ofInt_eq]; push_cast; rfl
      rw [e1, e2]
    simp only [ed]
    rw [XR.ofNat_eq, XR.ofNat_eq, XR.mul_fin, XR.mul_fin]
    push_cast
    rfl
  · have hw : (0 : ℝ) < 2 * π / 2 ^ (l + 1) := by have := pi_pos; positivity
    have e2 : 2 * π / 2 ^ l = 2 * (2 * π / 2 ^ (l + 1)) := by rw [pow_succ]; field_simp
    unfold InArcNo at hI hJ
    rw [e2] at hI
    generalize 2 * π / (2 : ℝ) ^ (l + 1) = w at *
    have q1 : (2 * i : ℝ) < j + 1 := lt_of_mul_lt_mul_right (show 2 * (i : ℝ) * w < (j + 1) * w by nlinarith) hw.le
    have q2 : (j : ℝ) < 2 * i + 2 := lt_of_mul_lt_mul_right (show (j : ℝ) * w < (2 * i + 2) * w by nlinarith) hw.le
    have q1' : 2 * i < j + 1 := by exact_mod_cast q1
    have q2' : j < 2 * i + 2 := by exact_mod_cast q2
    omega

theorem stepsApart_iff {N i j k : ℕ} (hi : i < N) (hj : j < N) (hk : k < N) :
    StepsApart N i j k ↔ k = max i j - min i j ∨ k = N - (max i j - min i j) ∨ (i = j ∧ k = 0) := by
  have hmod : ∀ x y, x < N → y < N → (x + y) % N = if x + y < N then x + y else x + y - N := by
    intro x y hx hy
    split
    · rename_i h; exact Nat.mod_eq_of_lt h
    · rename_i h
      rw [Nat.mod_eq_sub_mod (by omega), Nat.mod_eq_of_lt (by omega)]
  unfold StepsApart
  rw [hmod i k hi hk, hmod j k hj hk]
  split <;> split <;> omega

/-- C36 (neighbours).  For cells `A`, `B` with arc numbers `i`, `j` on level `l ≤ 31`: `touching` returns whether they are at most one step
apart on the circle; `cellsBetween` returns 0 for equal cells, and otherwise `k-1` where `k ≥ 1` is the smallest number of steps. -/
theorem C36_touching (l i j : ℕ) (hl : l ≤ 31) (hi : i < 2 ^ l) (hj : j < 2 ^ l) :
    (∃ t, touching (2 ^ l - 1 + i) (2 ^ l - 1 + j) l = some t ∧
      (t = true ↔ StepsApart (2 ^ l) i j 0 ∨ StepsApart (2 ^ l) i j 1)) ∧
    ∃ b, cellsBetween (2 ^ l - 1 + i) (2 ^ l - 1 + j) l = some b ∧ (i = j → b = 0) ∧
      (i ≠ j → StepsApart (2 ^ l) i j (b + 1) ∧ ∀ k, 1 ≤ k → StepsApart (2 ^ l) i j k → b + 1 ≤ k) := by
  have h5 := Nat.one_le_two_pow (n := l)
  have hA : OnLv l (2 ^ l - 1 + i) := by rw [onLv_iff]; generalize 2 ^ l = N at *; omega
  have hB : OnLv l (2 ^ l - 1 + j) := by rw [onLv_iff]; generalize 2 ^ l = N at *; omega
  refine ⟨⟨_, touching_eq hl hA hB, ?_⟩, _, cellsBetween_eq hl hA hB, ?_, ?_⟩
  · unfold touchN
    rw [decide_eq_true_eq]
    generalize 2 ^ l = N at *
    rw [stepsApart_iff hi hj (by omega)]
    by_cases h1 : N = 1
    · subst h1
      have : i = 0 := by omega
      have : j = 0 := by omega
      subst_vars
      simp
    · rw [stepsApart_iff hi hj (by omega)]
      omega
  · rintro rfl; unfold betweenN; simp
  · intro hne
    unfold betweenN
    generalize 2 ^ l = N at *
    constructor
    · rw [stepsApart_iff hi hj (by omega)]; omega
    · intro k hk hs
      by_cases hkN : k < N
      · rw [stepsApart_iff hi hj hkN] at hs; omega
      · omega

/-- C36 (distance).  `dist` of two cells is `cellsBetween * 2π / 2^l`, and a lower bound of the angle between any two directions in the
cells. -/
theorem C36_dist (l i j : ℕ) (hl : l ≤ 30) (hi : i < 2 ^ l) (hj : j < 2 ^ l) :
    ∃ (b : ℕ) (δ : ℝ), cellsBetween (2 ^ l - 1 + i) (2 ^ l - 1 + j) l = some b ∧
      Angle.dist (F := XR) (2 ^ l - 1 + i) (2 ^ l - 1 + j) l = some (XR.fin δ) ∧ δ = b * (2 * π / 2 ^ l) ∧
      ∀ a c, InArcNo l i a → InArcNo l j c → δ ≤ angleBetween a c := by
  have h5 := Nat.one_le_two_pow (n := l)
  have hA : OnLv l (2 ^ l - 1 + i) := by rw [onLv_iff]; generalize 2 ^ l = N at *; omega
  have hB : OnLv l (2 ^ l - 1 + j) := by rw [onLv_iff]; generalize 2 ^ l = N at *; omega
  refine ⟨betweenN l (2 ^ l - 1 + i) (2 ^ l - 1 + j), _, cellsBetween_eq (by omega) hA hB, ?_, rfl, ?_⟩
  · unfold Angle.dist
    refine (obind (cellsBetween_eq (by omega) hA hB) _).trans ?_
    refine (obind (Coord.shl1_eq hl) _).trans ?_
    have hne : (2 : ℝ) ^ l ≠ 0 := by positivity
    have e2 : (CFloat.ofInt (2 ^ l) : XR) = XR.fin (2 ^ l) := by
      rw [XR.ofInt_eq]; push_cast; rfl
    rw [e2, XR.ofNat_eq, XR.ofRat_eq, XR.mul_fin]
    have e3 : (CFloat.pi : XR) = XR.fin π := rfl
    rw [e3, XR.mul_fin, XR.div_fin _ _ hne]
    congr 2
    push_cast
    ring
  · intro a c ha hc
    have arc : ∀ {k : ℕ} {x : ℝ}, InArcNo l k x → InArc l (2 ^ l - 1 + k) x := by
      intro k x hx
      unfold InArc
      unfold InArcNo at hx
      have e : ((2 ^ l - 1 + k : ℕ) : ℝ) = 2 ^ l - 1 + k := by rw [Nat.cast_add, Nat.cast_sub h5]; push_cast; rfl
      rw [e, show (2 : ℝ) ^ l - 1 + k + 1 - 2 ^ l = k by ring, show (2 : ℝ) ^ l - 1 + k + 2 - 2 ^ l = k + 1 by ring]
      exact hx
    obtain ⟨h1, h2⟩ := (arc ha).sep hA hB (arc hc)
    unfold angleBetween
    exact le_min h1 (by linarith)

/-- C36 at work: 8 arcs; angle 3 is in arc 3; the arcs 0 and 6 do not touch and have one arc between them, at angle π/4 -/
example : ∃ b δ, cellsBetween (2 ^ 3 - 1 + 0) (2 ^ 3 - 1 + 6) 3 = some b ∧ Angle.dist (F := XR) (2 ^ 3 - 1 + 0) (2 ^ 3 - 1 + 6) 3 = some (XR.fin δ) ∧
    b = 1 ∧ δ = π / 4 := by
  obtain ⟨b, δ, h1, h2, h3, _⟩ := C36_dist 3 0 6 (by norm_num) (by norm_num) (by norm_num)
  have hb : b = 1 := by
    have : cellsBetween (2 ^ 3 - 1 + 0) (2 ^ 3 - 1 + 6) 3 = some 1 := rfl
    rw [this] at h1; exact (Option.some.inj h1).symm
  exact ⟨b, δ, h1, h2, hb, by rw [h3, hb]; push_cast; ring⟩

/-! ### C37 -/

/-- C37.  For points with radii `r, s > 0`: `hyperbolicDistance` is the hyperbolic distance `d`; the pre-computed points give
`cosh d` and `d`; for `R ≥ 0` the test `isDistanceBelowR` with `cosh R` is `d < R`. -/
theorem C37_distance (r a s b : ℝ) (hr : 0 < r) (hs : 0 < s) (id id' c c' : ℕ) :
    hyperbolicDistance (XR.fin r) (XR.fin a) (XR.fin s) (XR.fin b) = XR.fin (hypDist r a s b) ∧
    (HPoint.make id (XR.fin r) (XR.fin a) c).distCosh (HPoint.make id' (XR.fin s) (XR.fin b) c') = XR.fin (cosh (hypDist r a s b)) ∧
    (HPoint.make id (XR.fin r) (XR.fin a) c).dist (HPoint.make id' (XR.fin s) (XR.fin b) c') = XR.fin (hypDist r a s b) ∧
    ∀ R : ℝ, 0 ≤ R → (HPoint.make id (XR.fin r) (XR.fin a) c).isDistanceBelowR (HPoint.make id' (XR.fin s) (XR.fin b) c')
      (CFloat.cosh (XR.fin R)) = decide (hypDist r a s b < R) := by
  have h1 := arcosh_hc (φ := a - b) hr hs
  refine ⟨by rw [hyperbolicDistance_XR, hypDist_eq hr hs], ?_, ?_, ?_⟩
  · rw [distCosh_XR hr hs, cosh_hypDist hr hs, ← hc_eq, max_eq_right h1]
  · unfold HPoint.dist
    rw [distCosh_XR hr hs, XR.acosh_fin _ (le_max_left _ _), hypDist_eq hr hs]
  · intro R hR
    have e : CFloat.cosh (XR.fin R) = XR.fin (cosh R) := rfl
    rw [e, below_XR hr hs, decide_eq_decide]
    rcases hR.eq_or_lt with h | h
    · subst h
      have := hypDist_nonneg r a s b hr hs
      rw [cosh_zero]
      constructor <;> intro h <;> linarith
    · rw [hypDist_lt_iff hr hs h]

/-- C37 (metric facts).  The distance is symmetric, 0 for identical points, and at least the difference of the radii. -/
theorem C37_metric (r a s b : ℝ) (hr : 0 < r) (hs : 0 < s) :
    hypDist r a s b = hypDist s b r a ∧ hypDist r a r a = 0 ∧ |r - s| ≤ hypDist r a s b := by
  refine ⟨hypDist_comm r a s b, ?_, ?_⟩
  · rw [hypDist, ← hc_eq, hc]; simp
  · rw [← not_lt]
    intro h
    rw [hypDist_lt_iff hr hs (lt_of_le_of_lt (hypDist_nonneg r a s b hr hs) h), cosh_abs] at h
    unfold hc at h
    have h1 : 0 ≤ sinh r := sinh_nonneg_iff.2 hr.le
    have h2 : 0 ≤ sinh s := sinh_nonneg_iff.2 hs.le
    have : 0 ≤ (1 - cos (a - b)) * sinh r * sinh s := mul_nonneg (mul_nonneg (by linarith [cos_le_one (a - b)]) h1) h2
    linarith

/-- C37 (radius 0).  The restriction to positive radii is needed: the origin has distance `s` from a point with radius `s`, but the test
with pre-computed values is false for every `R` (the pre-computed values are infinite and the comparison involves NaN). -/
theorem C37_origin (s b R : ℝ) (hs : 0 < s) (hR : 0 < R) (id id' c c' : ℕ) :
    hypDist 0 0 s b = s ∧ (HPoint.make id (XR.fin 0) (XR.fin 0) c).isDistanceBelowR (HPoint.make id' (XR.fin s) (XR.fin b) c')
      (CFloat.cosh (XR.fin R)) = false := by
  constructor
  · unfold hypDist hypCosh
    simp [arcosh_cosh hs.le]
  · rw [make_XR hs]
    have h1 : 0 < sinh s := sinh_pos_iff.2 hs
    have h2 := cosh_pos s
    have h3 := cosh_pos R
    have e1 : HPoint.make id (XR.fin 0) (XR.fin 0) c = ⟨id, c, XR.pinf, XR.pinf, XR.fin (cos 0), XR.fin (sin 0)⟩ := by
      unfold HPoint.make
      have e1 : (CFloat.sinh (XR.fin 0) : XR) = XR.fin 0 := by show XR.fin (sinh 0) = _; rw [sinh_zero]
      have e2 : (CFloat.cosh (XR.fin 0) : XR) = XR.fin 1 := by show XR.fin (cosh 0) = _; rw [cosh_zero]
      rw [e1, e2]
      have e3 : (CFloat.ofRat 1 /. XR.fin 0 : XR) = XR.pinf := by
        rw [XR.ofRat_eq]
        show (if (0 : ℝ) = 0 then XR.infOf _ else _) = _
        unfold XR.infOf
        rw [if_pos rfl, if_pos (by norm_num)]
      have e4 : (XR.fin 1 /. XR.fin 0 : XR) = XR.pinf := by
        show (if (0 : ℝ) = 0 then XR.infOf _ else _) = _
        unfold XR.infOf
        rw [if_pos rfl, if_pos (by norm_num)]
      rw [e3, e4]; rfl
    rw [e1]
    unfold HPoint.isDistanceBelowR
    simp only
    have e5 : (XR.pinf *. XR.fin (cosh s / sinh s) : XR) = XR.pinf := by
      show XR.infOf _ = _; unfold XR.infOf; rw [if_pos (by positivity)]
    have e6 : (CFloat.cosh (XR.fin R) *. XR.pinf : XR) = XR.pinf := by
      show XR.infOf (cosh R) = _; unfold XR.infOf; rw [if_pos h3]
    have e7 : (XR.pinf *. XR.fin (1 / sinh s) : XR) = XR.pinf := by
      show XR.infOf _ = _; unfold XR.infOf; rw [if_pos (by positivity)]
    rw [e5, e6, e7]
    rfl

/-! ### C38 -/

/-- C38 (termination).  For radii `r1, r2 ≥ 0` and `R ≥ 0` the loop of `partitioningBaseLevel` ends at level `l` iff `l` is the first level
at which two points with these radii at half a cell diameter `π/2^l` are at distance at most `R`.  It ends whenever `|r1-r2| < R`; for
positive radii it does not end if `|r1-r2| ≥ R`. -/
theorem C38_terminates (r1 r2 R : ℝ) (h1 : 0 ≤ r1) (h2 : 0 ≤ r2) (hR : 0 ≤ R) :
    (∀ l, RadiusLayer.partitioningBaseLevel (XR.fin r1) (XR.fin r2) (XR.fin R) = some l ↔
      hypDist r1 0 r2 (π / 2 ^ l) ≤ R ∧ ∀ k, k < l → R < hypDist r1 0 r2 (π / 2 ^ k)) ∧
    (|r1 - r2| < R → ∃ l, RadiusLayer.partitioningBaseLevel (XR.fin r1) (XR.fin r2) (XR.fin R) = some l) ∧
    (0 < r1 → 0 < r2 → R ≤ |r1 - r2| → RadiusLayer.partitioningBaseLevel (XR.fin r1) (XR.fin r2) (XR.fin R) = none) := by
  have hs1 : 0 ≤ sinh r1 := sinh_nonneg_iff.2 h1
  have hs2 : 0 ≤ sinh r2 := sinh_nonneg_iff.2 h2
  have key : ∀ k : ℕ, R < hypDist r1 0 r2 (π / 2 ^ k) ↔ cosh R < hc r1 r2 (π / 2 ^ k) := by
    intro k
    have h3 : 1 ≤ hc r1 r2 (π / 2 ^ k) := by
      unfold hc
      have := one_le_cosh (r1 - r2)
      have : 0 ≤ (1 - cos (π / 2 ^ k)) * sinh r1 * sinh r2 := mul_nonneg (mul_nonneg (by linarith [cos_le_one (π / 2 ^ k)]) hs1) hs2
      linarith
    rw [← lt_arcosh_iff hR, max_eq_right h3]
    unfold hypDist
    rw [← hc_eq, zero_sub, hc_neg]
  refine ⟨?_, ?_, ?_⟩
  · intro l
    rw [pbl_XR_iff hR]
    simp only [key]
    rw [← not_lt, ← not_lt, key]
  · intro h
    exact ⟨_, pbl_XR hR (hc_exists h)⟩
  · intro p1 p2 h
    have hn := hc_never hR h (mul_pos (sinh_pos_iff.2 p1) (sinh_pos_iff.2 p2))
    cases hp : RadiusLayer.partitioningBaseLevel (XR.fin r1) (XR.fin r2) (XR.fin R) with
    | none => rfl
    | some l =>
      have := ((pbl_XR_iff hR l).1 hp).1
      linarith [hn l]

/-- C38 (soundness).  Let `L` be the level returned for radii `r1, r2 > 0`.  Two points with radii in `[r1,R]` and `[r2,R]` whose angles are
in arcs `i` and `j` of a level `l ≤ L` (at most 31) that do not touch are at distance more than `R`. -/
theorem C38_sound (r1 r2 R : ℝ) (h1 : 0 < r1) (h2 : 0 < r2) (L : ℕ)
    (hL : RadiusLayer.partitioningBaseLevel (XR.fin r1) (XR.fin r2) (XR.fin R) = some L) (l i j : ℕ) (hl : l ≤ L) (hl31 : l ≤ 31)
    (hi : i < 2 ^ l) (hj : j < 2 ^ l) (hn : touching (2 ^ l - 1 + i) (2 ^ l - 1 + j) l = some false)
    (r a s b : ℝ) (hr : r1 ≤ r) (hrR : r ≤ R) (hs : r2 ≤ s) (hsR : s ≤ R) (ha : InArcNo l i a) (hb : InArcNo l j b) :
    R < hypDist r a s b := by
  have hR : 0 ≤ R := h1.le.trans (hr.trans hrR)
  have h5 := Nat.one_le_two_pow (n := l)
  have hA : OnLv l (2 ^ l - 1 + i) := by rw [onLv_iff]; generalize 2 ^ l = N at *; omega
  have hB : OnLv l (2 ^ l - 1 + j) := by rw [onLv_iff]; generalize 2 ^ l = N at *; omega
  rw [touching_eq hl31 hA hB, Option.some.injEq] at hn
  have h2l := two_le_level hA hB hn
  have hlev := ((pbl_XR_iff hR L).1 hL).2 (l - 1) (by omega)
  have e : π / 2 ^ (l - 1) = 2 * π / 2 ^ l := by
    obtain ⟨m, rfl⟩ : ∃ m, l = m + 1 := ⟨l - 1, by omega⟩
    rw [Nat.add_sub_cancel, pow_succ]; field_simp
  rw [e] at hlev
  have arc : ∀ {k : ℕ} {x : ℝ}, InArcNo l k x → InArc l (2 ^ l - 1 + k) x := by
    intro k x hx
    unfold InArc
    unfold InArcNo at hx
    have e : ((2 ^ l - 1 + k : ℕ) : ℝ) = 2 ^ l - 1 + k := by rw [Nat.cast_add, Nat.cast_sub h5]; push_cast; rfl
    rw [e, show (2 : ℝ) ^ l - 1 + k + 1 - 2 ^ l = k by ring, show (2 : ℝ) ^ l - 1 + k + 2 - 2 ^ l = k + 1 by ring]
    exact hx
  obtain ⟨h3, h4⟩ := hc_cells hA hB hn h1 h2 hr hs hrR hsR hlev (arc ha) (arc hb)
  rw [← hypDist_eq (h1.trans_le hr) (h2.trans_le hs), lt_arcosh_iff hR]
  linarith

/-- C38 at work: for `R = 2` and inner radii 3/2 the comparison level is defined -/
example : ∃ l, RadiusLayer.partitioningBaseLevel (XR.fin (3 / 2)) (XR.fin (3 / 2)) (XR.fin 2) = some l :=
  (C38_terminates (3 / 2) (3 / 2) 2 (by norm_num) (by norm_num) (by norm_num)).2.1 (by norm_num)

end Girgs.Props
