import Verif.Model.MathBench
import Verif.Props.HyperCells
/-! Property C84: the two versions of the edge decision in the math-benchmarks. -/
namespace Girgs.Props
open Spec MathBench
open XR (fin)

/-- C84: for points with positive radii, a positive temperature and a positive bound, both versions decide `u < p / maxProb`, where
`p = 1 / (1 + exp((d - R) / (2 T)))` and `d` is the hyperbolic distance of the points: they make the same decision for every random number. -/
theorem C84_decisions {T R M r a s b u : ℝ} (hT : 0 < T) (hM : 0 < M) (hr : 0 < r) (hs : 0 < s) (id id' c c' : ℕ) :
    naive (fin T) (fin R) (fin M) (fin r) (fin a) (fin s) (fin b) (fin u) = decide (u < 1 / (1 + Real.exp ((hypDist r a s b - R) / (2 * T))) / M) ∧
    simplified (fin T) (fin R) (fin M) (HPoint.make id (fin r) (fin a) c) (HPoint.make id' (fin s) (fin b) c') (fin u) =
      decide (u < 1 / (1 + Real.exp ((hypDist r a s b - R) / (2 * T))) / M) := by
  obtain ⟨h1, _, h3, _⟩ := C37_distance r a s b hr hs id id' c c'
  unfold hyperbolicDistance at h1
  unfold HPoint.dist HPoint.distCosh at h3
  have he := Real.exp_pos ((hypDist r a s b - R) / (2 * T))
  have e : ((1 / 2 : ℚ) : ℝ) / T * (hypDist r a s b - R) = (hypDist r a s b - R) / (2 * T) := by
    push_cast; field_simp
  constructor
  · unfold naive
    dsimp only
    rw [h1, XR.ofRat_eq, XR.ofRat_eq, XR.div_fin _ _ hT.ne', XR.sub_fin, XR.mul_fin, XR.exp_fin, XR.add_fin, e,
      XR.div_fin _ _ (by push_cast; linarith), XR.div_fin _ _ hM.ne', XR.lt_fin]
    norm_num
  · unfold simplified
    dsimp only
    rw [h3, XR.ofRat_eq, XR.ofRat_eq, XR.div_fin _ _ hT.ne', XR.sub_fin, XR.mul_fin u, XR.mul_fin _ (hypDist r a s b - R), XR.exp_fin, XR.add_fin, e, XR.mul_fin, XR.lt_fin,
      decide_eq_decide, div_div, lt_div_iff₀ (by positivity)]
    push_cast
    rw [mul_assoc, mul_comm M]

/-- C84: a point in the centre of the disk makes the versions disagree: the simplified one replaces a NaN by the distance 0.  (With `T = 1/2`, `R = 0` and the bound
1, a point at distance `s` is connected with probability `1/(1+e^s) < 1/2` by the naive version and `1/2` by the simplified one.) -/
theorem C84_centre {s : ℝ} (hs : 0 < s) (b : ℝ) {u : ℝ} (h1 : 1 / (1 + Real.exp s) ≤ u) (h2 : u < 1 / 2) (id id' c c' : ℕ) :
    naive (fin (1 / 2)) (fin 0) (fin 1) (fin 0) (fin 0) (fin s) (fin b) (fin u) = false ∧
    simplified (fin (1 / 2)) (fin 0) (fin 1) (HPoint.make id (fin 0) (fin 0) c) (HPoint.make id' (fin s) (fin b) c') (fin u) = true := by
  have hsh : 0 < Real.sinh s := Real.sinh_pos_iff.2 hs
  have hinf : ∀ x : ℝ, 0 < x → (fin x /. fin 0 : XR) = XR.pinf := fun x hx => by
    show (if (0 : ℝ) = 0 then XR.infOf _ else _) = _
    unfold XR.infOf
    rw [if_pos rfl, if_pos hx]
  constructor
  · have e : (CFloat.acosh (CFloat.fmax (CFloat.ofRat 1) (CFloat.cosh (fin 0 -. fin s) +. (CFloat.ofRat 1 -. CFloat.cos (fin 0 -. fin b)) *. CFloat.sinh (fin 0) *.
        CFloat.sinh (fin s))) : XR) = fin s := by
      have := hyperbolicDistance_XR 0 s 0 b
      unfold hyperbolicDistance at this
      rw [this]
      unfold hc
      simp [Real.cosh_neg, max_eq_right (Real.one_le_cosh s), Real.arcosh_cosh hs.le]
    unfold naive
    dsimp only
    rw [e, XR.ofRat_eq, XR.ofRat_eq, XR.div_fin _ _ (by norm_num), XR.sub_fin, XR.mul_fin, XR.exp_fin, XR.add_fin,
      XR.div_fin _ _ (by push_cast; linarith [Real.exp_pos (((1 / 2 : ℚ) : ℝ) / (1 / 2) * (s - 0))]), XR.div_fin _ _ one_ne_zero, XR.lt_fin, decide_eq_false_iff_not, not_lt]
    norm_num at h1 ⊢
    exact h1
  · unfold simplified HPoint.make
    have e1 : (CFloat.sinh (fin 0) : XR) = fin 0 := by show fin (Real.sinh 0) = _; rw [Real.sinh_zero]
    have e2 : (CFloat.cosh (fin 0) : XR) = fin 1 := by show fin (Real.cosh 0) = _; rw [Real.cosh_zero]
    have e3 : (CFloat.ofRat 1 /. fin 0 : XR) = XR.pinf := by rw [XR.ofRat_eq]; exact hinf _ (by norm_num)
    have hcoth : 0 < Real.cosh s / Real.sinh s := div_pos (Real.cosh_pos s) hsh
    have hinv : 0 < ((1 : ℚ) : ℝ) / Real.sinh s := div_pos (by norm_num) hsh
    have e4 : ∀ x : ℝ, 0 < x → (XR.pinf *. fin x : XR) = XR.pinf := fun x hx => by
      show XR.infOf x = _
      unfold XR.infOf
      rw [if_pos hx]
    have e5 : ∀ x y : ℝ, (XR.pinf -. fin x -. fin y : XR) = XR.pinf := fun _ _ => rfl
    have e6 : (XR.pinf /. XR.pinf : XR) = XR.nan := rfl
    have e7 : (CFloat.acosh (CFloat.fmax (CFloat.ofRat 1) XR.nan) : XR) = fin 0 := by
      have : (CFloat.fmax (CFloat.ofRat 1) XR.nan : XR) = fin 1 := by
        rw [XR.ofRat_eq]; unfold CFloat.fmax
        rw [if_neg (by simp [CFloat.lt, XR.lt])]; norm_num
      rw [this, XR.acosh_fin _ le_rfl, show Real.arcosh 1 = 0 by simpa using Real.arcosh_cosh (le_refl 0)]
    dsimp only
    rw [e1, e2, e3, hinf 1 one_pos, XR.cosh_fin, XR.sinh_fin, XR.div_fin _ _ hsh.ne', e4 _ hcoth, XR.cos_fin, XR.cos_fin, XR.sin_fin, XR.sin_fin, XR.mul_fin u, XR.mul_fin (Real.cos 0), XR.mul_fin (Real.sin 0), e5]
    have e8 : (CFloat.ofRat 1 /. fin (Real.sinh s) : XR) = fin (((1 : ℚ) : ℝ) / Real.sinh s) := by rw [XR.ofRat_eq, XR.div_fin _ _ hsh.ne']
    rw [e8, e4 _ hinv, e6, e7, XR.ofRat_eq, XR.ofRat_eq, XR.div_fin _ _ (by norm_num), XR.sub_fin, XR.mul_fin _ (0 - 0 : ℝ), XR.exp_fin, XR.add_fin, XR.mul_fin, XR.lt_fin,
      decide_eq_true_eq]
    norm_num
    linarith

/-- non-vacuity of `C84_decisions`: the parameters of the benchmark -/
example : naive (fin 2) (fin 20) (fin (1 / 100000)) (fin 1) (fin 0) (fin 2) (fin 1) (fin (1 / 2)) =
    simplified (fin 2) (fin 20) (fin (1 / 100000)) (HPoint.make 0 (fin 1) (fin 0) 0) (HPoint.make 1 (fin 2) (fin 1) 0) (fin (1 / 2)) := by
  obtain ⟨h1, h2⟩ := C84_decisions (T := 2) (R := 20) (M := 1 / 100000) (r := 1) (a := 0) (s := 2) (b := 1) (u := 1 / 2) (by norm_num) (by norm_num) (by norm_num)
    (by norm_num) 0 1 0 0
  rw [h1, h2]

/-- non-vacuity of `C84_centre` -/
example : 1 / (1 + Real.exp 1) ≤ (2 / 5 : ℝ) := by
  have := Real.exp_one_gt_d9
  rw [div_le_iff₀ (by linarith)]
  linarith

end Girgs.Props
