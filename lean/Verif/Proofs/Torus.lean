import Verif.Proofs.CoordGeom
import Mathlib.Tactic.FieldSimp
/- Real geometry of the torus. -/
namespace Girgs
open Spec

theorem circleDist_le (x y : ℝ) (h : |x - y| ≤ 1) (n : ℤ) : circleDist x y ≤ |x - y - n| := by
  unfold circleDist
  by_cases hn : n = 0
  · subst hn; simp
  · refine le_trans (min_le_right _ _) ?_
    have h1 : (1 : ℝ) ≤ |(n : ℝ)| := by
      have : 1 ≤ |n| := Int.one_le_abs hn
      exact_mod_cast this
    have h2 : |(n : ℝ)| - |x - y| ≤ |(n : ℝ) - (x - y)| := abs_sub_abs_le_abs_sub _ _
    rw [abs_sub_comm (n : ℝ)] at h2
    linarith

theorem circleDist_attained (x y : ℝ) (h : |x - y| ≤ 1) : ∃ n : ℤ, circleDist x y = |x - y - n| := by
  unfold circleDist
  rcases le_total |x - y| (1 - |x - y|) with hle | hle
  · exact ⟨0, by rw [min_eq_left hle]; simp⟩
  · rw [min_eq_right hle]
    rcases le_total 0 (x - y) with h0 | h0
    · refine ⟨1, ?_⟩
      rw [abs_of_nonneg h0] at *
      rw [abs_of_nonpos (by push_cast; linarith)]; push_cast; ring
    · refine ⟨-1, ?_⟩
      rw [abs_of_nonpos h0] at *
      rw [abs_of_nonneg (by push_cast; linarith)]; push_cast; ring

theorem circleDist_comm (x y : ℝ) : circleDist x y = circleDist y x := by
  unfold circleDist; rw [abs_sub_comm]

theorem circleDist_le_half (x y : ℝ) : circleDist x y ≤ 1 / 2 := by
  unfold circleDist
  rcases le_total |x - y| (1 / 2) with h | h
  · exact le_trans (min_le_left _ _) h
  · exact le_trans (min_le_right _ _) (by linarith)

theorem circleDist_nonneg {x y : ℝ} (h : |x - y| ≤ 1) : 0 ≤ circleDist x y :=
  le_min (abs_nonneg _) (by linarith)

theorem abs_sub_lt_one {x y : ℝ} (hx : 0 ≤ x ∧ x < 1) (hy : 0 ≤ y ∧ y < 1) : |x - y| < 1 :=
  abs_lt.2 ⟨by linarith, by linarith⟩

theorem circleDist_eq_zero {x y : ℝ} (hx : 0 ≤ x ∧ x < 1) (hy : 0 ≤ y ∧ y < 1) : circleDist x y = 0 ↔ x = y := by
  have h := abs_sub_lt_one hx hy
  constructor
  · intro h0
    unfold circleDist at h0
    rcases min_choice |x - y| (1 - |x - y|) with h1 | h1
    · rw [h1] at h0; exact sub_eq_zero.1 (abs_eq_zero.1 h0)
    · rw [h1] at h0; linarith
  · rintro rfl; simp [circleDist]

theorem circleDist_triangle {x y z : ℝ} (hxy : |x - y| ≤ 1) (hyz : |y - z| ≤ 1) (hxz : |x - z| ≤ 1) :
    circleDist x z ≤ circleDist x y + circleDist y z := by
  obtain ⟨n, hn⟩ := circleDist_attained x y hxy
  obtain ⟨m, hm⟩ := circleDist_attained y z hyz
  have := circleDist_le x z hxz (n + m)
  rw [hn, hm]
  refine le_trans this ?_
  have e : x - z - ((n + m : ℤ) : ℝ) = (x - y - n) + (y - z - m) := by push_cast; ring
  rw [e]; exact abs_add_le _ _

theorem circleDist_congr {x y x' y' : ℝ} (h : |x - y| ≤ 1) (h' : |x' - y'| ≤ 1) (k : ℤ) (e : x' - y' = x - y + k) :
    circleDist x' y' = circleDist x y := by
  apply le_antisymm
  · obtain ⟨n, hn⟩ := circleDist_attained x y h
    have := circleDist_le x' y' h' (n + k)
    rw [hn]; refine le_trans this (le_of_eq ?_)
    rw [e]; congr 1; push_cast; ring
  · obtain ⟨n, hn⟩ := circleDist_attained x' y' h'
    have := circleDist_le x y h (n - k)
    rw [hn]; refine le_trans this (le_of_eq ?_)
    rw [e]; congr 1; push_cast; ring

theorem torusDist_le_iff {D : Nat} (x y : Fin D → ℝ) (r : ℝ) :
    torusDist x y ≤ r ↔ 0 ≤ r ∧ ∀ d, circleDist (x d) (y d) ≤ r := by
  have : ∀ L : List (Fin D), L.foldr (fun d r => max (circleDist (x d) (y d)) r) 0 ≤ r ↔
      0 ≤ r ∧ ∀ d ∈ L, circleDist (x d) (y d) ≤ r := by
    intro L
    induction L with
    | nil => simp
    | cons a L ih => simp only [List.foldr_cons, max_le_iff, ih, List.forall_mem_cons]; tauto
  have h := this (List.finRange D)
  simpa [torusDist] using h

theorem torusDist_nonneg {D : Nat} (x y : Fin D → ℝ) : 0 ≤ torusDist x y :=
  ((torusDist_le_iff x y _).1 le_rfl).1

theorem circleDist_le_torusDist {D : Nat} (x y : Fin D → ℝ) (d : Fin D) : circleDist (x d) (y d) ≤ torusDist x y :=
  ((torusDist_le_iff x y _).1 le_rfl).2 d

theorem eq_torusDist {D : Nat} (x y : Fin D → ℝ) (m : ℝ) (h : ∀ r, m ≤ r ↔ 0 ≤ r ∧ ∀ d, circleDist (x d) (y d) ≤ r) :
    m = torusDist x y :=
  le_antisymm ((h _).2 ((torusDist_le_iff x y _).1 le_rfl)) ((torusDist_le_iff x y _).2 ((h _).1 le_rfl))

theorem coordDistance_fold {D : Nat} (x y : Fin D → ℝ) (L : List (Fin D)) : ∀ (b : ℝ),
    L.foldl (fun result d =>
      let dist := CFloat.abs ((XR.fin (x d)) -. (XR.fin (y d)))
      let dist := CFloat.fmin dist (CFloat.ofRat 1 -. dist)
      CFloat.fmax result dist) (XR.fin b) =
    XR.fin (L.foldl (fun r d => max r (circleDist (x d) (y d))) b) := by
  induction L with
  | nil => intro b; rfl
  | cons a L ih =>
    intro b
    rw [List.foldl_cons, List.foldl_cons, ← ih]
    simp [circleDist]

theorem foldl_max_le {α : Type} (L : List α) (f : α → ℝ) : ∀ (b r : ℝ),
    L.foldl (fun r a => max r (f a)) b ≤ r ↔ b ≤ r ∧ ∀ a ∈ L, f a ≤ r := by
  induction L with
  | nil => intro b r; simp
  | cons a L ih => intro b r; simp only [List.foldl_cons, ih, max_le_iff, List.forall_mem_cons]; tauto

/-- `Node::distance` without rounding is the torus distance. -/
theorem coordDistance_eq {D : Nat} (x y : Fin D → ℝ) :
    coordDistance (fun d => XR.fin (x d)) (fun d => XR.fin (y d)) = XR.fin (torusDist x y) := by
  unfold coordDistance
  have := coordDistance_fold x y (List.finRange D) 0
  simp only [XR.ofRat_eq, Rat.cast_zero] at this ⊢
  rw [this]
  congr 1
  apply eq_torusDist
  intro r
  rw [foldl_max_le]
  simp

/-! ### grid cells -/

theorem circleDist_ge {l a b : Nat} {x y : ℝ} (hxa : (a : ℝ) / 2 ^ l ≤ x) (hxa' : x ≤ ((a : ℝ) + 1) / 2 ^ l)
    (hyb : (b : ℝ) / 2 ^ l ≤ y) (hyb' : y ≤ ((b : ℝ) + 1) / 2 ^ l) :
    ((ringDist l a b : ℝ) - 1) / 2 ^ l ≤ circleDist x y := by
  have hN : (0 : ℝ) < 2 ^ l := by positivity
  rw [div_le_iff₀ hN] at hxa hyb
  rw [le_div_iff₀ hN] at hxa' hyb'
  have e : (ringDist l a b : ℝ) = min |(a : ℝ) - b| (2 ^ l - |(a : ℝ) - b|) := by
    unfold ringDist; push_cast; rfl
  rw [div_le_iff₀ hN, circleDist, e, min_mul_of_nonneg _ _ hN.le]
  have h1 : |x - y| * 2 ^ l = |x * 2 ^ l - y * 2 ^ l| := by
    rw [← sub_mul, abs_mul, abs_of_pos hN]
  have hd : |(a : ℝ) - b - (x * 2 ^ l - y * 2 ^ l)| ≤ 1 := abs_le.2 ⟨by linarith, by linarith⟩
  have h2 : |(a : ℝ) - b| - |x * 2 ^ l - y * 2 ^ l| ≤ 1 := le_trans (abs_sub_abs_le_abs_sub _ _) hd
  have h3 : |x * 2 ^ l - y * 2 ^ l| - |(a : ℝ) - b| ≤ 1 := by
    refine le_trans (abs_sub_abs_le_abs_sub _ _) ?_
    rw [abs_sub_comm]; exact hd
  refine le_min ?_ ?_
  · rw [h1]; have := min_le_left |(a : ℝ) - b| (2 ^ l - |(a : ℝ) - b|); linarith
  · rw [sub_mul, h1, one_mul]; have := min_le_right |(a : ℝ) - b| (2 ^ l - |(a : ℝ) - b|); linarith

/-- ring distance at most one means: the intervals meet, up to a multiple of the circumference -/
theorem ringDist_le_one_iff {l a b : Nat} (ha : a < 2 ^ l) (hb : b < 2 ^ l) :
    ringDist l a b ≤ 1 ↔ ∃ z : ℤ, |(a : ℤ) - b - z * 2 ^ l| ≤ 1 := by
  have ha' : (a : Int) < 2 ^ l := by exact_mod_cast ha
  have hb' : (b : Int) < 2 ^ l := by exact_mod_cast hb
  have hN : (0 : Int) < 2 ^ l := by positivity
  unfold ringDist
  constructor
  · intro h
    rcases min_le_iff.1 h with h | h
    · exact ⟨0, by simpa using h⟩
    · rcases le_total 0 ((a : ℤ) - b) with h0 | h0
      · rw [abs_of_nonneg h0] at h
        refine ⟨1, abs_le.2 ⟨by linarith, by linarith⟩⟩
      · rw [abs_of_nonpos h0] at h
        refine ⟨-1, abs_le.2 ⟨by linarith, by linarith⟩⟩
  · rintro ⟨z, hz⟩
    by_cases h0 : z = 0
    · subst h0; exact le_trans (min_le_left _ _) (by simpa using hz)
    · refine le_trans (min_le_right _ _) ?_
      have h1 : 2 ^ l ≤ |z * 2 ^ l| := by
        rw [abs_mul, abs_of_pos hN]
        have : 1 ≤ |z| := Int.one_le_abs h0
        nlinarith
      have h2 := abs_sub_abs_le_abs_sub (z * 2 ^ l) ((a : ℤ) - b)
      rw [abs_sub_comm (z * 2 ^ l)] at h2
      linarith

theorem ringDist_comm (l a b : Nat) : ringDist l a b = ringDist l b a := by
  unfold ringDist; rw [abs_sub_comm]

theorem ringDist_self (l a : Nat) : ringDist l a a ≤ 1 := by
  unfold ringDist; simp

/-- halving coordinates keeps adjacency -/
theorem ringDist_half {l a b : Nat} (ha : a < 2 ^ (l + 1)) (hb : b < 2 ^ (l + 1)) (h : ringDist (l + 1) a b ≤ 1) :
    ringDist l (a / 2) (b / 2) ≤ 1 := by
  have ha2 : a / 2 < 2 ^ l := by rw [Nat.div_lt_iff_lt_mul (by omega)]; rw [pow_succ] at ha; exact ha
  have hb2 : b / 2 < 2 ^ l := by rw [Nat.div_lt_iff_lt_mul (by omega)]; rw [pow_succ] at hb; exact hb
  rw [ringDist_le_one_iff ha hb] at h
  obtain ⟨z, hz⟩ := h
  rw [ringDist_le_one_iff ha2 hb2]
  refine ⟨z, ?_⟩
  rw [pow_succ] at hz
  have h1 := abs_le.1 hz
  have h2 : z * (2 ^ l * 2) = 2 * (z * 2 ^ l) := by ring
  rw [h2] at h1
  generalize z * 2 ^ l = t at *
  push_cast
  rw [abs_le]
  omega

end Girgs
