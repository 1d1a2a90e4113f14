import Verif.Proofs.Torus
/- Facts about cells used by the property theorems C04-C09. -/
namespace Girgs
open Spec Coord

theorem parentN {D l x : Nat} (hx : OnLevel D (l + 1) x) :
    (x - 1) / 2 ^ D = levelStart D l + (x - levelStart D (l + 1)) / 2 ^ D := by
  have h := hx.1
  rw [levelStart_succ'] at h ⊢
  have e : x - 1 = (x - (1 + 2 ^ D * levelStart D l)) + 2 ^ D * levelStart D l := by omega
  rw [e, Nat.add_mul_div_left _ _ (by positivity)]; omega

theorem onLevel_parent {D l x : Nat} (hx : OnLevel D (l + 1) x) : OnLevel D l ((x - 1) / 2 ^ D) := by
  rw [parentN hx]
  have h := hx.local_lt
  have : (x - levelStart D (l + 1)) / 2 ^ D < 2 ^ (D * l) := by
    rw [Nat.div_lt_iff_lt_mul (by positivity), ← pow_add]
    rw [Nat.mul_succ] at h; exact h
  generalize (x - levelStart D (l + 1)) / 2 ^ D = y at this
  exact ⟨Nat.le_add_right _ _, by rw [levelStart_succ]; omega⟩

theorem onLevel_child {D l c x : Nat} (hc : OnLevel D l c) (h1 : 2 ^ D * c + 1 ≤ x) (h2 : x ≤ 2 ^ D * c + 2 ^ D) :
    OnLevel D (l + 1) x := by
  obtain ⟨ha, hb⟩ := hc
  constructor
  · rw [levelStart_succ']; have := Nat.mul_le_mul_left (2 ^ D) ha; omega
  · rw [levelStart_succ' D (l + 1)]
    have : 2 ^ D * (c + 1) ≤ 2 ^ D * levelStart D (l + 1) := Nat.mul_le_mul_left _ hb
    rw [Nat.mul_add, Nat.mul_one] at this
    omega

theorem parent_iff {D c x : Nat} (h : 1 ≤ x) : (x - 1) / 2 ^ D = c ↔ 2 ^ D * c + 1 ≤ x ∧ x ≤ 2 ^ D * c + 2 ^ D := by
  have hp : 0 < 2 ^ D := by positivity
  rw [Nat.div_eq_iff hp, Nat.mul_comm]
  constructor
  · intro ⟨a, b⟩; constructor <;> omega
  · intro ⟨a, b⟩; constructor <;> omega

theorem gridCoord_parent {D l x : Nat} (h1 : 1 ≤ D) (h5 : D ≤ 5) (hl : D * (l + 1) ≤ 31) (hx : OnLevel D (l + 1) x)
    (d : Fin D) : gridCoord D l ((x - 1) / 2 ^ D) d = gridCoord D (l + 1) x d / 2 := by
  have hl' : D * l ≤ 31 := le_trans (Nat.mul_le_mul_left _ (by omega)) hl
  rw [gridCoord_eq h1 h5 (by omega) hx.local_lt, gridCoord_eq h1 h5 (by omega) (onLevel_parent hx).local_lt, parentN hx]
  have := coordN_div h1 h5 (x := x - levelStart D (l + 1))
    (lt_of_lt_of_le hx.local_lt (two_pow_le (by omega))) 1 d
  rw [Nat.mul_one, pow_one] at this
  rw [← this, Nat.add_sub_cancel_left]

theorem onLevel_add {D l x : Nat} (hx : x < 2 ^ (D * l)) : OnLevel D l (levelStart D l + x) :=
  ⟨by omega, by rw [levelStart_succ]; omega⟩

theorem gridCoord_add {D l x : Nat} (h1 : 1 ≤ D) (h5 : D ≤ 5) (hl : D * l ≤ 32) (hx : x < 2 ^ (D * l)) (d : Fin D) :
    gridCoord D l (levelStart D l + x) d = coordN D x d := by
  rw [gridCoord_eq h1 h5 hl (onLevel_add hx).local_lt, Nat.add_sub_cancel_left]

theorem dist_eq {D l A B : Nat} (h1 : 1 ≤ D) (h5 : D ≤ 5) (hl : D * (l + 1) ≤ 31) (hA : OnLevel D l A)
    (hB : OnLevel D l B) : (Coord.dist D A B l : Option XR) = some (XR.fin (max 0
      ((((List.finRange D).foldl (fun r (d : Fin D) => max r (ringDist l (gridCoord D l A d) (gridCoord D l B d))) 0 : Int) - 1 : ℝ)
        * (1 / 2 ^ l)))) := by
  have hl30 : l ≤ 30 := by
    have := Nat.le_mul_of_pos_left (l + 1) h1
    omega
  unfold Coord.dist
  refine (obind (distInt_eq h1 h5 hl hA hB) _).trans ((obind (shl1_eq hl30) _).trans ?_)
  have : ((2 : ℝ) ^ l) ≠ 0 := by positivity
  simp [this]

theorem bounds_eq {D l A : Nat} (h1 : 1 ≤ D) (h5 : D ≤ 5) (hl : D * (l + 1) ≤ 31) (hA : OnLevel D l A) :
    (bounds D A l : Option (Fin D → XR × XR)) = some (fun d : Fin D => (XR.fin ((gridCoord D l A d : ℝ) / 2 ^ l),
      XR.fin (((gridCoord D l A d : ℝ) + 1) / 2 ^ l))) := by
  have hl30 : l ≤ 30 := by
    have := Nat.le_mul_of_pos_left (l + 1) h1
    omega
  have hl' : D * l ≤ 31 := le_trans (Nat.mul_le_mul_left _ (by omega)) hl
  obtain ⟨c, hc, hc'⟩ := coordsOf_eq h1 h5 hl' hA
  unfold bounds
  refine (obind (shl1_eq hl30) _).trans ((obind hc _).trans ?_)
  have h0 : ((2 : ℝ) ^ l) ≠ 0 := by positivity
  congr 1
  funext d
  have h2 : u32 ((c d).toNat + 1) = gridCoord D l A d + 1 := by
    rw [hc']
    apply u32_eq
    have h3 := gridCoord_lt (D := D) (l := l) (A := A) d.val
    have h4 : 2 ^ l ≤ 2 ^ 30 := two_pow_le hl30
    have h5 : (2 : Nat) ^ 30 + 1 ≤ 2 ^ 32 := by norm_num
    omega
  rw [h2, hc']
  simp [h0, div_eq_mul_inv]

theorem tupleM_some {α : Type} {D : Nat} {f : Fin D → Option α} {g : Fin D → α} (h : ∀ d, f d = some (g d)) :
    tupleM D f = some g := by
  unfold tupleM
  have : ∀ d, (f d).isSome := fun d => by rw [h d]; rfl
  rw [dif_pos this]
  congr 1; funext d
  apply Option.get_of_eq_some
  exact h d

/-- the grid coordinate of a real number on level `l` -/
noncomputable def gridOf (l : Nat) (x : ℝ) : Nat := ⌊x * 2 ^ l⌋.toNat

theorem gridOf_lt {l : Nat} {x : ℝ} (h0 : 0 ≤ x) (h1 : x < 1) : gridOf l x < 2 ^ l := by
  unfold gridOf
  have hN : (0 : ℝ) < 2 ^ l := by positivity
  have h : ⌊x * 2 ^ l⌋ < 2 ^ l := by
    rw [Int.floor_lt]; push_cast; nlinarith
  have h' : 0 ≤ ⌊x * 2 ^ l⌋ := Int.floor_nonneg.2 (by positivity)
  have := (Int.toNat_lt h').2 (by push_cast; exact h : ⌊x * 2 ^ l⌋ < ((2 ^ l : ℕ) : ℤ))
  exact this

theorem gridOf_spec {l : Nat} {x : ℝ} (h0 : 0 ≤ x) (a : Nat) :
    gridOf l x = a ↔ (a : ℝ) / 2 ^ l ≤ x ∧ x < ((a : ℝ) + 1) / 2 ^ l := by
  have hN : (0 : ℝ) < 2 ^ l := by positivity
  unfold gridOf
  have h' : 0 ≤ ⌊x * 2 ^ l⌋ := Int.floor_nonneg.2 (by positivity)
  rw [div_le_iff₀ hN, lt_div_iff₀ hN]
  have : ⌊x * 2 ^ l⌋.toNat = a ↔ ⌊x * 2 ^ l⌋ = (a : ℤ) := by omega
  rw [this, Int.floor_eq_iff]; simp

theorem gridOf_succ {l : Nat} {x : ℝ} (h0 : 0 ≤ x) : gridOf (l + 1) x / 2 = gridOf l x := by
  symm
  rw [gridOf_spec h0]
  have h := (gridOf_spec h0 (l := l + 1) (gridOf (l + 1) x)).1 rfl
  set g := gridOf (l + 1) x
  have hN : (0 : ℝ) < 2 ^ l := by positivity
  rw [pow_succ] at h
  obtain ⟨ha, hb⟩ := h
  rw [div_le_iff₀ (by positivity)] at ha
  rw [lt_div_iff₀ (by positivity)] at hb
  rw [div_le_iff₀ hN, lt_div_iff₀ hN]
  have e1 : (2 * (g / 2 : ℕ) : ℝ) ≤ g := by exact_mod_cast (Nat.mul_div_le g 2)
  have e2 : (g : ℝ) + 1 ≤ 2 * (g / 2 : ℕ) + 2 := by
    have : g + 1 ≤ 2 * (g / 2) + 2 := by omega
    exact_mod_cast this
  constructor <;> linarith

/-- the level-local cell of a point, as computed by `cellForPoint` without rounding -/
noncomputable def cellR (D l : Nat) (p : Fin D → ℝ) : Nat :=
  (Bits.deposit D (fun d => BitVec.ofNat 32 (gridOf l (p d)))).toNat

theorem cellForPoint_eq {D l : Nat} (hl : l ≤ 30) (p : Fin D → ℝ) (hp : ∀ d, 0 ≤ p d ∧ p d < 1) :
    cellForPoint D (fun d => XR.fin (p d)) l = some (cellR D l p) := by
  unfold cellForPoint
  refine (obind (shl1_eq hl) _).trans ?_
  have hN : (0 : ℝ) < 2 ^ l := by positivity
  have hN' : (2 : ℝ) ^ l ≤ 2 ^ 30 := pow_le_pow_right₀ (by norm_num) hl
  have h : ∀ d, CFloat.toU32 (XR.fin (p d) *. CFloat.ofInt (2 ^ l : Int)) = some (gridOf l (p d)) := by
    intro d
    obtain ⟨h0, h1⟩ := hp d
    simp only [XR.ofInt_eq, XR.mul_fin]
    rw [XR.toU32_fin _ (by positivity)]
    · simp [gridOf]
    · push_cast
      have h2 : p d * 2 ^ l ≤ 1 * 2 ^ 30 := by
        apply mul_le_mul h1.le hN' hN.le (by norm_num)
      have h3 : (1 : ℝ) * 2 ^ 30 < 2 ^ 32 := by norm_num
      linarith
  refine (obind (tupleM_some h) _).trans ?_
  rfl

theorem cellR_lt {D l : Nat} (h1 : 1 ≤ D) (h5 : D ≤ 5) (hl : D * l ≤ 32) (p : Fin D → ℝ) (hp : ∀ d, 0 ≤ p d ∧ p d < 1) :
    cellR D l p < 2 ^ (D * l) :=
  deposit_lt h1 h5 hl (fun d => gridOf_lt (hp d).1 (hp d).2)

theorem coordN_cellR {D l : Nat} (h1 : 1 ≤ D) (h5 : D ≤ 5) (hl : D * l ≤ 32) (p : Fin D → ℝ)
    (hp : ∀ d, 0 ≤ p d ∧ p d < 1) (d : Fin D) : coordN D (cellR D l p) d = gridOf l (p d) :=
  coordN_deposit h1 h5 hl (fun d => gridOf_lt (hp d).1 (hp d).2) d

theorem cellR_unique {D l x : Nat} (h1 : 1 ≤ D) (h5 : D ≤ 5) (hl : D * l ≤ 32) (p : Fin D → ℝ)
    (hp : ∀ d, 0 ≤ p d ∧ p d < 1) (hx : x < 2 ^ (D * l)) :
    x = cellR D l p ↔ InBox D l (levelStart D l + x) p := by
  constructor
  · rintro rfl d
    rw [gridCoord_add h1 h5 hl hx, coordN_cellR h1 h5 hl p hp]
    exact (gridOf_spec (hp d).1 _).1 rfl
  · intro h
    have hb : 2 ^ (D * l) ≤ 2 ^ 32 := two_pow_le hl
    apply coordN_inj h1 h5 (lt_of_lt_of_le hx hb) (lt_of_lt_of_le (cellR_lt h1 h5 hl p hp) hb)
    intro d
    rw [coordN_cellR h1 h5 hl p hp, ← gridCoord_add h1 h5 hl hx d]
    exact ((gridOf_spec (hp d).1 _).2 (h d)).symm

theorem cellR_parent {D l : Nat} (h1 : 1 ≤ D) (h5 : D ≤ 5) (hl : D * (l + 1) ≤ 32) (p : Fin D → ℝ)
    (hp : ∀ d, 0 ≤ p d ∧ p d < 1) : cellR D (l + 1) p / 2 ^ D = cellR D l p := by
  have hl' : D * l ≤ 32 := le_trans (Nat.mul_le_mul_left _ (by omega)) hl
  have hb : 2 ^ (D * l) ≤ 2 ^ 32 := two_pow_le hl'
  have hb' : 2 ^ (D * (l + 1)) ≤ 2 ^ 32 := two_pow_le hl
  have hlt := lt_of_lt_of_le (cellR_lt h1 h5 hl p hp) hb'
  apply coordN_inj h1 h5 (lt_of_le_of_lt (Nat.div_le_self _ _) hlt) (lt_of_lt_of_le (cellR_lt h1 h5 hl' p hp) hb)
  intro d
  have := coordN_div h1 h5 hlt 1 d
  rw [Nat.mul_one, pow_one] at this
  rw [this, coordN_cellR h1 h5 hl p hp, coordN_cellR h1 h5 hl' p hp, gridOf_succ (hp d).1]

theorem powHelper_fin (D : Nat) (x : ℝ) : powHelper D (XR.fin x) = XR.fin (x ^ D) := by
  induction D using Nat.strongRecOn with
  | ind D ih =>
    unfold powHelper
    by_cases h0 : D = 0
    · simp [h0]
    · by_cases h1 : D = 1
      · simp [h1]
      · by_cases h2 : D = 2
        · simp [h2]; ring
        · simp only [h0, h1, h2, if_false, dif_neg, not_false_eq_true]
          rw [ih (D / 2) (by omega), ih ((D + 1) / 2) (by omega), XR.mul_fin, ← pow_add]
          congr 2; omega

end Girgs
