import Verif.Spec.CellTree
import Verif.Model.CoordHelper
import Mathlib.Tactic.Ring
import Mathlib.Tactic.Linarith
import Mathlib.Data.Nat.Bitwise
/- Proofs about the cell numbering. -/
namespace Girgs
open Spec

theorem levelStart_zero (D : Nat) : levelStart D 0 = 0 := by simp [levelStart]

theorem levelStart_succ (D l : Nat) : levelStart D (l + 1) = levelStart D l + 2 ^ (D * l) := by
  simp [levelStart, Finset.sum_range_succ]

theorem levelStart_one (D : Nat) : levelStart D 1 = 1 := by simp [levelStart]

theorem levelStart_succ' (D l : Nat) : levelStart D (l + 1) = 1 + 2 ^ D * levelStart D l := by
  induction l with
  | zero => simp [levelStart]
  | succ l ih =>
    rw [levelStart_succ D (l + 1), levelStart_succ D l, Nat.mul_add (2 ^ D), ← pow_add, ← Nat.add_assoc, ← ih,
      levelStart_succ D l]
    congr 2; ring

theorem levelStart_mul (D l : Nat) : levelStart D l * (2 ^ D - 1) = 2 ^ (D * l) - 1 := by
  induction l with
  | zero => simp [levelStart]
  | succ l ih =>
    rw [levelStart_succ, Nat.add_mul, ih, Nat.mul_succ, pow_add]
    have h1 : 1 ≤ 2 ^ D := Nat.one_le_two_pow
    have h2 : 1 ≤ 2 ^ (D * l) := Nat.one_le_two_pow
    have h3 : 2 ^ (D * l) ≤ 2 ^ (D * l) * 2 ^ D := Nat.le_mul_of_pos_right _ (by omega)
    rw [Nat.mul_sub]
    omega

theorem levelStart_lt (D l : Nat) (hD : 1 ≤ D) : levelStart D l < 2 ^ (D * l) := by
  have h := levelStart_mul D l
  have h1 : 2 ≤ 2 ^ D := by
    calc 2 = 2 ^ 1 := rfl
      _ ≤ 2 ^ D := Nat.pow_le_pow_right (by omega) hD
  have h2 : 1 ≤ 2 ^ (D * l) := Nat.one_le_two_pow
  have h3 : levelStart D l * 1 ≤ levelStart D l * (2 ^ D - 1) := Nat.mul_le_mul_left _ (by omega)
  omega

theorem levelStart_mono (D : Nat) {l m : Nat} (h : l ≤ m) : levelStart D l ≤ levelStart D m := by
  induction m, h using Nat.le_induction with
  | base => exact le_rfl
  | succ m _ ih => rw [levelStart_succ]; exact le_trans ih (Nat.le_add_right _ _)

theorem levelStart_succ_lt (D l : Nat) (hD : 1 ≤ D) : levelStart D (l + 1) < 2 * 2 ^ (D * l) := by
  have := levelStart_lt D l hD
  rw [levelStart_succ]; omega

theorem u32_eq {x : Nat} (h : x < 2 ^ 32) : u32 x = x := Nat.mod_eq_of_lt (by omega)

theorem subU_eq {a b : Nat} (ha : a < 2 ^ 32) (hb : b ≤ a) : subU a b = a - b := by
  unfold subU
  omega

theorem two_pow_ge_two {D : Nat} (hD : 1 ≤ D) : 2 ≤ 2 ^ D := by
  calc 2 = 2 ^ 1 := rfl
    _ ≤ 2 ^ D := Nat.pow_le_pow_right (by omega) hD

theorem two_pow_le {a b : Nat} (h : a ≤ b) : 2 ^ a ≤ 2 ^ b := Nat.pow_le_pow_right (by omega) h
theorem two_pow_lt {a b : Nat} (h : a < b) : 2 ^ a < 2 ^ b := Nat.pow_lt_pow_right (by omega) h

namespace Coord

theorem numCellsInLevel_eq {D l : Nat} (h : D * l ≤ 31) : numCellsInLevel D l = some (2 ^ (D * l)) := by
  have : u32 (D * l) = D * l := u32_eq (by omega)
  simp [numCellsInLevel, shl1u, this]; omega

theorem firstCellOfLevel_eq {D l : Nat} (hD : 1 ≤ D) (hD' : D ≤ 31) (h : D * l ≤ 31) :
    firstCellOfLevel D l = some (levelStart D l) := by
  have e : u32 (D * l) = D * l := u32_eq (by omega)
  have hp : (2:Nat) ^ D < 2 ^ 32 := two_pow_lt (by omega)
  have hp' : (2:Nat) ^ (D * l) < 2 ^ 32 := two_pow_lt (by omega)
  have h1 := two_pow_ge_two hD
  have h2 : 1 ≤ 2 ^ (D * l) := Nat.one_le_two_pow
  have e1 : shl1u (u32 (D * l)) = some (2 ^ (D * l)) := by rw [e]; unfold shl1u; rw [if_pos (by omega)]
  have e2 : numChildren D = some (2 ^ D) := by unfold numChildren shl1u; rw [if_pos (by omega)]
  have h5 : 0 < 2 ^ D - 1 := by omega
  have h4 : (2 ^ (D * l) - 1) / (2 ^ D - 1) = levelStart D l := by
    rw [← levelStart_mul, Nat.mul_div_cancel _ h5]
  unfold firstCellOfLevel
  simp only [e1, e2, Option.bind_eq_bind, Option.bind_some, subU_eq hp' h2]
  rw [subU_eq hp (by omega), if_neg (by omega), h4]

theorem numChildren_eq {D : Nat} (h : D ≤ 31) : numChildren D = some (2 ^ D) := by
  simp [numChildren, shl1u]; omega

theorem firstChild_eq {D c : Nat} (hD : D ≤ 31) (h : 2 ^ D * c + 1 < 2 ^ 32) :
    firstChild D c = some (2 ^ D * c + 1) := by
  simp only [firstChild, numChildren_eq hD, Option.bind_eq_bind, Option.bind_some]
  rw [u32_eq (x := 2 ^ D * c) (by omega), u32_eq h]

theorem lastChild_eq {D c : Nat} (hD : D ≤ 31) (h : 2 ^ D * c + 2 ^ D < 2 ^ 32) :
    lastChild D c = some (2 ^ D * c + 2 ^ D) := by
  have h1 : 1 ≤ 2 ^ D := Nat.one_le_two_pow
  simp only [lastChild, firstChild_eq hD (show 2 ^ D * c + 1 < 2 ^ 32 by omega), numChildren_eq hD,
    Option.bind_eq_bind, Option.bind_some, Option.some.injEq]
  unfold subU u32
  omega

theorem parent_eq {D c : Nat} (hD : D ≤ 31) (h : c < 2 ^ 32) (h1 : 1 ≤ c) :
    parent D c = some ((c - 1) / 2 ^ D) := by
  simp only [parent, numChildren_eq hD, Option.bind_eq_bind, Option.bind_some, subU_eq h h1]

/-! ### the mask with every D-th bit set -/

theorem or_eq_add_of_lt {i a : Nat} : 2 ^ i ||| (2 ^ (i + 1) * a) = 2 ^ i + 2 ^ (i + 1) * a := by
  rw [Nat.lor_comm, ← Nat.two_pow_add_eq_or_of_lt (two_pow_lt (Nat.lt_succ_self i)), Nat.add_comm]

/-- the closed form of the mask from position `i` on -/
theorem setEveryDthBit_eq (D : Nat) (hD : 1 ≤ D) : ∀ (fuel i : Nat), 32 < fuel + i →
    Bits.setEveryDthBit D fuel i = 2 ^ i * levelStart D ((32 - i + D - 1) / D) := by
  intro fuel
  induction fuel with
  | zero =>
    intro i h
    have : (32 - i + D - 1) / D = 0 := by
      rw [Nat.div_eq_zero_iff]; omega
    simp [Bits.setEveryDthBit, this, levelStart_zero]
  | succ f ih =>
    intro i h
    by_cases hi : i < 32
    · rw [Bits.setEveryDthBit, if_pos hi, ih (i + D) (by omega)]
      have e : (32 - i + D - 1) / D = (32 - (i + D) + D - 1) / D + 1 := by
        by_cases hh : i + D ≤ 32
        · have : 32 - i + D - 1 = 32 - (i + D) + D - 1 + D := by omega
          rw [this, Nat.add_div_right _ (by omega)]
        · have h0 : (32 - (i + D) + D - 1) / D = 0 := by rw [Nat.div_eq_zero_iff]; omega
          rw [h0]
          have : 32 - i + D - 1 = (32 - i - 1) + D := by omega
          rw [this, Nat.add_div_right _ (by omega)]
          have : (32 - i - 1) / D = 0 := by rw [Nat.div_eq_zero_iff]; omega
          omega
      rw [e, levelStart_succ']
      generalize levelStart D ((32 - (i + D) + D - 1) / D) = X
      obtain ⟨k, rfl⟩ : ∃ k, D = k + 1 := ⟨D - 1, by omega⟩
      have : 2 ^ (i + (k + 1)) * X = 2 ^ (i + 1) * (2 ^ k * X) := by rw [← Nat.mul_assoc, ← pow_add]; congr 2; omega
      rw [this, or_eq_add_of_lt, Nat.mul_add, Nat.mul_one, pow_succ 2 i, pow_succ 2 k]
      ring_nf
    · rw [Bits.setEveryDthBit, if_neg hi]
      have : (32 - i + D - 1) / D = 0 := by
        rw [Nat.div_eq_zero_iff]; omega
      simp [this, levelStart_zero]

theorem kEveryDthBit_eq (D : Nat) (hD : 1 ≤ D) : Bits.kEveryDthBit D = levelStart D ((31 + D) / D) := by
  unfold Bits.kEveryDthBit
  rw [setEveryDthBit_eq D hD 33 0 (by omega)]
  have : 32 - 0 + D - 1 = 31 + D := by omega
  rw [this, pow_zero, Nat.one_mul]

theorem levelStart_mod (D : Nat) (hD : 1 ≤ D) (l m : Nat) (h : m / D + 1 ≤ l) :
    levelStart D l % 2 ^ (m + 1) = levelStart D (m / D + 1) := by
  obtain ⟨k, rfl⟩ := Nat.exists_eq_add_of_le h
  have hm : m + 1 ≤ D * (m / D + 1) := by
    have := Nat.div_add_mod m D
    have := Nat.mod_lt m (show 0 < D by omega)
    rw [Nat.mul_add, Nat.mul_one]; omega
  have hs : levelStart D (m / D + 1) < 2 ^ (m + 1) := by
    rw [levelStart_succ]
    have h1 := levelStart_lt D (m / D) hD
    have h2 : 2 ^ (D * (m / D)) ≤ 2 ^ m := two_pow_le (Nat.mul_div_le m D)
    rw [pow_succ]; omega
  have hd : ∀ k, ∃ r, levelStart D (m / D + 1 + k) = levelStart D (m / D + 1) + 2 ^ (m + 1) * r := by
    intro k
    induction k with
    | zero => exact ⟨0, by simp⟩
    | succ k ih =>
      obtain ⟨r, hr⟩ := ih
      have h1 : m + 1 ≤ D * (m / D + 1 + k) := le_trans hm (Nat.mul_le_mul_left _ (by omega))
      obtain ⟨t, ht⟩ := Nat.exists_eq_add_of_le h1
      refine ⟨r + 2 ^ t, ?_⟩
      rw [← Nat.add_assoc, levelStart_succ, hr, ht, pow_add]
      ring
  obtain ⟨r, hr⟩ := hd k
  rw [hr, Nat.add_mul_mod_self_left, Nat.mod_eq_of_lt hs]

theorem assertLower_eq {x : Nat} (h0 : x ≠ 0) (h : x < 2 ^ 32) : assertLower x = 2 ^ (Nat.log2 x + 1) - 1 := by
  have hl : Nat.log2 x < 32 := (Nat.log2_lt h0).2 h
  have : 32 - (31 - Nat.log2 x) = Nat.log2 x + 1 := by omega
  simp only [assertLower, h0, if_false, this]
  refine u32_eq ?_
  have : 2 ^ (Nat.log2 x + 1) ≤ 2 ^ 32 := two_pow_le (by omega)
  have : 1 ≤ 2 ^ (Nat.log2 x + 1) := Nat.one_le_two_pow
  omega

theorem smear_step {x y k : Nat} (h : ∀ i, y.testBit i = true ↔ ∃ j, j < k ∧ x.testBit (i + j) = true) :
    ∀ i, (y ||| y >>> k).testBit i = true ↔ ∃ j, j < 2 * k ∧ x.testBit (i + j) = true := by
  intro i
  rw [Nat.testBit_or, Bool.or_eq_true, Nat.testBit_shiftRight, h, h]
  constructor
  · rintro (⟨j, hj, h'⟩ | ⟨j, hj, h'⟩)
    · exact ⟨j, by omega, h'⟩
    · exact ⟨k + j, by omega, by rw [← h']; congr 1; omega⟩
  · rintro ⟨j, hj, h'⟩
    by_cases hjk : j < k
    · left; exact ⟨j, hjk, h'⟩
    · right; exact ⟨j - k, by omega, by rw [← h']; congr 1; omega⟩

theorem assertLowerPortable_eq {x : Nat} (hx : x < 2 ^ 32) : assertLowerPortable x = assertLower x := by
  have h0 : ∀ i, x.testBit i = true ↔ ∃ j, j < 1 ∧ x.testBit (i + j) = true := by
    intro i
    constructor
    · intro h; exact ⟨0, by omega, h⟩
    · rintro ⟨j, hj, h⟩; obtain rfl : j = 0 := by omega
      exact h
  have h := smear_step (smear_step (smear_step (smear_step (smear_step h0))))
  apply Nat.eq_of_testBit_eq
  intro i
  rw [Bool.eq_iff_iff]
  refine (h i).trans ?_
  by_cases hz : x = 0
  · subst hz; simp [assertLower]
  · rw [assertLower_eq hz hx, Nat.testBit_two_pow_sub_one, decide_eq_true_eq]
    have hl : Nat.log2 x < 32 := (Nat.log2_lt hz).2 hx
    constructor
    · rintro ⟨j, _, hj⟩
      have := Nat.ge_two_pow_of_testBit hj
      have h2 : i + j ≤ Nat.log2 x := (Nat.le_log2 hz).2 this
      omega
    · intro hi
      refine ⟨Nat.log2 x - i, by omega, ?_⟩
      have : i + (Nat.log2 x - i) = Nat.log2 x := by omega
      rw [this]
      exact Nat.testBit_log2 hz

/-- C04 core: `cellOfLevel` subtracts the id of the first cell of the level, for every 32 bit id. -/
theorem cellOfLevel_eq {D c l : Nat} (hD : 1 ≤ D) (hD' : D ≤ 31) (hc : c < 2 ^ 32) (hl : OnLevel D l c) :
    cellOfLevel D c = some (c - levelStart D l) := by
  by_cases h0 : c = 0
  · subst h0
    have hl0 : l = 0 := by
      by_contra hne
      have := levelStart_mono D (show 1 ≤ l by omega)
      rw [levelStart_one] at this
      have := hl.1; omega
    subst hl0
    simp [cellOfLevel, assertLower, levelStart_zero, subU, u32]
  · set m := Nat.log2 c with hm
    have hm32 : m < 32 := (Nat.log2_lt h0).2 hc
    have hle : 2 ^ m ≤ c := Nat.log2_self_le h0
    have hlt : c < 2 ^ (m + 1) := Nat.lt_log2_self
    set q := m / D with hq
    have hfirst : Bits.kEveryDthBit D &&& assertLower c = levelStart D (q + 1) := by
      rw [assertLower_eq h0 hc, Nat.and_two_pow_sub_one_eq_mod, kEveryDthBit_eq D hD]
      apply levelStart_mod D hD
      rw [Nat.add_div_right _ (by omega)]
      have := Nat.div_le_div_right (c := D) (show m ≤ 31 by omega)
      rw [← hm, ← hq]
      omega
    have hmq : m + 1 ≤ D * (q + 1) := by
      have := Nat.div_add_mod m D
      rw [← hq] at this
      have := Nat.mod_lt m (show 0 < D by omega)
      rw [Nat.mul_add, Nat.mul_one]; omega
    have hqm : D * q ≤ m := Nat.mul_div_le m D
    have hup : c < levelStart D (q + 2) := by
      rw [levelStart_succ]
      have : 2 ^ (m + 1) ≤ 2 ^ (D * (q + 1)) := two_pow_le hmq
      omega
    have hlow : levelStart D q ≤ c := by
      have := levelStart_lt D q hD
      have : 2 ^ (D * q) ≤ 2 ^ m := two_pow_le hqm
      omega
    have uniq : ∀ l', OnLevel D l' c → l = l' := by
      intro l' h'
      by_contra hne
      rcases Nat.lt_or_gt_of_ne hne with h | h
      · have := levelStart_mono D (show l + 1 ≤ l' by omega)
        have := hl.2; have := h'.1; omega
      · have := levelStart_mono D (show l' + 1 ≤ l by omega)
        have := hl.1; have := h'.2; omega
    unfold cellOfLevel
    simp only [hfirst]
    by_cases hcase : c < levelStart D (q + 1)
    · rw [if_pos hcase, if_pos (by omega)]
      have e : l = q := uniq q ⟨hlow, hcase⟩
      have : levelStart D (q + 1) >>> D = levelStart D q := by
        rw [Nat.shiftRight_eq_div_pow, levelStart_succ', Nat.add_mul_div_left _ _ (by positivity)]
        have : 1 / 2 ^ D = 0 := by
          rw [Nat.div_eq_zero_iff]; have := two_pow_ge_two hD; omega
        omega
      rw [this, ← e, subU_eq hc hl.1]
    · rw [if_neg hcase]
      have e : l = q + 1 := uniq (q + 1) ⟨by omega, hup⟩
      rw [← e, subU_eq hc hl.1]

end Coord
end Girgs
