import Verif.Proofs.Morton2
import Mathlib.Data.Fin.VecNotation
/-! Properties C01, C02, C03: Morton codes. -/
namespace Girgs.Props
open Bits Spec

/-- C01 (deposit): for every coordinate tuple in the documented range, `deposit` is the Morton code: every bit `k` of
the 32 bit result is bit `k / D` of coordinate `k % D`. -/
theorem C01_deposit_is_interleaving (D : Nat) (h1 : 1 ≤ D) (h5 : D ≤ 5) (c : Coords D) (hc : DocRange D c) :
    IsMorton D h1 c (deposit D c) := deposit_correct D h1 h5 c hc

/-- C01 (extract): for every 32 bit cell, bit `k` of coordinate `d` of `extract` is bit `D*k+d` of the cell. -/
theorem C01_extract_is_deinterleaving (D : Nat) (h1 : 1 ≤ D) (h5 : D ≤ 5) (cell : BitVec 32) :
    IsDeinterleaved D cell (extract D cell) := extract_correct D h1 h5 cell

/-- non-vacuity: an in-range tuple and its Morton code -/
example : DocRange 3 ![0x7ff#32, 0#32, 1#32] ∧ deposit 3 ![0x7ff#32, 0#32, 1#32] = 0x4924924d#32 ∧
    ∀ d, extract 3 0x4924924d#32 d = (![0x7ff#32, 0#32, 1#32] : Coords 3) d := by
  refine ⟨by simp [DocRange], ?_, ?_⟩ <;> decide +kernel

/-- C02: `extract` inverts `deposit` on every in-range tuple. -/
theorem C02_extract_deposit (D : Nat) (h1 : 1 ≤ D) (h5 : D ≤ 5) (c : Coords D) (hc : DocRange D c) :
    extract D (deposit D c) = c := by
  funext d
  apply BitVec.eq_of_getLsbD_eq
  intro k hk
  rw [extract_correct D h1 h5 _ d k]
  by_cases h : D * k + d.val < 32
  · have e1 : (D * k + d.val) % D = d := by rw [Nat.mul_add_mod, Nat.mod_eq_of_lt d.isLt]
    have e2 : (D * k + d.val) / D = k := by rw [Nat.mul_add_div h1, Nat.div_eq_of_lt d.isLt, Nat.add_zero]
    rw [deposit_correct D h1 h5 c hc _ h]
    have : (⟨(D * k + d.val) % D, Nat.mod_lt _ h1⟩ : Fin D) = d := Fin.ext e1
    rw [this, e2]; simp [h]
  · have hr := DocRange.lt h1 h5 hc d
    have hk' : rangeBits D d ≤ k := by
      unfold rangeBits
      have := d.isLt
      interval_cases D <;> simp at h ⊢ <;> (try split) <;> omega
    have h3 : (c d).toNat.testBit k = false :=
      Nat.testBit_lt_two_pow (lt_of_lt_of_le hr (Nat.pow_le_pow_right (by omega) hk'))
    rw [BitVec.testBit_toNat] at h3
    simp [h, h3]

/-- the coordinates of a cell below `2^(D*⌊32/D⌋)` are in the documented range -/
theorem extract_docRange (D : Nat) (h1 : 1 ≤ D) (h5 : D ≤ 5) (x : BitVec 32) (hx : x.toNat < 2 ^ (D * (32 / D))) :
    DocRange D (extract D x) := by
  have key : ∀ d, (extract D x d).toNat < 2 ^ (32 / D) := by
    intro d
    apply Nat.lt_pow_two_of_testBit
    intro i hi
    rw [BitVec.testBit_toNat, extract_correct D h1 h5 x d i]
    have : x.getLsbD (D * i + d) = false := by
      rw [← BitVec.testBit_toNat]
      apply Nat.testBit_lt_two_pow
      refine lt_of_lt_of_le hx (Nat.pow_le_pow_right (by omega) ?_)
      have := Nat.mul_le_mul_left D hi
      omega
    simp [this]
  obtain rfl | rfl | rfl | rfl | rfl : D = 1 ∨ D = 2 ∨ D = 3 ∨ D = 4 ∨ D = 5 := by omega
  · trivial
  · intro d; have := key d; norm_num at this; omega
  · have a := key 0; have b := key 1; have c := key 2
    norm_num at a b c
    exact ⟨by omega, by omega, by omega⟩
  · intro d; have := key d; norm_num at this; omega
  · exact key

/-- C02: `deposit` inverts `extract` on every representable cell, i.e. below `2^(D*⌊32/D⌋)`. -/
theorem C02_deposit_extract (D : Nat) (h1 : 1 ≤ D) (h5 : D ≤ 5) (x : BitVec 32) (hx : x.toNat < 2 ^ (D * (32 / D))) :
    deposit D (extract D x) = x := by
  apply BitVec.eq_of_getLsbD_eq
  intro k hk
  rw [deposit_correct D h1 h5 _ (extract_docRange D h1 h5 x hx) k hk, extract_correct D h1 h5]
  simp [Nat.div_add_mod, hk]

/-- non-vacuity: a full-width 30 bit cell in five dimensions -/
example : (0x3fffffff#32).toNat < 2 ^ (5 * (32 / 5)) := by decide

/-- C03: the BMI2 build computes the same codes as the portable build, on every in-range tuple and on every cell. -/
theorem C03_bmi2_agrees (D : Nat) (h1 : 1 ≤ D) (h5 : D ≤ 5) :
    (∀ c : Coords D, DocRange D c → depositBMI2 D c = deposit D c) ∧
    (∀ cell : BitVec 32, extractBMI2 D cell = extract D cell) :=
  ⟨fun c hc => IsMorton.unique (depositBMI2_correct D h1 h5 c hc) (deposit_correct D h1 h5 c hc),
   fun cell => IsDeinterleaved.unique (extractBMI2_correct D h1 h5 cell) (extract_correct D h1 h5 cell)⟩

/-- Outside the documented range the two builds do differ (so the range hypothesis of C03 is needed): in dimension 5
the portable loop ignores bit 6 of a coordinate, `pdep` does not. -/
theorem C03_range_needed : ∃ c : Coords 5, depositBMI2 5 c ≠ deposit 5 c :=
  ⟨![0x40#32, 0, 0, 0, 0], by decide +kernel⟩

end Girgs.Props
