import Verif.Proofs.BmiBench
import Verif.Proofs.Morton2
import Mathlib.Data.Fin.VecNotation
/-! Property C81: the alternative deposit of the bmi-benchmarks. -/
namespace Girgs.Props
open Bits Spec

/-- C81: for every tuple of 32 bit words, in or out of the documented range, the benchmarked alternative `SDeposit<D>`
computes the Morton code: bit `k` of the result is bit `k / D` of coordinate `k % D`. -/
theorem C81_sdeposit (D : Nat) (h1 : 1 ≤ D) (h5 : D ≤ 5) (c : Coords D) : IsMorton D h1 c (sdeposit D c) :=
  sdeposit_correct D h1 h5 c

theorem morton_of_table_all {D : Nat} (hD : 0 < D) (F : Coords D → BitVec 32) (hl : OrLin F)
    (ht : ∀ (d : Fin D) (b k : Fin 32), (F (single D d b)).getLsbD k = decide (k.val = D * b + d))
    (c : Coords D) : IsMorton D hD c (F c) := by
  intro k hk
  rw [Bool.eq_iff_iff, hl.bit]
  constructor
  · rintro ⟨d, b, h1, h2⟩
    rw [ht d b ⟨k, hk⟩] at h2
    simp only [decide_eq_true_eq] at h2
    have hd : k % D = d := by
      rw [h2, Nat.mul_add_mod, Nat.mod_eq_of_lt d.isLt]
    have hq : k / D = b := by
      rw [h2, Nat.mul_add_div hD, Nat.div_eq_of_lt d.isLt, Nat.add_zero]
    have : (⟨k % D, Nat.mod_lt _ hD⟩ : Fin D) = d := Fin.ext hd
    rw [this, hq]; exact h1
  · intro h
    have hlt : k / D < 32 := lt_of_le_of_lt (Nat.div_le_self _ _) hk
    refine ⟨_, ⟨k / D, hlt⟩, h, ?_⟩
    rw [ht _ _ ⟨k, hk⟩]
    simp [Nat.div_add_mod]

/-- C81: the deposit of the BMI2 build of the library also computes the Morton code of every tuple, in or out of the
documented range (C03 compares the two builds of the library in the range only). -/
theorem C81_bmi2 (D : Nat) (h1 : 1 ≤ D) (h5 : D ≤ 5) (c : Coords D) : IsMorton D h1 c (depositBMI2 D c) := by
  refine morton_of_table_all h1 (depositBMI2 D) (orlin_depositBMI2 D) ?_ c
  interval_cases D <;> decide +kernel

/-- C81: the benchmark compares functions that agree: the alternative deposit and the one of the BMI2 build on every
input, the portable one on every input in its documented range. -/
theorem C81_agree (D : Nat) (h1 : 1 ≤ D) (h5 : D ≤ 5) (c : Coords D) :
    sdeposit D c = depositBMI2 D c ∧ (DocRange D c → sdeposit D c = deposit D c) :=
  ⟨IsMorton.unique (C81_sdeposit D h1 h5 c) (C81_bmi2 D h1 h5 c),
   fun h => IsMorton.unique (C81_sdeposit D h1 h5 c) (deposit_correct D h1 h5 c h)⟩

/-- The inputs the benchmark draws are uniform 32 bit words, hence mostly out of range: there the portable build may
compute something else in every dimension from 2 to 5, so the benchmarked functions are not interchangeable. -/
theorem C81_out_of_range (D : Nat) (h2 : 2 ≤ D) (h5 : D ≤ 5) : ∃ c : Coords D, sdeposit D c ≠ deposit D c := by
  obtain rfl | rfl | rfl | rfl : D = 2 ∨ D = 3 ∨ D = 4 ∨ D = 5 := by omega
  · exact ⟨![0, 0x10000#32], by decide +kernel⟩
  · exact ⟨![0x1000000#32, 0, 0], by decide +kernel⟩
  · exact ⟨![0x10000#32, 0, 0, 0], by decide +kernel⟩
  · exact ⟨![0x40#32, 0, 0, 0, 0], by decide +kernel⟩

/-- non-vacuity: a tuple with bits out of range in three dimensions -/
example : sdeposit 3 ![0xffffffff#32, 0#32, 0x80000001#32] = 0x4924924d#32 := by decide +kernel

end Girgs.Props
