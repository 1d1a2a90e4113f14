import Verif.Props.Morton
import Verif.Proofs.CellTree
import Verif.Spec.Torus
/- Morton codes as natural numbers. -/
namespace Girgs
open Spec Bits

/-- coordinate `d` of the level-local index `x` as a number -/
def coordN (D x : Nat) (d : Fin D) : Nat := (extract D (BitVec.ofNat 32 x) d).toNat

section
variable {D : Nat} (h1 : 1 ≤ D) (h5 : D ≤ 5)
include h1 h5

theorem coordN_testBit {x : Nat} (hx : x < 2 ^ 32) (d : Fin D) (k : Nat) :
    (coordN D x d).testBit k = x.testBit (D * k + d) := by
  unfold coordN
  rw [BitVec.testBit_toNat, extract_correct D h1 h5]
  by_cases h : D * k + d.val < 32
  · simp only [h, decide_true, Bool.true_and]
    rw [← BitVec.testBit_toNat, BitVec.toNat_ofNat, Nat.mod_eq_of_lt hx]
  · have : x.testBit (D * k + d) = false :=
      Nat.testBit_lt_two_pow (lt_of_lt_of_le hx (two_pow_le (by omega)))
    simp [h, this]

theorem coordN_lt {x l : Nat} (hx : x < 2 ^ (D * l)) (hl : D * l ≤ 32) (d : Fin D) : coordN D x d < 2 ^ l := by
  have hx32 : x < 2 ^ 32 := lt_of_lt_of_le hx (two_pow_le hl)
  apply Nat.lt_pow_two_of_testBit
  intro i hi
  rw [coordN_testBit h1 h5 hx32]
  apply Nat.testBit_lt_two_pow
  refine lt_of_lt_of_le hx (two_pow_le ?_)
  have := Nat.mul_le_mul_left D hi
  omega

theorem coordN_div {x : Nat} (hx : x < 2 ^ 32) (m : Nat) (d : Fin D) :
    coordN D (x / 2 ^ (D * m)) d = coordN D x d / 2 ^ m := by
  apply Nat.eq_of_testBit_eq
  intro i
  rw [coordN_testBit h1 h5 (lt_of_le_of_lt (Nat.div_le_self _ _) hx), Nat.testBit_div_two_pow, Nat.testBit_div_two_pow,
    coordN_testBit h1 h5 hx]
  congr 1; ring

theorem coordN_inj {x y : Nat} (hx : x < 2 ^ 32) (hy : y < 2 ^ 32) (h : ∀ d, coordN D x d = coordN D y d) : x = y := by
  apply Nat.eq_of_testBit_eq
  intro i
  have := h ⟨i % D, Nat.mod_lt _ h1⟩
  have h2 := congrArg (fun t => t.testBit (i / D)) this
  simp only [coordN_testBit h1 h5 hx, coordN_testBit h1 h5 hy, Nat.div_add_mod] at h2
  exact h2

theorem docRange_of_lt {c : Fin D → Nat} {l : Nat} (hl : D * l ≤ 32) (hc : ∀ d, c d < 2 ^ l) :
    DocRange D (fun d => BitVec.ofNat 32 (c d)) := by
  have hl' : l ≤ 32 / D := by rw [Nat.le_div_iff_mul_le h1, Nat.mul_comm]; exact hl
  have key : ∀ d, (BitVec.ofNat 32 (c d)).toNat < 2 ^ (32 / D) := by
    intro d
    rw [BitVec.toNat_ofNat]
    exact lt_of_le_of_lt (Nat.mod_le _ _) (lt_of_lt_of_le (hc d) (two_pow_le hl'))
  obtain rfl | rfl | rfl | rfl | rfl : D = 1 ∨ D = 2 ∨ D = 3 ∨ D = 4 ∨ D = 5 := by omega
  · trivial
  · intro d; have := key d; rw [show 2 ^ (32 / 2) = 65536 by norm_num] at this; simp only []; omega
  · have a := key 0; have b := key 1; have c := key 2
    norm_num at a b c
    exact ⟨by simp only []; simp; omega, by simp only []; simp; omega, by simp only []; simp; omega⟩
  · intro d; have := key d; rw [show 2 ^ (32 / 4) = 256 by norm_num] at this; simp only []; omega
  · exact key

theorem coordN_deposit {c : Fin D → Nat} {l : Nat} (hl : D * l ≤ 32) (hc : ∀ d, c d < 2 ^ l) (d : Fin D) :
    coordN D (deposit D (fun d => BitVec.ofNat 32 (c d))).toNat d = c d := by
  unfold coordN
  rw [BitVec.ofNat_toNat, BitVec.setWidth_eq, Props.C02_extract_deposit D h1 h5 _ (docRange_of_lt h1 h5 hl hc),
    BitVec.toNat_ofNat]
  apply Nat.mod_eq_of_lt
  refine lt_of_lt_of_le (hc d) (two_pow_le ?_)
  calc l ≤ D * l := Nat.le_mul_of_pos_left _ h1
    _ ≤ 32 := hl

theorem deposit_lt {c : Fin D → Nat} {l : Nat} (hl : D * l ≤ 32) (hc : ∀ d, c d < 2 ^ l) :
    (deposit D (fun d => BitVec.ofNat 32 (c d))).toNat < 2 ^ (D * l) := by
  apply Nat.lt_pow_two_of_testBit
  intro i hi
  by_cases h32 : i < 32
  · rw [BitVec.testBit_toNat, deposit_correct D h1 h5 _ (docRange_of_lt h1 h5 hl hc) i h32, ← BitVec.testBit_toNat,
      BitVec.toNat_ofNat]
    apply Nat.testBit_lt_two_pow
    refine lt_of_le_of_lt (Nat.mod_le _ _) (lt_of_lt_of_le (hc _) (two_pow_le ?_))
    rw [Nat.le_div_iff_mul_le h1, Nat.mul_comm]; exact hi
  · exact Nat.testBit_lt_two_pow (lt_of_lt_of_le (BitVec.isLt _) (two_pow_le (by omega)))

end

/-! ### the specification's grid coordinate -/

theorem sum_bits (l : Nat) (f : Nat → Bool) (k : Nat) :
    (∑ i ∈ Finset.range l, if f i then 2 ^ i else 0) < 2 ^ l ∧
    (∑ i ∈ Finset.range l, if f i then 2 ^ i else 0).testBit k = (decide (k < l) && f k) := by
  induction l with
  | zero => simp
  | succ l ih =>
    rw [Finset.sum_range_succ]
    set S := ∑ i ∈ Finset.range l, if f i then 2 ^ i else 0
    by_cases hf : f l
    · simp only [hf, if_true]
      refine ⟨by rw [pow_succ]; omega, ?_⟩
      rw [Nat.add_comm, ]
      by_cases hk : k = l
      · subst hk
        rw [Nat.testBit_two_pow_add_eq, Nat.testBit_lt_two_pow ih.1]; simp [hf]
      · rcases Nat.lt_or_gt_of_ne hk with h | h
        · rw [Nat.testBit_two_pow_add_gt h, ih.2]; simp [h, Nat.lt_succ_of_lt h]
        · have : 2 ^ l + S < 2 ^ k := lt_of_lt_of_le (by rw [pow_succ]; omega) (two_pow_le (show l + 1 ≤ k by omega))
          rw [Nat.testBit_lt_two_pow this]
          have : ¬ k < l + 1 := by omega
          simp [this]
    · simp only [hf, Bool.false_eq_true, if_false, Nat.add_zero]
      refine ⟨lt_trans ih.1 (two_pow_lt (by omega)), ?_⟩
      rw [ih.2]
      by_cases hk : k = l
      · subst hk; simp [hf]
      · have : (k < l) = (k < l + 1) := by simp; omega
        simp only [this]

theorem gridCoord_eq {D l A : Nat} (h1 : 1 ≤ D) (h5 : D ≤ 5) (hl : D * l ≤ 32)
    (hx : A - levelStart D l < 2 ^ (D * l)) (d : Fin D) :
    gridCoord D l A d = coordN D (A - levelStart D l) d := by
  apply Nat.eq_of_testBit_eq
  intro k
  unfold gridCoord
  rw [(sum_bits l (fun k => (A - levelStart D l).testBit (D * k + d)) k).2,
    coordN_testBit h1 h5 (lt_of_lt_of_le hx (two_pow_le hl))]
  by_cases hk : k < l
  · simp [hk]
  · have : (A - levelStart D l).testBit (D * k + d) = false := by
      apply Nat.testBit_lt_two_pow
      refine lt_of_lt_of_le hx (two_pow_le ?_)
      have := Nat.mul_le_mul_left D (show l ≤ k by omega)
      omega
    simp [this]

theorem Spec.OnLevel.local_lt {D l A : Nat} (h : OnLevel D l A) : A - levelStart D l < 2 ^ (D * l) := by
  have h1 := h.1; have h2 := h.2
  rw [levelStart_succ] at h2
  omega

theorem gridCoord_lt {D l A : Nat} (d : Nat) : gridCoord D l A d < 2 ^ l :=
  (sum_bits l (fun k => (A - levelStart D l).testBit (D * k + d)) 0).1

end Girgs
