import Verif.Model.BmiBench
import Verif.Spec.Morton
import Mathlib.Tactic.IntervalCases
/-! The alternative deposit of the bmi-benchmarks computes the Morton code of every tuple. -/
namespace Girgs.Bits

/-- the source bit read at position `m`: the number of mask bits below `m` -/
def rank (mask : BitVec 64) (lo : Nat) : Nat → Nat
  | 0 => 0
  | n + 1 => rank mask lo n + if mask.getLsbD (lo + n) then 1 else 0

theorem rank_succ' (mask : BitVec 64) (lo : Nat) : ∀ n,
    rank mask lo (n + 1) = (if mask.getLsbD lo then 1 else 0) + rank mask (lo + 1) n := by
  intro n
  induction n generalizing lo with
  | zero => simp [rank]
  | succ n ih => rw [rank, ih, rank, show lo + (n + 1) = lo + 1 + n by omega]; omega

theorem getLsbD_pdep64Go (src mask : BitVec 64) : ∀ n m k p, m + n ≤ 64 →
    (pdep64Go src mask n m k).getLsbD p =
      (decide (m ≤ p) && decide (p < m + n) && mask.getLsbD p && src.getLsbD (k + rank mask m (p - m))) := by
  intro n
  induction n with
  | zero =>
    intro m k p h
    by_cases h1 : m ≤ p <;> by_cases h2 : p < m
    · omega
    · simp [pdep64Go, h2]
    · simp [pdep64Go, h1]
    · omega
  | succ n ih =>
    intro m k p h
    have one : (1#64 <<< m).getLsbD p = decide (p = m) := by
      rw [BitVec.getLsbD_shiftLeft]
      by_cases hp : p < 64 <;> by_cases hm : p < m <;> by_cases he : p = m <;>
        simp [hp, hm, he, BitVec.getLsbD_one] <;> omega
    by_cases hmp : p = m
    · subst hmp
      by_cases hb : mask.getLsbD p
      · by_cases hs : src.getLsbD k <;> simp [pdep64Go, hb, hs, ih _ _ _ (by omega : p + 1 + n ≤ 64), rank, one]
      · simp [pdep64Go, hb, ih _ _ _ (by omega : p + 1 + n ≤ 64)]
    · have e1 : decide (m + 1 ≤ p) = decide (m ≤ p) := by
        apply decide_eq_decide.2; omega
      have e2 : decide (p < m + 1 + n) = decide (p < m + (n + 1)) := by
        apply decide_eq_decide.2; omega
      by_cases hle : m ≤ p
      · obtain ⟨q, hq⟩ : ∃ q, p - m = q + 1 := ⟨p - m - 1, by omega⟩
        have hq' : p - (m + 1) = q := by omega
        by_cases hb : mask.getLsbD m
        · have : (if src.getLsbD k = true then 1#64 <<< m else 0).getLsbD p = false := by
            split
            · rw [one]; simp [hmp]
            · simp
          simp only [pdep64Go, hb, if_true, BitVec.getLsbD_or, this, Bool.false_or]
          rw [ih _ _ _ (by omega), e1, e2, hq', hq, rank_succ', hb, if_pos rfl, Nat.add_assoc]
        · simp only [pdep64Go, hb]
          rw [if_neg (by simp), ih _ _ _ (by omega), e1, e2, hq', hq, rank_succ', if_neg hb, Nat.zero_add]
      · have hf : decide (m ≤ p) = false := by simpa using hle
        by_cases hb : mask.getLsbD m
        · have : (if src.getLsbD k = true then 1#64 <<< m else 0).getLsbD p = false := by
            split
            · rw [one]; simp [hmp]
            · simp
          simp only [pdep64Go, hb, if_true, BitVec.getLsbD_or, this, Bool.false_or]
          rw [ih _ _ _ (by omega), e1, hf]; simp
        · simp only [pdep64Go, hb]
          rw [if_neg (by simp), ih _ _ _ (by omega), e1, hf]; simp

theorem getLsbD_pdep64 (src mask : BitVec 64) (p : Nat) (hp : p < 64) :
    (pdep64 src mask).getLsbD p = (mask.getLsbD p && src.getLsbD (rank mask 0 p)) := by
  rw [pdep64, getLsbD_pdep64Go _ _ _ _ _ _ (by omega)]
  simp [hp]

/-- the interleaving of two words -/
theorem getLsbD_implPdep2 (a b : BitVec 32) (k : Nat) (hk : k < 32) :
    (implPdep2 a b).getLsbD k = if k % 2 = 0 then a.getLsbD (k / 2) else b.getLsbD (k / 2) := by
  unfold implPdep2
  simp only [BitVec.getLsbD_setWidth, BitVec.getLsbD_or, BitVec.getLsbD_ushiftRight]
  rw [getLsbD_pdep64 _ _ k (by omega), getLsbD_pdep64 _ _ (31 + k) (by omega)]
  simp only [BitVec.getLsbD_setWidth, BitVec.getLsbD_or, BitVec.getLsbD_and, BitVec.getLsbD_shiftLeft]
  interval_cases k <;> simp [rank]

theorem getElem_implPdep2 (a b : BitVec 32) (k : Nat) (hk : k < 32) :
    (implPdep2 a b)[k] = if k % 2 = 0 then a.getLsbD (k / 2) else b.getLsbD (k / 2) := by
  rw [← BitVec.getLsbD_eq_getElem, getLsbD_implPdep2 _ _ _ hk]

theorem getLsbD_implPdep3 (a b c : BitVec 32) (k : Nat) (hk : k < 32) :
    (implPdep3 a b c).getLsbD k =
      if k % 3 = 0 then a.getLsbD (k / 3) else if k % 3 = 1 then b.getLsbD (k / 3) else c.getLsbD (k / 3) := by
  unfold implPdep3
  simp only [BitVec.getLsbD_setWidth, BitVec.getLsbD_or, BitVec.getLsbD_ushiftRight, BitVec.getLsbD_and]
  rw [getLsbD_pdep64 _ _ k (by omega), getLsbD_pdep64 _ _ (32 + k) (by omega)]
  simp only [BitVec.getLsbD_setWidth, BitVec.getLsbD_or, BitVec.getLsbD_and, BitVec.getLsbD_shiftLeft]
  interval_cases k <;> simp [rank, highbits, getElem_implPdep2]

theorem getLsbD_implPdep4 (a b c d : BitVec 32) (k : Nat) (hk : k < 32) :
    (implPdep4 a b c d).getLsbD k =
      if k % 4 = 0 then a.getLsbD (k / 4) else if k % 4 = 1 then b.getLsbD (k / 4)
      else if k % 4 = 2 then c.getLsbD (k / 4) else d.getLsbD (k / 4) := by
  unfold implPdep4
  rw [getLsbD_implPdep2 _ _ _ hk, getLsbD_implPdep2 _ _ _ (by omega), getLsbD_implPdep2 _ _ _ (by omega)]
  interval_cases k <;> simp

theorem getElem_implPdep4 (a b c d : BitVec 32) (k : Nat) (hk : k < 32) :
    (implPdep4 a b c d)[k] = if k % 4 = 0 then a.getLsbD (k / 4) else if k % 4 = 1 then b.getLsbD (k / 4)
      else if k % 4 = 2 then c.getLsbD (k / 4) else d.getLsbD (k / 4) := by
  rw [← BitVec.getLsbD_eq_getElem, getLsbD_implPdep4 _ _ _ _ _ hk]

theorem getLsbD_implPdep5 (a b c d e : BitVec 32) (k : Nat) (hk : k < 32) :
    (implPdep5 a b c d e).getLsbD k =
      if k % 5 = 0 then a.getLsbD (k / 5) else if k % 5 = 1 then b.getLsbD (k / 5)
      else if k % 5 = 2 then c.getLsbD (k / 5) else if k % 5 = 3 then d.getLsbD (k / 5) else e.getLsbD (k / 5) := by
  unfold implPdep5
  simp only [BitVec.getLsbD_setWidth, BitVec.getLsbD_or, BitVec.getLsbD_ushiftRight, BitVec.getLsbD_and]
  rw [getLsbD_pdep64 _ _ k (by omega), getLsbD_pdep64 _ _ (32 + k) (by omega)]
  simp only [BitVec.getLsbD_setWidth, BitVec.getLsbD_or, BitVec.getLsbD_and, BitVec.getLsbD_shiftLeft]
  interval_cases k <;> simp [rank, highbits, getElem_implPdep4]

open Spec in
theorem sdeposit_correct (D : Nat) (h1 : 1 ≤ D) (h5 : D ≤ 5) (c : Coords D) : IsMorton D h1 c (sdeposit D c) := by
  intro k hk
  obtain rfl | rfl | rfl | rfl | rfl : D = 1 ∨ D = 2 ∨ D = 3 ∨ D = 4 ∨ D = 5 := by omega
  · simp [sdeposit, Nat.mod_one]
  · rw [sdeposit, getLsbD_implPdep2 _ _ _ hk]
    have h := Nat.mod_lt k h1
    split
    · congr 1
      · congr 1; apply Fin.ext; simp; omega
    · congr 1
      · congr 1; apply Fin.ext; simp; omega
  · rw [sdeposit, getLsbD_implPdep3 _ _ _ _ hk]
    have h := Nat.mod_lt k h1
    split_ifs <;> (congr 1; congr 1; apply Fin.ext; simp; omega)
  · rw [sdeposit, getLsbD_implPdep4 _ _ _ _ _ hk]
    have h := Nat.mod_lt k h1
    split_ifs <;> (congr 1; congr 1; apply Fin.ext; simp; omega)
  · rw [sdeposit, getLsbD_implPdep5 _ _ _ _ _ _ hk]
    have h := Nat.mod_lt k h1
    split_ifs <;> (congr 1; congr 1; apply Fin.ext; simp; omega)

end Girgs.Bits
