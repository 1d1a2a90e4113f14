import Verif.Model.BitManipulation
/-
Specification of Morton codes: pure bit interleaving, independent of the implementation.
-/
namespace Girgs.Spec

/-- `cell` is the Morton code of `coords`: bit `k` of the 32 bit word is bit `k / D` of coordinate `k % D`. -/
def IsMorton (D : Nat) (hD : 0 < D) (coords : Coords D) (cell : BitVec 32) : Prop :=
  ∀ k, k < 32 → cell.getLsbD k = (coords ⟨k % D, Nat.mod_lt _ hD⟩).getLsbD (k / D)

/-- `coords` are the coordinates interleaved in `cell`: bit `k` of coordinate `d` is bit `D*k+d` of the word (and 0 if
there is no such bit). -/
def IsDeinterleaved (D : Nat) (cell : BitVec 32) (coords : Coords D) : Prop :=
  ∀ (d : Fin D) (k : Nat), (coords d).getLsbD k = (decide (D * k + d.val < 32) && cell.getLsbD (D * k + d.val))

/-- The coordinate ranges the portable implementation documents by its assertions
(BitManipulationGeneric.inl:135, 154-156, 183); for `D = 5` the primary template encodes the same number of bits,
`32 / D`, of each coordinate (lines 119-121). -/
def DocRange : (D : Nat) → Coords D → Prop
  | 1, _ => True
  | 2, c => ∀ d, (c d).toNat ≤ 0xffff
  | 3, c => (c 0).toNat ≤ 0x7ff ∧ (c 1).toNat ≤ 0x7ff ∧ (c 2).toNat ≤ 0x3ff
  | 4, c => ∀ d, (c d).toNat ≤ 0xff
  | D, c => ∀ d, (c d).toNat < 2 ^ (32 / D)

end Girgs.Spec
