/-
Model of source/girgs/include/girgs/BitManipulation.h, BitManipulationGeneric.inl and BitManipulationBMI2.inl.

`std::array<uint32_t, D>` is `Fin D → BitVec 32`.  Template recursion is modelled by recursion with a fuel argument
that exceeds the number of instantiations (the recursion stops by its own condition, not by the fuel; the fuel only
makes the Lean definitions structurally recursive).
-/
namespace Girgs

/-- `std::array<uint32_t, D>` -/
abbrev Coords (D : Nat) := Fin D → BitVec 32

namespace Bits

/-- `BitPattern<D,T>::setEveryDthBit(i)`, BitManipulation.h:9-11.  `(i < 32) ? (1llu << i) | setEveryDthBit(i+D) : 0`,
for `T = uint32_t`; fuel 33 suffices for `D ≥ 1`. -/
def setEveryDthBit (D : Nat) : Nat → Nat → Nat
  | 0, _ => 0
  | fuel + 1, i => if i < 32 then 2 ^ i ||| setEveryDthBit D fuel (i + D) else 0

/-- `BitPattern<D>::kEveryDthBit`, BitManipulation.h:14. -/
def kEveryDthBit (D : Nat) : Nat := setEveryDthBit D 33 0

/-- `ExtractionHelper::nBits`, BitManipulationGeneric.inl:21-23. -/
def nBits (n : Nat) : BitVec 32 := if n = 0 then 0 else (1#32 <<< n) - 1

/-- `ExtractionHelper<Bits,Space,Block>::compile_pattern(i,b)`, BitManipulationGeneric.inl:25-30. -/
def compilePattern (space block : Nat) : Nat → Nat → Nat → BitVec 32
  | 0, _, _ => 0
  | fuel + 1, i, b =>
    if i > 31 then 0
    else (if b ≠ 0 then nBits (if b < block then b else block) <<< i else 0)
      ||| compilePattern space block fuel (i + block + space) (if b > block then b - block else 0)

/-- `kPattern32`, BitManipulationGeneric.inl:33. -/
def kPattern32 (bits space block : Nat) : BitVec 32 := compilePattern space block 33 0 bits

/-- `kPattern64`, BitManipulationGeneric.inl:34. -/
def kPattern64 (bits space block : Nat) : BitVec 64 :=
  ((kPattern32 bits space block).zeroExtend 64 <<< 32) ||| (kPattern32 bits space block).zeroExtend 64

/-- `ExtractionHelper<Bits,Space,Block>::shift` and `recurse`, BitManipulationGeneric.inl:36-57, for the word type with
`w` bits and the pattern of that word type: mask, stop if `Block >= Bits`, else `x | (x >> Space)` and double. -/
def shift {w : Nat} (pat : Nat → Nat → BitVec w) (bits : Nat) : Nat → Nat → Nat → BitVec w → BitVec w
  | 0, _, _, x => x
  | fuel + 1, space, block, x =>
    let y := x &&& pat space block
    if block ≥ bits then y
    else shift pat bits fuel (2 * space) (2 * block) (y ||| (y >>> space))

/-- `Extractor::shift` on 32 bit words with `Extractor = ExtractionHelper<(32+D-1)/D, D-1, 1>`,
BitManipulationGeneric.inl:80.  (`Block` doubles from 1 and stops at `>= Bits <= 32`: at most 6 instantiations.) -/
def extractor32 (D : Nat) (x : BitVec 32) : BitVec 32 :=
  shift (kPattern32 ((32 + D - 1) / D)) ((32 + D - 1) / D) 7 (D - 1) 1 x

/-- `Extractor::shift` on 64 bit words. -/
def extractor64 (D : Nat) (x : BitVec 64) : BitVec 64 :=
  shift (kPattern64 ((32 + D - 1) / D)) ((32 + D - 1) / D) 7 (D - 1) 1 x

/-- `Extract<D>::extract`, BitManipulationGeneric.inl:75-98, and the specialisation `Extract<1>`, lines 100-107.
For even `D` the loop handles coordinates `i, i+1` (`i` even) together in one 64 bit word. -/
def extract (D : Nat) (cell : BitVec 32) : Coords D := fun d =>
  if D = 1 then cell
  else if D % 2 = 1 then extractor32 D (cell >>> d.val)
  else
    let i := d.val / 2 * 2
    let twoWords : BitVec 64 := (cell >>> i).zeroExtend 64 ||| ((cell >>> (i + 1)).zeroExtend 64 <<< 32)
    let shifted := extractor64 D twoWords
    if d.val % 2 = 0 then (shifted &&& 0xffffffff#64).setWidth 32 else (shifted >>> 32).setWidth 32

/-- Inner loop of the generic `Deposit<D>::deposit`, BitManipulationGeneric.inl:122-124; state `(result, bit)`. -/
def depositInner {D : Nat} (coords : Coords D) (l : Nat) (s : BitVec 32 × Nat) : BitVec 32 × Nat :=
  (List.finRange D).foldl (fun s d => (s.1 ||| (((coords d >>> l) &&& 1#32) <<< s.2), s.2 + 1)) s

/-- Outer loop of the generic `Deposit<D>::deposit`, BitManipulationGeneric.inl:121: runs while `(l+1)*D <= 32`,
i.e. for `l = 0 .. 32/D - 1`. -/
def depositLoop {D : Nat} (coords : Coords D) : BitVec 32 :=
  ((List.range (32 / D)).foldl (fun s l => depositInner coords l s) (0, 0)).1

/-- `Deposit<2>::deposit`, BitManipulationGeneric.inl:131-149. -/
def deposit2 (c0 c1 : BitVec 32) : BitVec 32 :=
  let z : BitVec 64 := c0.zeroExtend 64 ||| (c1.zeroExtend 64 <<< 32)
  let z := (z ||| (z <<< 8)) &&& 0x00FF00FF00FF00FF#64
  let z := (z ||| (z <<< 4)) &&& 0x0F0F0F0F0F0F0F0F#64
  let z := (z ||| (z <<< 2)) &&& 0x3333333333333333#64
  let z := (z ||| (z <<< 1)) &&& 0x5555555555555555#64
  let z := z ||| (z >>> 31)
  z.setWidth 32

/-- The spreading of one coordinate in `Deposit<3>::deposit`, BitManipulationGeneric.inl:162-173. -/
def spread3 (x : BitVec 32) : BitVec 32 :=
  let x := (x ||| (x <<< 16)) &&& 0x070000ff#32
  let x := (x ||| (x <<< 8)) &&& 0x0700f00f#32
  let x := (x ||| (x <<< 4)) &&& 0xc30c30c3#32
  let x := (x ||| (x <<< 2)) &&& 0x49249249#32
  x

/-- `Deposit<3>::deposit`, BitManipulationGeneric.inl:151-177. -/
def deposit3 (x y z : BitVec 32) : BitVec 32 :=
  spread3 x ||| (spread3 y <<< 1) ||| (spread3 z <<< 2)

/-- The spreading of one pair of coordinates in `Deposit<4>::deposit`, BitManipulationGeneric.inl:189-197. -/
def spread4 (x : BitVec 64) : BitVec 64 :=
  let x := (x ||| (x <<< 12)) &&& 0x000F000F000F000F#64
  let x := (x ||| (x <<< 6)) &&& 0x0303030303030303#64
  let x := (x ||| (x <<< 3)) &&& 0x1111111111111111#64
  x ||| (x >>> 31)

/-- `Deposit<4>::deposit`, BitManipulationGeneric.inl:179-201. -/
def deposit4 (c0 c1 c2 c3 : BitVec 32) : BitVec 32 :=
  let x : BitVec 64 := c0.zeroExtend 64 ||| (c1.zeroExtend 64 <<< 32)
  let y : BitVec 64 := c2.zeroExtend 64 ||| (c3.zeroExtend 64 <<< 32)
  (spread4 x ||| (spread4 y <<< 2)).setWidth 32

/-- `Implementation<D>::deposit` (portable build), BitManipulationGeneric.inl:207-209: template specialisations for
2, 3, 4; the primary template (lines 110-129) otherwise, which returns `coords.front()` for `D == 1`. -/
def deposit : (D : Nat) → Coords D → BitVec 32
  | 1, c => c 0
  | 2, c => deposit2 (c 0) (c 1)
  | 3, c => deposit3 (c 0) (c 1) (c 2)
  | 4, c => deposit4 (c 0) (c 1) (c 2) (c 3)
  | _, c => depositLoop c

/-! ### BMI2 build -/

/-- Intel `_pdep_u32(src, mask)`: scan the mask from bit 0 upwards; the `k`-th set mask bit receives source bit `k`.
Arguments: remaining positions `n`, current position `m`, next source bit `k`. -/
def pdepGo (src mask : BitVec 32) : Nat → Nat → Nat → BitVec 32
  | 0, _, _ => 0
  | n + 1, m, k =>
    if mask.getLsbD m then
      (if src.getLsbD k then 1#32 <<< m else 0) ||| pdepGo src mask n (m + 1) (k + 1)
    else pdepGo src mask n (m + 1) k

/-- `_pdep_u32` -/
def pdep (src mask : BitVec 32) : BitVec 32 := pdepGo src mask 32 0 0

/-- Intel `_pext_u32(src, mask)`: the source bits selected by the mask are gathered in the low bits. -/
def pextGo (src mask : BitVec 32) : Nat → Nat → Nat → BitVec 32
  | 0, _, _ => 0
  | n + 1, m, k =>
    if mask.getLsbD m then
      (if src.getLsbD m then 1#32 <<< k else 0) ||| pextGo src mask n (m + 1) (k + 1)
    else pextGo src mask n (m + 1) k

/-- `_pext_u32` -/
def pext (src mask : BitVec 32) : BitVec 32 := pextGo src mask 32 0 0

/-- `BMI2::Implementation<D>::deposit`, BitManipulationBMI2.inl:12-21. -/
def depositBMI2 (D : Nat) (coords : Coords D) : BitVec 32 :=
  (List.finRange D).foldl
    (fun r i => r ||| pdep (coords i) (BitVec.ofNat 32 (kEveryDthBit D) <<< i.val)) 0

/-- `BMI2::Implementation<D>::extract`, BitManipulationBMI2.inl:23-30. -/
def extractBMI2 (D : Nat) (cell : BitVec 32) : Coords D := fun i =>
  pext cell (BitVec.ofNat 32 (kEveryDthBit D) <<< i.val)

end Bits
end Girgs
