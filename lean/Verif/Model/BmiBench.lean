import Verif.Model.BitManipulation
/-
Model of source/benchmarks/bmi-benchmarks/main.cpp: the alternative implementation of the deposit operation with fewer
`pdep` instructions.  The timing loop (lines 5-33) is not modelled.
-/
namespace Girgs.Bits

/-- Intel `_pdep_u64(src, mask)`: scan the mask from bit 0 upwards; the `k`-th set mask bit receives source bit `k`.
Arguments: remaining positions `n`, current position `m`, next source bit `k`. -/
def pdep64Go (src mask : BitVec 64) : Nat → Nat → Nat → BitVec 64
  | 0, _, _ => 0
  | n + 1, m, k =>
    if mask.getLsbD m then
      (if src.getLsbD k then 1#64 <<< m else 0) ||| pdep64Go src mask n (m + 1) (k + 1)
    else pdep64Go src mask n (m + 1) k

/-- `_pdep_u64` -/
def pdep64 (src mask : BitVec 64) : BitVec 64 := pdep64Go src mask 64 0 0

/-- `PImpl::highbits`, bmi-benchmarks/main.cpp:39-41: `1llu << x` is computed with 64 bits. -/
def highbits (x : Nat) : BitVec 32 := ((1#64 <<< x) - 1).setWidth 32

/-- `PImpl::impl_pdep(a, b)`, bmi-benchmarks/main.cpp:47-51.  `values` has 32 bits and is widened without sign. -/
def implPdep2 (a b : BitVec 32) : BitVec 32 :=
  let values : BitVec 32 := (b <<< 16) ||| (a &&& 0xffff#32)
  let deposited := pdep64 (values.zeroExtend 64) 0x5555555555555555#64
  (deposited ||| (deposited >>> 31)).setWidth 32

/-- `PImpl::impl_pdep(a, b, c)`, bmi-benchmarks/main.cpp:53-60. -/
def implPdep3 (a b c : BitVec 32) : BitVec 32 :=
  let rec' := implPdep2 a b
  let values : BitVec 32 := ((c &&& highbits 10) <<< 22) ||| (rec' &&& highbits 22)
  let deposited := pdep64 (values.zeroExtend 64) 0x24924924db6db6db#64
  ((deposited &&& (highbits 32).zeroExtend 64) ||| (deposited >>> 32)).setWidth 32

/-- `PImpl::impl_pdep(a, b, c, d)`, bmi-benchmarks/main.cpp:62-64. -/
def implPdep4 (a b c d : BitVec 32) : BitVec 32 :=
  implPdep2 (implPdep2 a c) (implPdep2 b d)

/-- `PImpl::impl_pdep(a, b, c, d, e)`, bmi-benchmarks/main.cpp:66-73. -/
def implPdep5 (a b c d e : BitVec 32) : BitVec 32 :=
  let rec' := implPdep4 a b c d
  let values : BitVec 32 := ((e &&& highbits 6) <<< 26) ||| (rec' &&& highbits 26)
  let deposited := pdep64 (values.zeroExtend 64) 0x21084210def7bdef#64
  ((deposited &&& (highbits 32).zeroExtend 64) ||| (deposited >>> 32)).setWidth 32

/-- `SDeposit<D>::deposit`, bmi-benchmarks/main.cpp:76-91 (`impl_pdep(a)` returns `a`, lines 43-45).  There are
specialisations for 1 to 5 only; the value 0 for other `D` stands for a program that does not compile. -/
def sdeposit : (D : Nat) → Coords D → BitVec 32
  | 1, c => c 0
  | 2, c => implPdep2 (c 0) (c 1)
  | 3, c => implPdep3 (c 0) (c 1) (c 2)
  | 4, c => implPdep4 (c 0) (c 1) (c 2) (c 3)
  | 5, c => implPdep5 (c 0) (c 1) (c 2) (c 3) (c 4)
  | _, _ => 0

end Girgs.Bits
