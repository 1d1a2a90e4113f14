import Mathlib.Data.Rat.Defs
/-
The operations on `double` that the modelled code uses, as a type class.  The model of the code is generic in the
floating point type `F`; combinatorial theorems are proved for every `F` (hence for IEEE doubles, whatever their
rounding), numerical theorems for the exact instance `XR` in `Verif/Base/XR.lean`.
-/
namespace Girgs

/-- Operations of the C++ type `double` and of `<cmath>` used by the library. -/
class CFloat (F : Type) where
  /-- literals and integer → double conversions -/
  ofRat : ℚ → F
  /-- `std::numeric_limits<double>::infinity()` -/
  inf : F
  /-- `std::acos(-1)` / `PI` -/
  pi : F
  add : F → F → F
  sub : F → F → F
  mul : F → F → F
  div : F → F → F
  neg : F → F
  abs : F → F
  /-- `a < b` -/
  lt : F → F → Bool
  /-- `a == b` -/
  eq : F → F → Bool
  floor : F → F
  ceil : F → F
  log2 : F → F
  log : F → F
  exp : F → F
  pow : F → F → F
  cosh : F → F
  sinh : F → F
  acosh : F → F
  cos : F → F
  sin : F → F
  sqrt : F → F
  /-- mathematical value truncated towards zero; `none` for NaN and infinities.  Conversions to integer types are
  undefined in C++ unless this value is representable in the target type. -/
  trunc : F → Option Int

@[inherit_doc] infixl:65 " +. " => CFloat.add
@[inherit_doc] infixl:65 " -. " => CFloat.sub
@[inherit_doc] infixl:70 " *. " => CFloat.mul
@[inherit_doc] infixl:70 " /. " => CFloat.div
@[inherit_doc] infix:50 " <. " => CFloat.lt

namespace CFloat
variable {F : Type} [CFloat F]

/-- conversion of an integer value to `double` -/
def ofInt (x : Int) : F := CFloat.ofRat (x : ℚ)

/-- conversion of an unsigned value to `double` -/
def ofNat (x : Nat) : F := CFloat.ofRat (x : ℚ)

/-- `std::max(a,b)` returns `b` iff `a < b`. -/
def fmax (a b : F) : F := if a <. b then b else a

/-- `std::min(a,b)` returns `b` iff `b < a`. -/
def fmin (a b : F) : F := if b <. a then b else a

/-- `static_cast<uint32_t>(x)` / `static_cast<unsigned>(x)`: undefined if the truncated value is not representable. -/
def toU32 (x : F) : Option Nat :=
  match CFloat.trunc x with
  | some z => if 0 ≤ z ∧ z < 4294967296 then some z.toNat else none
  | none => none

/-- `static_cast<int>(x)` (explicit or implicit). -/
def toI32 (x : F) : Option Int :=
  match CFloat.trunc x with
  | some z => if -2147483648 ≤ z ∧ z < 2147483648 then some z else none
  | none => none

/-- implicit conversion of a `double` used as a `std::vector` index (`size_t`). -/
def toSize (x : F) : Option Nat :=
  match CFloat.trunc x with
  | some z => if 0 ≤ z ∧ z < 18446744073709551616 then some z.toNat else none
  | none => none

end CFloat
end Girgs
