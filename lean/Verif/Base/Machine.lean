/-
Machine integers and undefined behaviour.

The C++ code under /repo uses `unsigned int`/`uint32_t` (arithmetic modulo 2^32) and `int` (overflow and
over-wide shifts are undefined).  Undefined behaviour is the outcome `none` of the `Option` monad.
-/
namespace Girgs

/-- Reduction of an `unsigned int` result modulo 2^32 (C++ unsigned arithmetic wraps). -/
def u32 (x : Nat) : Nat := x % 4294967296

/-- `1u << k`: undefined if `k` is at least the width of `unsigned int`. -/
def shl1u (k : Nat) : Option Nat := if k < 32 then some (2 ^ k) else none

/-- `1 << k` on `int`: undefined (C++11/14) if the result does not fit into a (signed) `int`. -/
def shl1 (k : Nat) : Option Int := if k < 31 then some (2 ^ k : Int) else none

/-- A value of type `int`: `none` if the mathematical value overflows. -/
def int32 (x : Int) : Option Int := if -2147483648 ≤ x ∧ x < 2147483648 then some x else none

/-- `unsigned` subtraction, wrapping. -/
def subU (a b : Nat) : Nat := (((a : Int) - (b : Int)) % 4294967296).toNat

/-- C++ integer division truncates towards zero (used on `int`). -/
def cdiv (a b : Int) : Int := Int.tdiv a b

/-- `std::max` on integers. -/
def imax (a b : Int) : Int := if a < b then b else a

/-- `std::min` on integers. -/
def imin (a b : Int) : Int := if b < a then b else a

/-- Bounds checked array read (`v[i]` on a `std::vector`): out of range is undefined behaviour. -/
def rd {α : Type u} (v : List α) (i : Nat) : Option α := v[i]?

/-- Bounds checked array write (`v[i] = x`). -/
def wr {α : Type u} (v : List α) (i : Nat) (x : α) : Option (List α) :=
  if i < v.length then some (v.set i x) else none

theorem obind {α β : Type u} {o : Option α} {a : α} (h : o = some a) (f : α → Option β) : (o >>= f) = f a := by
  subst h; rfl

end Girgs
