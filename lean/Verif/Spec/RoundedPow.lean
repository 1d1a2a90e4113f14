import Verif.Spec.RoundedEngine
/-
Specification: the function `pow` in floating point arithmetic.
-/
namespace Girgs.Spec

/-- `std::pow` of a positive number has a relative error of at most `eps` unless the result is extremely small or large, and `pow(1, y)` is 1; the sign change is
exact; rounding a number of `[-1,1]` changes it by at most `u/2`, which is half the distance of floating point numbers next to 1. -/
structure RoundedPow {F : Type} [CFloat F] {u lam : ℝ} (A : Rounded F u lam) (eps : ℝ) : Prop where
  neg : ∀ a x, A.val a = some x → A.val (CFloat.neg a) = some (-x)
  unit_half : ∀ x, |x| ≤ 1 → |A.rnd x - x| ≤ u / 2
  one : ∀ a b y, A.val a = some 1 → A.val b = some y → A.val (CFloat.pow a b) = some 1
  pow : ∀ a b x y, A.val a = some x → A.val b = some y → 0 < x → (2 : ℝ) ^ (-1000 : ℤ) ≤ x ^ y → x ^ y ≤ 2 ^ 1000 →
    ∃ z, A.val (CFloat.pow a b) = some z ∧ |z - x ^ y| ≤ eps * x ^ y

/-- The argument `plef` of `generateWeights`, in an arithmetic with relative rounding errors up to `2^-53` (`2^-51` for the elementary functions), has a
value `ple` between 2 and 32. -/
structure RWeights {F : Type} [CFloat F] {u lam : ℝ} (A : Rounded F u lam) (eps p : ℝ) (plef : F) (ple : ℝ) : Prop where
  elem : RoundedElem A eps p
  power : RoundedPow A eps
  hu : u ≤ 1 / 2 ^ 53
  he : eps ≤ 1 / 2 ^ 51
  val : A.val plef = some ple
  ple_ge : 2 ≤ ple
  ple_le : ple ≤ 32

end Girgs.Spec
