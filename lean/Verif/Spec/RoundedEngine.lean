import Verif.Spec.HRounding
import Verif.Model.Samplers
/-
Specification: uniform random numbers in floating point arithmetic.
-/
namespace Girgs.Spec

/-- `std::uniform_real_distribution<>(a,b)` returns numbers of the interval `[a,b]` up to rounding, and of `[0,b)` if `a` is zero.  (According to the
C++ standard the interval is `[a,b)`, but the usual implementations compute `a + (b-a)*U` for a number `U` of `[0,1)` and round up to `b` sometimes if `a`
is not zero.)  Only intervals with `a ≥ 0` and `1 ≤ b ≤ 2^990` matter. -/
structure RoundedEngine {F : Type} [CFloat F] {u lam : ℝ} (A : Rounded F u lam) (eng : Engine F) : Prop where
  uniform : ∀ a b x y g, A.val a = some x → A.val b = some y → 0 ≤ x → x < y → 1 ≤ y → y ≤ 2 ^ 990 →
    ∃ z, A.val (eng.uniform a b g).1 = some z ∧ x ≤ z ∧ z ≤ (1 + 3 * u) * y ∧ (x = 0 → z < y)

/-- The arguments `alf`, `Rf` of `sampleRadii`, in an arithmetic with relative rounding errors up to `2^-53` (`2^-51` for the elementary functions), have
values `α` between 1/2 and 16 and `R` between 1/2 and 34. -/
structure RSampler {F : Type} [CFloat F] {u lam : ℝ} (A : Rounded F u lam) (eps p : ℝ) (alf Rf : F) (α R : ℝ) : Prop where
  elem : RoundedElem A eps p
  hu : u ≤ 1 / 2 ^ 53
  he : eps ≤ 1 / 2 ^ 51
  vα : A.val alf = some α
  vR : A.val Rf = some R
  α_ge : 1 / 2 ≤ α
  α_le : α ≤ 16
  R_ge : 1 / 2 ≤ R
  R_le : R ≤ 34

end Girgs.Spec
