import Verif.Spec.Rounding
import Verif.Model.SpatialTree
/-
Specification: quotients and powers that are at least 1, in floating point arithmetic with infinities.
-/
namespace Girgs.Spec
open CFloat

/-- `q` is a number that is at least 1, or positive infinity -/
def Rounded.AtLeastOne {F : Type} [CFloat F] {u lam : ℝ} (A : Rounded F u lam) (q : F) : Prop :=
  CFloat.eq q CFloat.inf = true ∨ ∃ z, A.val q = some z ∧ 1 ≤ z

/-- The quotient of a number and a smaller one that is not negative (or +0, then it is infinite) is not rounded below 1, nor is a power
of something that is at least 1 with a positive exponent; overflow results in infinity, which is larger than every number. -/
structure RoundedAbove {F : Type} [CFloat F] {u lam : ℝ} (A : Rounded F u lam) : Prop where
  div : ∀ a b x y, A.val a = some x → A.val b = some y → 0 ≤ y → y < x → A.AtLeastOne (a /. b)
  pow : ∀ q e y, A.AtLeastOne q → A.val e = some y → 0 < y → A.AtLeastOne (CFloat.pow q e)
  lt_inf : ∀ a x q, A.val a = some x → CFloat.eq q CFloat.inf = true → (a <. q) = true

/-- every value of `std::uniform_real_distribution<>` is a number below 1 -/
def Rounded.UnitRng {F : Type} [CFloat F] {u lam : ℝ} (A : Rounded F u lam) (rng : Tree.Rng F) : Prop :=
  ∀ g, ∃ r, A.val (rng.uniform g).1 = some r ∧ r < 1

end Girgs.Spec
