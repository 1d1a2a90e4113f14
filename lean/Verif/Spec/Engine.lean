import Verif.Model.Samplers
import Verif.Base.XR
/-
Specification: ranges of uniform random numbers.
-/
namespace Girgs.Spec

/-- `std::uniform_real_distribution<>(a,b)` returns numbers of the half open interval `[a,b)` -/
def IntervalEngine (eng : Engine XR) : Prop :=
  ∀ (a b : ℝ) (g : eng.G), a < b → ∃ x : ℝ, (eng.uniform (XR.fin a) (XR.fin b) g).1 = XR.fin x ∧ a ≤ x ∧ x < b

/-- the seed does not overflow: negative seeds are replaced by `std::random_device`, for others `seed + thread` must be an `int` -/
def SeedOK (threads : ℕ) (seed : ℤ) : Prop := seed < 0 ∨ seed + threads ≤ 2147483648

end Girgs.Spec
