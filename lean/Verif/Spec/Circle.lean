import Mathlib.Analysis.SpecialFunctions.Trigonometric.Basic
/-
Specification: the circle [0, 2π) divided into 2^l equal arcs, numbered level by level (complete binary tree).
-/
namespace Girgs.Spec
open Real

/-- cell `c` belongs to level `l` of the complete binary tree numbered level by level -/
def OnBinLevel (l c : ℕ) : Prop := 2 ^ l - 1 ≤ c ∧ c < 2 ^ (l + 1) - 1

/-- the angle `a` is in the `i`-th of the `2^l` equal arcs of the circle -/
def InArcNo (l i : ℕ) (a : ℝ) : Prop := i * (2 * π / 2 ^ l) ≤ a ∧ a < (i + 1) * (2 * π / 2 ^ l)

/-- the `i`-th and the `j`-th of `N` arcs are `k` steps apart in some direction -/
def StepsApart (N i j k : ℕ) : Prop := (i + k) % N = j ∨ (j + k) % N = i

/-- angle between two directions in [0, 2π): the length of the shorter arc -/
noncomputable def angleBetween (a b : ℝ) : ℝ := min |a - b| (2 * π - |a - b|)

end Girgs.Spec
