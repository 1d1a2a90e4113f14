import Verif.Spec.Rounding
import Verif.Spec.Hyperbolic
import Verif.Model.SpatialTree
import Verif.Model.HyperBuild
/-
Specification: floating point arithmetic with rounded elementary functions, the inputs of the hyperbolic sampler in floating point arithmetic,
and the distance rule up to rounding errors.
-/
namespace Girgs.Spec
open CFloat

/-- The elementary functions of `<cmath>` have an error of at most `eps` (relative to the value; absolute for `cos` and `sin`), where the
arguments are not so large that the result could overflow.  `p` is the value of the constant for π.  Five facts about binary floating point
numbers: only zero has more than one representation; they can be halved; subtracting a natural number is exact if the result is not larger in absolute value; two numbers differ by the
factor `1 - u` at least; the quotient of a number and a larger number is rounded to a number below 1. -/
structure RoundedElem {F : Type} [CFloat F] {u lam : ℝ} (A : Rounded F u lam) (eps p : ℝ) : Prop where
  eps_nonneg : 0 ≤ eps
  inj : ∀ a b x, A.val a = some x → A.val b = some x → x ≠ 0 → a = b
  half : ∀ x, A.rnd x = x → (2 : ℝ) ^ (-1000 : ℤ) ≤ |x| → A.rnd (x / 2) = x / 2
  subNat : ∀ x (k : ℕ), A.rnd x = x → |x - k| ≤ |x| → |x| ≤ 2 ^ 53 → A.rnd (x - k) = x - k
  gap : ∀ x y, A.rnd x = x → A.rnd y = y → (2 : ℝ) ^ (-1000 : ℤ) ≤ y → x < y → x ≤ (1 - u) * y
  quot : ∀ x y, A.rnd x = x → A.rnd y = y → (2 : ℝ) ^ (-1000 : ℤ) ≤ y → x < y → A.rnd (x / y) < 1
  eq : ∀ a b x y, A.val a = some x → A.val b = some y → (CFloat.eq a b = true ↔ x = y)
  pi : A.val CFloat.pi = some p
  pi_err : |p - Real.pi| ≤ 4 * u
  cosh : ∀ a x, A.val a = some x → |x| ≤ 700 → ∃ y, A.val (CFloat.cosh a) = some y ∧ |y - Real.cosh x| ≤ eps * Real.cosh x
  sinh : ∀ a x, A.val a = some x → |x| ≤ 700 →
    ∃ y, A.val (CFloat.sinh a) = some y ∧ |y - Real.sinh x| ≤ eps * |Real.sinh x| + (2 : ℝ) ^ (-1021 : ℤ)
  acosh : ∀ a x, A.val a = some x → 1 ≤ x → x ≤ 2 ^ 1000 →
    ∃ y, A.val (CFloat.acosh a) = some y ∧ |y - Real.arcosh x| ≤ eps * Real.arcosh x + (2 : ℝ) ^ (-1021 : ℤ)
  exp : ∀ a x, A.val a = some x → |x| ≤ 700 → ∃ y, A.val (CFloat.exp a) = some y ∧ |y - Real.exp x| ≤ eps * Real.exp x
  cos : ∀ a x, A.val a = some x → |x| ≤ 700 → ∃ y, A.val (CFloat.cos a) = some y ∧ |y - Real.cos x| ≤ eps
  sin : ∀ a x, A.val a = some x → |x| ≤ 700 → ∃ y, A.val (CFloat.sin a) = some y ∧ |y - Real.sin x| ≤ eps

/-- the floating point numbers `l` have the values `x` -/
def Rounded.Vals {F : Type} [CFloat F] {u lam : ℝ} (A : Rounded F u lam) (l : List F) (x : List ℝ) : Prop :=
  List.Forall₂ (fun a y => A.val a = some y) l x

/-- Inputs of `hypergirgs::generateEdges` like `HypInput`, at a distance from its limits: radii in `(u R, R + 2^-44]` (the sampled radii
may exceed `R` by rounding errors, see C85), angles in `[0, 2p)`, temperature 0
or between 1/16 and 2^64, and a disk radius of at most 34 with `⌈R⌉ ≤ 1.45 R` (that is, at least 0.69, not between 1 and 1.38 and not between 2
and 2.07). -/
structure RoundableHyp (u p : ℝ) (radii angles : List ℝ) (T R : ℝ) : Prop where
  len : angles.length = radii.length
  pos : 1 ≤ radii.length
  small : radii.length < 2147483648
  radius : ∀ r ∈ radii, u * R < r ∧ r ≤ R + 1 / 2 ^ 44
  angle : ∀ a ∈ angles, 0 ≤ a ∧ a < 2 * p
  temp : T = 0 ∨ (1 / 16 ≤ T ∧ T ≤ 2 ^ 64)
  disk : (⌈R⌉ : ℝ) ≤ 29 / 20 * R
  disk34 : R ≤ 34
  disk_pos : 0 < R

/-- uniform draws lie in the half open interval they are drawn from, and geometric numbers are below 2^63 -/
structure RoundedRng {F : Type} [CFloat F] {u lam : ℝ} (A : Rounded F u lam) (rng : Tree.Rng F) : Prop where
  uniform : ∀ g, ∃ x, A.val (rng.uniform g).1 = some x ∧ 0 ≤ x ∧ x < 1
  uniformTo : ∀ b y g, A.val b = some y → 0 < y → ∃ x, A.val (rng.uniformTo b g).1 = some x ∧ 0 ≤ x ∧ x < y
  geo : ∀ p g, (rng.geo p g).1 < 9223372036854775808

/-- for disk radius `R`, the comparison level that `partitioningBaseLevel` computes for two of the first `nl` radius layers does not depend on the
order of the layers -/
def SymmetricLevels {F : Type} [CFloat F] (R : F) (nl : Nat) : Prop := ∀ i j, i < nl → j < nl →
  RadiusLayer.partitioningBaseLevel (HBuild.radMin R i) (HBuild.radMin R j) R =
    RadiusLayer.partitioningBaseLevel (HBuild.radMin R j) (HBuild.radMin R i) R

/-- The arguments `radii`, `angles`, `Tf`, `Rf` of a call, in an arithmetic with relative rounding errors up to `2^-52` (`2^-50` for the elementary
functions), are numbers of values `r`, `a`, `T`, `R` that make up a supported input. -/
structure RInput {F : Type} [CFloat F] {u lam : ℝ} (A : Rounded F u lam) (eps p : ℝ) (radii angles : List F) (Tf Rf : F) (r a : List ℝ) (T R : ℝ) : Prop where
  elem : RoundedElem A eps p
  hu : u ≤ 1 / 2 ^ 52
  he : eps ≤ 1 / 2 ^ 50
  radii : A.Vals radii r
  angles : A.Vals angles a
  vT : A.val Tf = some T
  vR : A.val Rf = some R
  hyp : RoundableHyp u p r a T R

/-- No comparison of `partitioningBaseLevel` is a close call: for two of the first `nl` layers, with inner radii `R-i-1` and `R-j-1`, the
hyperbolic cosine of the distance of two points with these radii at angle `π/2^L` (in exact arithmetic) differs from `cosh R` by more than rounding
errors, for all `L` up to the exact level. -/
def ClearLevels (R : ℝ) (nl : Nat) : Prop := ∀ i j L : Nat, i ≤ j → j < nl → L ≤ 31 →
  (∀ k, k < L → Real.cosh R < hypCosh (R - i - 1) (Real.pi / 2 ^ k) (R - j - 1) 0) →
  1 / 2 ^ 42 * (Real.cosh R + |Real.sinh (R - i - 1) * Real.sinh (R - j - 1)|) <
    |hypCosh (R - i - 1) (Real.pi / 2 ^ L) (R - j - 1) 0 - Real.cosh R|

/-- the nodes satisfy the distance rule with a margin `κ`: the hyperbolic cosine of their distance is below `cosh R` even if it is increased by
`κ (cosh r cosh s + cosh R)`, where `r` and `s` are the radii of the nodes -/
def HypSurelyClose (κ : ℝ) (radii angles : List ℝ) (R : ℝ) (i j : Nat) : Prop :=
  ∃ r s a b, radii[i]? = some r ∧ radii[j]? = some s ∧ angles[i]? = some a ∧ angles[j]? = some b ∧
    hypCosh r a s b + κ * (Real.cosh r * Real.cosh s + Real.cosh R) < Real.cosh R

/-- the nodes violate the distance rule with a margin `κ` -/
def HypSurelyFar (κ : ℝ) (radii angles : List ℝ) (R : ℝ) (i j : Nat) : Prop :=
  ∃ r s a b, radii[i]? = some r ∧ radii[j]? = some s ∧ angles[i]? = some a ∧ angles[j]? = some b ∧
    Real.cosh R + κ * (Real.cosh r * Real.cosh s + Real.cosh R) ≤ hypCosh r a s b

end Girgs.Spec
