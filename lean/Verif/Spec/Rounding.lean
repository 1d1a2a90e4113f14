import Verif.Base.CFloat
import Verif.Spec.Girg
import Mathlib.Analysis.SpecialFunctions.Log.Base
/-
Specification: floating point arithmetic with rounding, as IEEE 754 and the C library describe it, and the threshold rule
up to rounding errors.
-/
namespace Girgs.Spec
open CFloat

/-- Binary floating point with the range of `double`: `val` is the value of a finite number (`none` for infinities and NaN),
and an arithmetic operation returns the rounded (`rnd`) exact result, unless that is too large.  Rounding is monotone, symmetric,
keeps integers up to 2^53 and powers of two, changes a number of the normal range by at most the factor `1 ± u` and a number of
the unit interval by at most `u`, and numbers stay representable when they are multiplied by a power of two.  Nothing is assumed about infinities, NaN, the sign of zero and
overflow.  `std::log2` is monotone, exact for powers of two and elsewhere has an error of at most `lam`. -/
structure Rounded (F : Type) [CFloat F] (u lam : ℝ) where
  val : F → Option ℝ
  rnd : ℝ → ℝ
  u_nonneg : 0 ≤ u
  lam_nonneg : 0 ≤ lam
  mono : Monotone rnd
  odd : ∀ x, rnd (-x) = -rnd x
  int : ∀ z : ℤ, |z| ≤ 2 ^ 53 → rnd z = z
  pow2 : ∀ k : ℤ, -1022 ≤ k → k ≤ 1023 → rnd (2 ^ k) = 2 ^ k
  rel : ∀ x, (2 : ℝ) ^ (-1022 : ℤ) ≤ |x| → |rnd x - x| ≤ u * |x|
  unit : ∀ x, |x| ≤ 1 → |rnd x - x| ≤ u
  rep : ∀ a x, val a = some x → rnd x = x
  scale : ∀ x, rnd x = x → ∀ k : ℕ, rnd (x * 2 ^ k) = x * 2 ^ k
  ofRat : ∀ q : ℚ, |(q : ℝ)| ≤ 2 ^ 1023 → val (ofRat q) = some (rnd q)
  add : ∀ a b x y, val a = some x → val b = some y → |x + y| ≤ 2 ^ 1023 → val (a +. b) = some (rnd (x + y))
  sub : ∀ a b x y, val a = some x → val b = some y → |x - y| ≤ 2 ^ 1023 → val (a -. b) = some (rnd (x - y))
  mul : ∀ a b x y, val a = some x → val b = some y → |x * y| ≤ 2 ^ 1023 → val (a *. b) = some (rnd (x * y))
  div : ∀ a b x y, val a = some x → val b = some y → y ≠ 0 → |x / y| ≤ 2 ^ 1023 → val (a /. b) = some (rnd (x / y))
  abs : ∀ a x, val a = some x → val (CFloat.abs a) = some |x|
  lt : ∀ a b x y, val a = some x → val b = some y → ((a <. b) = true ↔ x < y)
  floor : ∀ a x, val a = some x → |x| ≤ 2 ^ 50 → val (CFloat.floor a) = some (⌊x⌋ : ℝ)
  ceil : ∀ a x, val a = some x → |x| ≤ 2 ^ 50 → val (CFloat.ceil a) = some (⌈x⌉ : ℝ)
  trunc : ∀ a x, val a = some x → CFloat.trunc a = some (if 0 ≤ x then ⌊x⌋ else ⌈x⌉)
  log2 : ∀ a x, val a = some x → (2 : ℝ) ^ (-1022 : ℤ) ≤ x → ∃ y, val (CFloat.log2 a) = some y ∧ |y - Real.logb 2 x| ≤ lam
  log2_pow : ∀ a (k : ℤ), val a = some (2 ^ k) → val (CFloat.log2 a) = some (k : ℝ)
  log2_mono : ∀ a b x y p q, val a = some x → val b = some y → 0 < x → x ≤ y → val (CFloat.log2 a) = some p →
    val (CFloat.log2 b) = some q → p ≤ q
  eq_inf : CFloat.eq (CFloat.inf : F) CFloat.inf = true

/-- The floating point inputs `weights`, `positions` have the values `w`, `x`. -/
structure Rounded.Holds {F : Type} [CFloat F] {u lam : ℝ} (A : Rounded F u lam) {D : Nat} (weights : List F)
    (positions : List (Fin D → F)) (w : List ℝ) (x : List (Fin D → ℝ)) : Prop where
  weights : List.Forall₂ (fun a y => A.val a = some y) weights w
  positions : List.Forall₂ (fun p q => ∀ d, A.val (p d) = some (q d)) positions x

/-- Inputs like `SupportedInput`, at a distance of a factor 2 from its limits, and weights below 2^400. -/
structure RoundableInput (D : Nat) (w : List ℝ) (x : List (Fin D → ℝ)) : Prop where
  D1 : 1 ≤ D
  D5 : D ≤ 5
  len : x.length = w.length
  pos : 1 ≤ w.length
  small : w.length < 2147483648
  wpos : ∀ u ∈ w, 0 < u
  wfin : ∀ u ∈ w, u < 2 ^ 400
  unit : ∀ p ∈ x, ∀ d, 0 ≤ p d ∧ p d < 1
  total : ∀ u ∈ w, w.sum < 2 ^ 28 * u ^ 2
  spread : ∀ u ∈ w, ∀ v ∈ w, v < 2 ^ 29 * u

/-- the relative margin of the threshold rule for `n` nodes in `D` dimensions: a number slightly below 1 -/
noncomputable def margin (u lam : ℝ) (n D : Nat) : ℝ := (1 - u) ^ (n + D + 4) * (2 : ℝ) ^ (-(3 * lam))

/-- the nodes satisfy the threshold rule even if the distance is increased by `2u` and the right side reduced by the margin -/
def SurelyClose (u lam : ℝ) {D : Nat} (w : List ℝ) (x : List (Fin D → ℝ)) (i j : Nat) : Prop :=
  ∃ a b p q, w[i]? = some a ∧ w[j]? = some b ∧ x[i]? = some p ∧ x[j]? = some q ∧
    (torusDist p q + 2 * u) ^ D < margin u lam w.length D * (a * b / w.sum)

/-- the nodes violate the threshold rule even if the distance is reduced by `2u` and the left side by the margin -/
def SurelyFar (u lam : ℝ) {D : Nat} (w : List ℝ) (x : List (Fin D → ℝ)) (i j : Nat) : Prop :=
  ∃ a b p q, w[i]? = some a ∧ w[j]? = some b ∧ x[i]? = some p ∧ x[j]? = some q ∧ 2 * u ≤ torusDist p q ∧
    a * b / w.sum ≤ margin u lam w.length D * (torusDist p q - 2 * u) ^ D

end Girgs.Spec
