import Verif.Base.CFloat
import Mathlib.Analysis.SpecialFunctions.Arcosh
import Mathlib.Analysis.SpecialFunctions.Log.Base
import Mathlib.Analysis.SpecialFunctions.Pow.Real
import Mathlib.Analysis.SpecialFunctions.Trigonometric.Basic
/-
Exact extended reals: the `CFloat` instance without rounding.  Real numbers with IEEE-style infinities and NaN; there is
one (unsigned) zero, a positive number divided by zero is `+∞`.
-/
namespace Girgs

/-- `double` without rounding. -/
inductive XR where
  | fin (x : ℝ)
  | pinf
  | ninf
  | nan

namespace XR
open Classical

noncomputable section

/-- sign-directed infinity: `s * ∞` -/
def infOf (s : ℝ) : XR := if 0 < s then pinf else if s < 0 then ninf else nan

def neg : XR → XR
  | fin x => fin (-x) | pinf => ninf | ninf => pinf | nan => nan

def add : XR → XR → XR
  | fin x, fin y => fin (x + y)
  | nan, _ => nan | _, nan => nan
  | pinf, ninf => nan | ninf, pinf => nan
  | pinf, _ => pinf | _, pinf => pinf
  | ninf, _ => ninf | _, ninf => ninf

def sub (a b : XR) : XR := add a (neg b)

def mul : XR → XR → XR
  | fin x, fin y => fin (x * y)
  | nan, _ => nan | _, nan => nan
  | fin x, pinf => infOf x | pinf, fin x => infOf x
  | fin x, ninf => infOf (-x) | ninf, fin x => infOf (-x)
  | pinf, pinf => pinf | ninf, ninf => pinf
  | pinf, ninf => ninf | ninf, pinf => ninf

def div : XR → XR → XR
  | fin x, fin y => if y = 0 then infOf x else fin (x / y)
  | nan, _ => nan | _, nan => nan
  | fin _, _ => fin 0
  | pinf, fin y => if 0 ≤ y then pinf else ninf
  | ninf, fin y => if 0 ≤ y then ninf else pinf
  | _, _ => nan

def abs : XR → XR
  | fin x => fin |x| | nan => nan | _ => pinf

def lt : XR → XR → Bool
  | fin x, fin y => decide (x < y)
  | nan, _ => false | _, nan => false
  | ninf, ninf => false | ninf, _ => true
  | _, ninf => false
  | fin _, pinf => true
  | pinf, _ => false

def eq : XR → XR → Bool
  | fin x, fin y => decide (x = y)
  | pinf, pinf => true | ninf, ninf => true
  | _, _ => false

def liftR (f : ℝ → ℝ) : XR → XR
  | fin x => fin (f x) | x => x

def logWith (f : ℝ → ℝ) : XR → XR
  | fin x => if 0 < x then fin (f x) else if x = 0 then ninf else nan
  | pinf => pinf | _ => nan

def exp : XR → XR
  | fin x => fin (Real.exp x) | pinf => pinf | ninf => fin 0 | nan => nan

/-- C `pow` (C11 F.10.4.4, unsigned zero) -/
def pow (a b : XR) : XR :=
  match b with
  | fin y =>
    if y = 0 then fin 1 else
    match a with
    | fin x =>
      if 0 < x then fin (x ^ y)
      else if x = 0 then (if 0 < y then fin 0 else pinf)
      else if ∃ n : ℤ, (n : ℝ) = y then fin (x ^ y) else nan
    | pinf => if 0 < y then pinf else fin 0
    | ninf => if 0 < y then (if ∃ n : ℤ, ((2 * n + 1 : ℤ) : ℝ) = y then ninf else pinf) else fin 0
    | nan => nan
  | pinf =>
    match a with
    | fin x => if |x| < 1 then fin 0 else if |x| = 1 then fin 1 else pinf
    | nan => nan
    | _ => pinf
  | ninf =>
    match a with
    | fin x => if |x| < 1 then pinf else if |x| = 1 then fin 1 else fin 0
    | nan => nan
    | _ => fin 0
  | nan => if a = fin 1 then fin 1 else nan

def cosh : XR → XR
  | fin x => fin (Real.cosh x) | nan => nan | _ => pinf

def acosh : XR → XR
  | fin x => if 1 ≤ x then fin (Real.arcosh x) else nan
  | pinf => pinf | _ => nan

def trig (f : ℝ → ℝ) : XR → XR
  | fin x => fin (f x) | _ => nan

def sqrt : XR → XR
  | fin x => if 0 ≤ x then fin (Real.sqrt x) else nan
  | pinf => pinf | _ => nan

def trunc : XR → Option Int
  | fin x => some (if 0 ≤ x then ⌊x⌋ else ⌈x⌉)
  | _ => none

instance : CFloat XR where
  ofRat q := fin (q : ℝ)
  inf := pinf
  pi := fin Real.pi
  add := add
  sub := sub
  mul := mul
  div := div
  neg := neg
  abs := abs
  lt := lt
  eq := eq
  floor := liftR fun x => ⌊x⌋
  ceil := liftR fun x => ⌈x⌉
  log2 := logWith (Real.logb 2)
  log := logWith Real.log
  exp := exp
  pow := pow
  cosh := cosh
  sinh := liftR Real.sinh
  acosh := acosh
  cos := trig Real.cos
  sin := trig Real.sin
  sqrt := sqrt
  trunc := trunc

/-! ### evaluation lemmas -/
variable (x y : ℝ)
@[simp] theorem ofRat_eq (q : ℚ) : (CFloat.ofRat q : XR) = fin (q : ℝ) := rfl
@[simp] theorem ofInt_eq (z : ℤ) : (CFloat.ofInt z : XR) = fin (z : ℝ) := by simp [CFloat.ofInt]
@[simp] theorem ofNat_eq (z : ℕ) : (CFloat.ofNat z : XR) = fin (z : ℝ) := by simp [CFloat.ofNat]
@[simp] theorem inf_eq : (CFloat.inf : XR) = pinf := rfl
@[simp] theorem pi_eq : (CFloat.pi : XR) = fin Real.pi := rfl
@[simp] theorem add_fin : (fin x) +. (fin y) = fin (x + y) := rfl
@[simp] theorem sub_fin : (fin x) -. (fin y) = fin (x - y) := by
  show fin (x + -y) = _; rw [sub_eq_add_neg]
@[simp] theorem mul_fin : (fin x) *. (fin y) = fin (x * y) := rfl
@[simp] theorem div_fin (h : y ≠ 0) : (fin x) /. (fin y) = fin (x / y) := by
  show (if y = 0 then infOf x else fin (x / y)) = _; rw [if_neg h]
theorem div_zero_pos (h : 0 < x) : (fin x) /. (fin 0) = pinf := by
  show (if (0:ℝ) = 0 then infOf x else fin (x / 0)) = _; rw [if_pos rfl, infOf, if_pos h]
@[simp] theorem neg_fin : CFloat.neg (fin x) = fin (-x) := rfl
@[simp] theorem abs_fin : CFloat.abs (fin x) = fin |x| := rfl
@[simp] theorem lt_fin : ((fin x) <. (fin y)) = decide (x < y) := rfl
@[simp] theorem lt_fin_pinf : ((fin x) <. pinf) = true := rfl
@[simp] theorem lt_pinf (a : XR) : (pinf <. a) = false := by cases a <;> rfl
@[simp] theorem eq_fin : CFloat.eq (fin x) (fin y) = decide (x = y) := rfl
@[simp] theorem eq_pinf : CFloat.eq pinf pinf = true := rfl
@[simp] theorem eq_fin_pinf : CFloat.eq (fin x) pinf = false := rfl
@[simp] theorem floor_fin : CFloat.floor (fin x) = fin (⌊x⌋ : ℝ) := rfl
@[simp] theorem ceil_fin : CFloat.ceil (fin x) = fin (⌈x⌉ : ℝ) := rfl
theorem log2_fin (h : 0 < x) : CFloat.log2 (fin x) = fin (Real.logb 2 x) := by
  show (if 0 < x then _ else _) = _; rw [if_pos h]
theorem log_fin (h : 0 < x) : CFloat.log (fin x) = fin (Real.log x) := by
  show (if 0 < x then _ else _) = _; rw [if_pos h]
@[simp] theorem exp_fin : CFloat.exp (fin x) = fin (Real.exp x) := rfl
@[simp] theorem cosh_fin : CFloat.cosh (fin x) = fin (Real.cosh x) := rfl
@[simp] theorem sinh_fin : CFloat.sinh (fin x) = fin (Real.sinh x) := rfl
@[simp] theorem cos_fin : CFloat.cos (fin x) = fin (Real.cos x) := rfl
@[simp] theorem sin_fin : CFloat.sin (fin x) = fin (Real.sin x) := rfl
theorem acosh_fin (h : 1 ≤ x) : CFloat.acosh (fin x) = fin (Real.arcosh x) := by
  show (if 1 ≤ x then _ else _) = _; rw [if_pos h]
theorem sqrt_fin (h : 0 ≤ x) : CFloat.sqrt (fin x) = fin (Real.sqrt x) := by
  show (if 0 ≤ x then _ else _) = _; rw [if_pos h]
theorem pow_fin (h : 0 < x) : CFloat.pow (fin x) (fin y) = fin (x ^ y) := by
  show pow (fin x) (fin y) = _
  by_cases hy : y = 0
  · simp [pow, hy]
  · simp [pow, hy, h]
theorem trunc_fin (h : 0 ≤ x) : CFloat.trunc (fin x) = some ⌊x⌋ := by
  show some (if 0 ≤ x then _ else _) = _; rw [if_pos h]
theorem trunc_fin' (h : x < 0) : CFloat.trunc (fin x) = some ⌈x⌉ := by
  show some (if 0 ≤ x then _ else _) = _; rw [if_neg (not_le.2 h)]
@[simp] theorem fmax_fin : CFloat.fmax (fin x) (fin y) = fin (max x y) := by
  unfold CFloat.fmax; simp only [lt_fin, decide_eq_true_eq]
  split
  · rename_i h; rw [max_eq_right h.le]
  · rename_i h; rw [max_eq_left (not_lt.1 h)]
@[simp] theorem fmin_fin : CFloat.fmin (fin x) (fin y) = fin (min x y) := by
  unfold CFloat.fmin; simp only [lt_fin, decide_eq_true_eq]
  split
  · rename_i h; rw [min_eq_right h.le]
  · rename_i h; rw [min_eq_left (not_lt.1 h)]
theorem toU32_fin (h : 0 ≤ x) (h' : x < 2 ^ 32) : CFloat.toU32 (fin x) = some ⌊x⌋.toNat := by
  unfold CFloat.toU32
  rw [trunc_fin x h]
  have h1 : 0 ≤ ⌊x⌋ := Int.floor_nonneg.2 h
  have h2 : ⌊x⌋ < 4294967296 := by rw [Int.floor_lt]; norm_num at h' ⊢; exact h'
  simp only [h1, h2, and_self, if_true]

end
end XR
end Girgs
