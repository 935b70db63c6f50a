import Verif.Autodiff.ExprModel
import Mathlib.Analysis.SpecialFunctions.Trigonometric.Inverse
import Mathlib.Analysis.SpecialFunctions.Trigonometric.Arctan
import Mathlib.Analysis.SpecialFunctions.Complex.Arg
import Mathlib.Analysis.SpecialFunctions.Pow.Real
import Mathlib.Analysis.SpecialFunctions.Log.Base
import Mathlib.MeasureTheory.Integral.IntervalIntegral.Basic
import Mathlib.MeasureTheory.Measure.Lebesgue.Basic

/-!
The mathematical real instance of `ScalarOps`: every operation is the real function of that name.
Simplification with respect to the C++: rounding, infinities, NaN and signed zeros do not exist, and
Mathlib's total functions give conventional values outside their domain (for example `x / 0 = 0`);
theorems about values therefore carry explicit domain conditions.
-/

namespace Slp

/-- `std::cbrt` on the reals: the odd extension of `x ^ (1/3)` (`expression.hpp:524-527`). -/
noncomputable def rcbrt (x : ℝ) : ℝ := if x < 0 then -((-x) ^ (1 / 3 : ℝ)) else x ^ (1 / 3 : ℝ)

/-- `std::erf` on the reals (`expression.hpp:1173-1176`). -/
noncomputable def rerf (x : ℝ) : ℝ := 2 / √Real.pi * ∫ t in (0 : ℝ)..x, Real.exp (-t ^ 2)

/-- `std::atan2` on the reals: the angle of the point `(x, y)`, in `(-π, π]` (`expression.hpp:1005-1008`). -/
noncomputable def ratan2 (y x : ℝ) : ℝ := Complex.arg ⟨x, y⟩

/-- The operations of `Scalar` read as real functions. -/
noncomputable instance realOps : ScalarOps ℝ where
  zero := 0
  one := 1
  negOne := -1
  two := 2
  three := 3
  pi := Real.pi
  twoInvSqrtPi := 2 / √Real.pi
  ln10 := Real.log 10
  eq a b := decide (a = b)
  lt a b := decide (a < b)
  le a b := decide (a ≤ b)
  add a b := a + b
  sub a b := a - b
  mul a b := a * b
  div a b := a / b
  neg a := -a
  abs a := |a|
  acos := Real.arccos
  asin := Real.arcsin
  atan := Real.arctan
  atan2 := ratan2
  cbrt := rcbrt
  cos := Real.cos
  cosh := Real.cosh
  erf := rerf
  exp := Real.exp
  hypot a b := √(a ^ 2 + b ^ 2)
  log := Real.log
  log10 := Real.logb 10
  max a b := Max.max a b
  min a b := Min.min a b
  pow a b := a ^ b
  sin := Real.sin
  sinh := Real.sinh
  sqrt := Real.sqrt
  tan := Real.tan
  tanh := Real.tanh

section
@[simp] theorem r_zero : (ScalarOps.zero : ℝ) = 0 := rfl
@[simp] theorem r_one : (ScalarOps.one : ℝ) = 1 := rfl
@[simp] theorem r_negOne : (ScalarOps.negOne : ℝ) = -1 := rfl
@[simp] theorem r_two : (ScalarOps.two : ℝ) = 2 := rfl
@[simp] theorem r_three : (ScalarOps.three : ℝ) = 3 := rfl
@[simp] theorem r_pi : (ScalarOps.pi : ℝ) = Real.pi := rfl
@[simp] theorem r_twoInvSqrtPi : (ScalarOps.twoInvSqrtPi : ℝ) = 2 / √Real.pi := rfl
@[simp] theorem r_ln10 : (ScalarOps.ln10 : ℝ) = Real.log 10 := rfl
@[simp] theorem r_eq (a b : ℝ) : ScalarOps.eq a b = decide (a = b) := rfl
@[simp] theorem r_lt (a b : ℝ) : ScalarOps.lt a b = decide (a < b) := rfl
@[simp] theorem r_le (a b : ℝ) : ScalarOps.le a b = decide (a ≤ b) := rfl
@[simp] theorem r_add (a b : ℝ) : ScalarOps.add a b = a + b := rfl
@[simp] theorem r_sub (a b : ℝ) : ScalarOps.sub a b = a - b := rfl
@[simp] theorem r_mul (a b : ℝ) : ScalarOps.mul a b = a * b := rfl
@[simp] theorem r_div (a b : ℝ) : ScalarOps.div a b = a / b := rfl
@[simp] theorem r_neg (a : ℝ) : ScalarOps.neg a = -a := rfl
@[simp] theorem r_abs (a : ℝ) : ScalarOps.abs a = |a| := rfl
@[simp] theorem r_acos (a : ℝ) : ScalarOps.acos a = Real.arccos a := rfl
@[simp] theorem r_asin (a : ℝ) : ScalarOps.asin a = Real.arcsin a := rfl
@[simp] theorem r_atan (a : ℝ) : ScalarOps.atan a = Real.arctan a := rfl
@[simp] theorem r_atan2 (a b : ℝ) : ScalarOps.atan2 a b = ratan2 a b := rfl
@[simp] theorem r_cbrt (a : ℝ) : ScalarOps.cbrt a = rcbrt a := rfl
@[simp] theorem r_cos (a : ℝ) : ScalarOps.cos a = Real.cos a := rfl
@[simp] theorem r_cosh (a : ℝ) : ScalarOps.cosh a = Real.cosh a := rfl
@[simp] theorem r_erf (a : ℝ) : ScalarOps.erf a = rerf a := rfl
@[simp] theorem r_exp (a : ℝ) : ScalarOps.exp a = Real.exp a := rfl
@[simp] theorem r_hypot (a b : ℝ) : ScalarOps.hypot a b = √(a ^ 2 + b ^ 2) := rfl
@[simp] theorem r_log (a : ℝ) : ScalarOps.log a = Real.log a := rfl
@[simp] theorem r_log10 (a : ℝ) : ScalarOps.log10 a = Real.logb 10 a := rfl
@[simp] theorem r_max (a b : ℝ) : ScalarOps.max a b = Max.max a b := rfl
@[simp] theorem r_min (a b : ℝ) : ScalarOps.min a b = Min.min a b := rfl
@[simp] theorem r_pow (a b : ℝ) : ScalarOps.pow a b = a ^ b := rfl
@[simp] theorem r_sin (a : ℝ) : ScalarOps.sin a = Real.sin a := rfl
@[simp] theorem r_sinh (a : ℝ) : ScalarOps.sinh a = Real.sinh a := rfl
@[simp] theorem r_sqrt (a : ℝ) : ScalarOps.sqrt a = √a := rfl
@[simp] theorem r_tan (a : ℝ) : ScalarOps.tan a = Real.tan a := rfl
@[simp] theorem r_tanh (a : ℝ) : ScalarOps.tanh a = Real.tanh a := rfl
end

@[simp] theorem rcbrt_zero : rcbrt 0 = 0 := by
  simp [rcbrt]

@[simp] theorem rcbrt_one : rcbrt 1 = 1 := by
  have : ¬ (1 : ℝ) < 0 := by norm_num
  simp [rcbrt, this]

@[simp] theorem rcbrt_neg_one : rcbrt (-1) = -1 := by
  simp [rcbrt]

@[simp] theorem rerf_zero : rerf 0 = 0 := by simp [rerf]

/-- `rcbrt` is the real cube root. -/
theorem rcbrt_cube (x : ℝ) : rcbrt x ^ 3 = x := by
  unfold rcbrt
  split
  · next h =>
    have : ((-x) ^ (1 / 3 : ℝ)) ^ 3 = -x := by
      rw [← Real.rpow_natCast, ← Real.rpow_mul (by linarith)]; norm_num
    rw [Odd.neg_pow (by decide), this, neg_neg]
  · next h =>
    rw [← Real.rpow_natCast, ← Real.rpow_mul (by linarith)]; norm_num

end Slp
