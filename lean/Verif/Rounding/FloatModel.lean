import Verif.Autodiff.RealOps
import Verif.Rounding.RoundModel

/-!
The arithmetic that the automatic differentiation code runs on, with rounding errors.

The headers under `include/sleipnir/autodiff` are templates over `Scalar`, and the model of them is a model over
`ScalarOps`. `RealOps.lean` gives the operations exactly; here every operation that rounds has a relative error.
Overflow and underflow are not modelled.
-/

namespace Slp

/-- Floating-point arithmetic together with the functions of the C++ library that `expression.hpp` calls. The
number `u` bounds the relative error of the arithmetic operations and that of the library functions. What is assumed
about `std::acos`, `std::asin`, `std::atan`, `std::atan2`, `std::erf`, `std::log`, `std::log10`, `std::pow`,
`std::tan`, `std::tanh` and two of the constants is in `Lib`: polynomials and their numerical derivatives do not need
it. -/
structure FloatMath extends Rounding where
  lt_one : u < 1
  /-- `std::numbers::pi` -/
  cpi : ℝ
  /-- `2.0 * std::numbers::inv_sqrtpi` -/
  cerf : ℝ
  /-- `std::numbers::ln10` -/
  cln10 : ℝ
  facos : ℝ → ℝ
  fasin : ℝ → ℝ
  fatan : ℝ → ℝ
  fatan2 : ℝ → ℝ → ℝ
  fcbrt : ℝ → ℝ
  fcos : ℝ → ℝ
  fcosh : ℝ → ℝ
  ferf : ℝ → ℝ
  fexp : ℝ → ℝ
  fhypot : ℝ → ℝ → ℝ
  flog : ℝ → ℝ
  flog10 : ℝ → ℝ
  fpow : ℝ → ℝ → ℝ
  fsin : ℝ → ℝ
  fsinh : ℝ → ℝ
  fsqrt : ℝ → ℝ
  ftan : ℝ → ℝ
  ftanh : ℝ → ℝ
  cln10_err : |cln10 - Real.log 10| ≤ u * |Real.log 10|
  fcbrt_err : ∀ x, |fcbrt x - rcbrt x| ≤ u * |rcbrt x|
  fcos_err : ∀ x, |fcos x - Real.cos x| ≤ u * |Real.cos x|
  fcosh_err : ∀ x, |fcosh x - Real.cosh x| ≤ u * |Real.cosh x|
  fexp_err : ∀ x, |fexp x - Real.exp x| ≤ u * |Real.exp x|
  fhypot_err : ∀ x y, |fhypot x y - √(x ^ 2 + y ^ 2)| ≤ u * |√(x ^ 2 + y ^ 2)|
  fsin_err : ∀ x, |fsin x - Real.sin x| ≤ u * |Real.sin x|
  fsinh_err : ∀ x, |fsinh x - Real.sinh x| ≤ u * |Real.sinh x|
  fsqrt_err : ∀ x, 0 ≤ x → |fsqrt x - √x| ≤ u * |√x|

namespace FloatMath

/-- The number `u` bounds the relative error of the remaining library functions, too, wherever they are defined, and
integers that have few enough digits are not rounded. -/
structure Lib (A : FloatMath) : Prop where
  cpi_err : |A.cpi - Real.pi| ≤ A.u * |Real.pi|
  cerf_err : |A.cerf - 2 / √Real.pi| ≤ A.u * |2 / √Real.pi|
  facos_err : ∀ x, -1 ≤ x → x ≤ 1 → |A.facos x - Real.arccos x| ≤ A.u * |Real.arccos x|
  fasin_err : ∀ x, -1 ≤ x → x ≤ 1 → |A.fasin x - Real.arcsin x| ≤ A.u * |Real.arcsin x|
  fatan_err : ∀ x, |A.fatan x - Real.arctan x| ≤ A.u * |Real.arctan x|
  fatan2_err : ∀ y x, |A.fatan2 y x - ratan2 y x| ≤ A.u * |ratan2 y x|
  ferf_err : ∀ x, |A.ferf x - rerf x| ≤ A.u * |rerf x|
  flog_err : ∀ x, 0 < x → |A.flog x - Real.log x| ≤ A.u * |Real.log x|
  flog10_err : ∀ x, 0 < x → |A.flog10 x - Real.logb 10 x| ≤ A.u * |Real.logb 10 x|
  fpow_err : ∀ x y : ℝ, (0 < x ∨ ∃ k : ℤ, y = k ∧ (x ≠ 0 ∨ 0 ≤ k)) → |A.fpow x y - x ^ y| ≤ A.u * |x ^ y|
  ftan_err : ∀ x, Real.cos x ≠ 0 → |A.ftan x - Real.tan x| ≤ A.u * |Real.tan x|
  ftanh_err : ∀ x, |A.ftanh x - Real.tanh x| ≤ A.u * |Real.tanh x|
  rnd_int : ∀ k : ℤ, |(k : ℝ)| * A.u ≤ 1 → A.rnd k = k

/-- The floating-point numbers. Simplification: any real number may be stored; only results of operations are
rounded (the arithmetic of `Scalar` in `expression.hpp:444-2050`). -/
def Num (_ : FloatMath) : Type := ℝ

/-- The operations of `Scalar` in floating-point arithmetic. Negation, absolute values, comparisons, and the small
integers that the code uses are exact (the arithmetic of `Scalar` in `expression.hpp:444-2050`). -/
@[instance_reducible] noncomputable def arith (A : FloatMath) : ScalarOps ℝ where
  zero := (0 : ℝ)
  one := (1 : ℝ)
  negOne := (-1 : ℝ)
  two := (2 : ℝ)
  three := (3 : ℝ)
  pi := A.cpi
  twoInvSqrtPi := A.cerf
  ln10 := A.cln10
  eq a b := decide (a = b)
  lt a b := decide (a < b)
  le a b := decide (a ≤ b)
  add a b := A.rnd (a + b)
  sub a b := A.rnd (a - b)
  mul a b := A.rnd (a * b)
  div a b := A.rnd (a / b)
  neg a := -a
  abs a := |a|
  acos := A.facos
  asin := A.fasin
  atan := A.fatan
  atan2 := A.fatan2
  cbrt := A.fcbrt
  cos := A.fcos
  cosh := A.fcosh
  erf := A.ferf
  exp := A.fexp
  hypot := A.fhypot
  log := A.flog
  log10 := A.flog10
  max a b := Max.max a b
  min a b := Min.min a b
  pow := A.fpow
  sin := A.fsin
  sinh := A.fsinh
  sqrt := A.fsqrt
  tan := A.ftan
  tanh := A.ftanh

noncomputable instance ops (A : FloatMath) : ScalarOps A.Num := A.arith

/-- The number that a floating-point number stands for (the arithmetic of `Scalar` in `expression.hpp:444-2050`). -/
def toReal {A : FloatMath} (x : A.Num) : ℝ := x

/-- The same graph with its numbers read as real numbers (the arithmetic of `Scalar` in `expression.hpp:444-2050`). -/
def real {A : FloatMath} (h : Heap A.Num) : Heap ℝ where
  next := h.next
  op := h.op
  ty := h.ty
  args := h.args
  val n := toReal (h.val n)
  adjoint n := toReal (h.adjoint n)
  adjE := h.adjE
  scratch := h.scratch

end FloatMath

end Slp
