import Verif.Autodiff.DirectSpec
import Mathlib.Data.Int.Notation

/-!
Limits of `value_direct`: with the signed zeros of IEEE 754, `0 + x` is not always `x`, and a formula that looks at the
sign of a zero can return another number than direct computation does.
-/

namespace Slp

/-- Integers with a negative zero. -/
inductive ZInt where
  | int (z : Int)
  | negZero
  deriving DecidableEq, Repr

namespace ZInt

/-- The integer itself; both zeros are `0`. -/
def val : ZInt → Int
  | int z => z
  | negZero => 0

/-- `-0 + -0` is `-0`; other sums that vanish are `+0`. -/
def add : ZInt → ZInt → ZInt
  | negZero, negZero => negZero
  | a, b => int (a.val + b.val)

def neg : ZInt → ZInt
  | negZero => int 0
  | int z => if z = 0 then negZero else int (-z)

/-- `std::atan2` rounded to integers, for points on the axes: `atan2(±0, x)` is `±π` for negative `x`. -/
def atan2 : ZInt → ZInt → ZInt
  | int 0, int x => if x < 0 then int 3 else int 0
  | negZero, int x => if x < 0 then int (-3) else negZero
  | y, _ => if y.val < 0 then int (-2) else int 2

end ZInt

open ZInt in
/-- Functions that the witness does not use are zero. -/
instance : ScalarOps ZInt where
  zero := int 0
  one := int 1
  negOne := int (-1)
  two := int 2
  three := int 3
  pi := int 3
  twoInvSqrtPi := int 1
  ln10 := int 2
  eq a b := a.val = b.val
  lt a b := a.val < b.val
  le a b := a.val ≤ b.val
  add := ZInt.add
  sub a b := ZInt.add a (ZInt.neg b)
  mul a b := int (a.val * b.val)
  div a b := int (a.val / b.val)
  neg := ZInt.neg
  abs a := int a.val.natAbs
  acos _ := int 0
  asin _ := int 0
  atan _ := int 0
  atan2 := ZInt.atan2
  cbrt _ := int 0
  cos _ := int 0
  cosh _ := int 0
  erf _ := int 0
  exp _ := int 0
  hypot _ _ := int 0
  log _ := int 0
  log10 _ := int 0
  max a b := if a.val < b.val then b else a
  min a b := if b.val < a.val then b else a
  pow _ _ := int 0
  sin _ := int 0
  sinh _ := int 0
  sqrt _ := int 0
  tan _ := int 0
  tanh _ := int 0

/-- `atan2(0 + x, -1).value()` for `x = -0`. -/
def negZeroProgram : List (Cmd ZInt) :=
  [.decl, .setValue 0 .negZero, .lit (.int 0), .bin .add 1 0, .lit (.int (-1)), .bin .atan2 2 3, .value 4]

/-- The program respects the preconditions of the interface, `value()` returns `-π`, but direct computation of the same
formula gives `π`: `operator+` returns `x` itself for `0 + x` (`expression.hpp:243-255`). -/
theorem negative_zero_differs :
    Forms.ValidAll negZeroProgram Forms.empty ∧
      ((run negZeroProgram Api.empty).bind fun r => r.1.getLast?) = some (.num (.int (-3))) ∧
      Form.calc (fun _ => ZInt.negZero) (.bin .atan2 (.bin .add (.lit (.int 0)) (.var 0)) (.lit (.int (-1)))) = .int 3 := by
  refine ⟨by simp [negZeroProgram, Forms.ValidAll, Forms.Valid, Forms.next, Forms.empty, Forms.IsVar, Forms.form], ?_, ?_⟩
  · rfl
  · rfl

end Slp
