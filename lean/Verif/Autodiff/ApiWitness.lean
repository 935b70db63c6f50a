import Verif.Autodiff.ApiModel
import Mathlib.Data.Int.Notation

/-!
Witnesses for the limits of the autodiff properties: what happens when the preconditions of
`ApiProps` are not met, or with non-finite numbers. They are stated over `XInt`, integers with the
IEEE-754 rules for infinities and NaN (exact as long as integers are small).
-/

namespace Slp

/-- Integers with infinities and NaN. -/
inductive XInt where
  | fin (z : Int)
  | inf (negative : Bool)
  | nan
  deriving DecidableEq, Repr

namespace XInt

def neg : XInt → XInt
  | fin z => fin (-z)
  | inf b => inf (!b)
  | nan => nan

def add : XInt → XInt → XInt
  | fin a, fin b => fin (a + b)
  | inf a, inf b => if a = b then inf a else nan
  | inf a, fin _ => inf a
  | fin _, inf b => inf b
  | _, _ => nan

def isNeg : XInt → Bool
  | fin z => z < 0
  | inf b => b
  | nan => false

def mul : XInt → XInt → XInt
  | fin a, fin b => fin (a * b)
  | nan, _ => nan
  | _, nan => nan
  | a, b => if a = fin 0 ∨ b = fin 0 then nan else inf (xor a.isNeg b.isNeg)

/-- Division; exact quotients only, which is all that the witnesses need. -/
def div : XInt → XInt → XInt
  | fin a, fin b => if b = 0 then (if a = 0 then nan else inf (a < 0)) else fin (a / b)
  | fin _, inf _ => fin 0
  | inf a, fin b => inf (xor a (b < 0))
  | _, _ => nan

def lt : XInt → XInt → Bool
  | fin a, fin b => a < b
  | inf a, inf b => a && !b
  | inf a, fin _ => a
  | fin _, inf b => !b
  | _, _ => false

def eq : XInt → XInt → Bool
  | nan, _ => false
  | a, b => a = b

/-- `std::log` and `std::log10`, as far as they are integers. -/
def log : XInt → XInt
  | fin z => if z = 0 then inf true else if z = 1 then fin 0 else nan
  | inf false => inf false
  | _ => nan

/-- `std::pow` for natural exponents; `pow(x, 0) == 1` for every `x`. -/
def pow : XInt → XInt → XInt
  | fin a, fin b => if 0 ≤ b then fin (a ^ b.toNat) else nan
  | _, fin 0 => fin 1
  | _, _ => nan

end XInt

open XInt in
/-- Functions that do not map integers to integers are not used by the witnesses. -/
instance : ScalarOps XInt where
  zero := fin 0
  one := fin 1
  negOne := fin (-1)
  two := fin 2
  three := fin 3
  pi := nan
  twoInvSqrtPi := nan
  ln10 := nan
  eq := XInt.eq
  lt := XInt.lt
  le a b := XInt.lt a b || XInt.eq a b
  add := XInt.add
  sub a b := XInt.add a (XInt.neg b)
  mul := XInt.mul
  div := XInt.div
  neg := XInt.neg
  abs a := if a.isNeg then a.neg else a
  acos _ := nan
  asin _ := nan
  atan _ := nan
  atan2 _ _ := nan
  cbrt _ := nan
  cos _ := nan
  cosh _ := nan
  erf _ := nan
  exp _ := nan
  hypot _ _ := nan
  log := XInt.log
  log10 := XInt.log
  max a b := if XInt.lt a b then b else a
  min a b := if XInt.lt b a then b else a
  pow := XInt.pow
  sin _ := nan
  sinh _ := nan
  sqrt _ := nan
  tan _ := nan
  tanh _ := nan

/-- What the last call of a program returns. -/
def lastOf (cs : List (Cmd XInt)) : Option (Obs XInt) :=
  (run cs Api.empty).bind fun r => r.1.getLast?

open XInt

/-- C03: `pow(0, 0)` on constants is 0, although `std::pow(0, 0)` is 1. -/
theorem pow_zero_zero : lastOf [.lit (fin 0), .lit (fin 0), .bin .pow 0 1, .value 2] =
    some (.num (fin 0)) ∧ (ScalarOps.pow (fin 0) (fin 0) : XInt) = fin 1 := by
  constructor <;> rfl

/-- C03: `pow(0, y)` is pruned to 0 also when `y` is zero at run time. -/
theorem pow_zero_var : lastOf [.lit (fin 0), .decl, .bin .pow 0 1, .setValue 1 (fin 0), .value 2] =
    some (.num (fin 0)) := rfl

/-- C03: `log(0)` of a constant is 0, although `std::log(0)` is minus infinity. -/
theorem log_zero : lastOf [.lit (fin 0), .un .log 0, .value 1] = some (.num (fin 0)) ∧
    (ScalarOps.log (fin 0) : XInt) = inf true := by
  constructor <;> rfl

/-- C03: `0 * x` is pruned to 0 also where `x` is infinite, for which IEEE arithmetic gives NaN. -/
theorem zero_mul_inf : lastOf [.lit (fin 0), .decl, .setValue 1 (inf false), .bin .mul 0 1, .value 2] =
    some (.num (fin 0)) ∧ (ScalarOps.mul (fin 0) (inf false) : XInt) = nan := by
  constructor <;> rfl

/-- C01 needs `set_value` on independent variables only: a constant that was folded into an
expression is not seen again. `c = 2; y = c + 3; c.set_value(10)` leaves `y` at 5. -/
theorem set_value_on_constant_lost :
    lastOf [.lit (fin 2), .lit (fin 3), .bin .add 0 1, .setValue 0 (fin 10), .value 2] =
      some (.num (fin 5)) := rfl

/-- Pruned results share the node of their operand: after `y = x * 1`, `y.set_value(7)` changes `x`. -/
theorem pruned_result_aliases_operand :
    lastOf [.decl, .lit (fin 1), .bin .mul 0 1, .setValue 2 (fin 7), .value 0] =
      some (.num (fin 7)) := rfl

/-- C06 needs `set_value` on independent variables only: a coefficient of a linear row that is changed
after construction is not seen by the Jacobian object, although `value()` sees it and a new Jacobian
object does too. -/
theorem jacobian_stale_after_constant_changed :
    lastOf [.lit (fin 2), .decl, .bin .mul 0 1, .jac [2] [1], .setValue 0 (fin 3), .jacValue 0] =
      some (.mat [[fin 2]]) ∧
    lastOf [.lit (fin 2), .decl, .bin .mul 0 1, .jac [2] [1], .setValue 0 (fin 3), .setValue 1 (fin 1),
      .value 2] = some (.num (fin 3)) ∧
    lastOf [.lit (fin 2), .decl, .bin .mul 0 1, .jac [2] [1], .setValue 0 (fin 3), .jac [2] [1],
      .jacValue 1] = some (.mat [[fin 3]]) := by
  refine ⟨rfl, rfl, rfl⟩

/-- C05 and C07 need distinct `wrt` variables: with a repeated variable `value()` has the derivative in
the last of the equal columns only, `get()` in the first only. -/
theorem jacobian_repeated_wrt :
    lastOf [.decl, .setValue 0 (fin 3), .bin .mul 0 0, .jac [1] [0, 0], .jacValue 0] =
      some (.mat [[fin 0, fin 6]]) ∧
    lastOf [.decl, .setValue 0 (fin 3), .bin .mul 0 0, .jac [1] [0, 0], .jacGet 0, .value 2] =
      some (.num (fin 6)) ∧
    lastOf [.decl, .setValue 0 (fin 3), .bin .mul 0 0, .jac [1] [0, 0], .jacGet 0, .value 3] =
      some (.num (fin 0)) := by
  refine ⟨rfl, rfl, rfl⟩

end Slp
