import Verif.Autodiff.GraphModel

/-!
Model of `include/sleipnir/autodiff/expression.hpp`: expression nodes, the operators and elementary
functions that create them (with their pruning and folding rules), and the per-node `value`,
`grad_l`, `grad_r`, `grad_expr_l`, `grad_expr_r` functions.

The scalar type is a parameter: `ScalarOps S` lists the operations of `Scalar` that the header uses.
-/

namespace Slp

/-- `ExpressionType` (`expression_type.hpp:15-26`), in the order of the enumerators. -/
inductive Ty where
  | none | constant | linear | quadratic | nonlinear
  deriving DecidableEq, Repr

/-- The numeric value of the enumerator (`expression_type.hpp:15-26`), used for comparisons. -/
def Ty.rank : Ty → ℕ
  | .none => 0 | .constant => 1 | .linear => 2 | .quadratic => 3 | .nonlinear => 4

/-- `std::max` on `ExpressionType` values: the left one unless it is smaller (`expression.hpp:262,311`). -/
def Ty.max (a b : Ty) : Ty := if a.rank < b.rank then b else a

/-- The derived expression classes of `expression.hpp`, one constructor per class (the classes of
`expression.hpp:444-2029`). -/
inductive Op where
  | constant | variable
  | add | sub | mul | div | neg
  | abs | acos | asin | atan | atan2 | cbrt | cos | cosh | erf | exp | hypot
  | isNonneg | isPos | log | log10 | max | min | pow | sign | sin | sinh | sqrt | tan | tanh
  deriving DecidableEq, Repr

/-- Operations and literals of `Scalar` used by `expression.hpp` (arithmetic, comparisons and the
`std::` mathematical functions). `eq`, `lt`, `le` are C++'s `==`, `<`, `<=` on the scalar. -/
class ScalarOps (S : Type) where
  zero : S
  one : S
  negOne : S
  two : S
  three : S
  /-- `std::numbers::pi` -/
  pi : S
  /-- `2.0 * std::numbers::inv_sqrtpi` -/
  twoInvSqrtPi : S
  /-- `std::numbers::ln10` -/
  ln10 : S
  eq : S → S → Bool
  lt : S → S → Bool
  le : S → S → Bool
  add : S → S → S
  sub : S → S → S
  mul : S → S → S
  div : S → S → S
  neg : S → S
  abs : S → S
  acos : S → S
  asin : S → S
  atan : S → S
  atan2 : S → S → S
  cbrt : S → S
  cos : S → S
  cosh : S → S
  erf : S → S
  exp : S → S
  hypot : S → S → S
  log : S → S
  log10 : S → S
  max : S → S → S
  min : S → S → S
  pow : S → S → S
  sin : S → S
  sinh : S → S
  sqrt : S → S
  tan : S → S
  tanh : S → S

open ScalarOps

/-- All live expression nodes (`Expression`, `expression.hpp:88-118`), field by field; `next` is the
identifier of the next node to be allocated. Simplification: identifiers are never reused (release
and reuse of memory are modelled separately, see `Verif/Memory`). The virtual `type()` of the
template parameter `T` is the field `ty`. -/
structure Heap (S : Type) where
  next : ℕ
  op : ℕ → Op
  ty : ℕ → Ty
  args : Graph.Args
  val : ℕ → S
  adjoint : ℕ → S
  adjE : ℕ → Option ℕ
  scratch : Graph.Scratch

/-- Programs that allocate expression nodes (modelling only: the heap of `expression.hpp:99-139` as a state). -/
abbrev HM (S : Type) := StateM (Heap S)

variable {S : Type} [ScalarOps S]

/-- `make_expression_ptr` (`expression.hpp:51-58`) with the constructors at `expression.hpp:126-139`:
a new node with the given arguments, `val`, zero adjoint, null `adjoint_expr`, `scratch == -1`. -/
def alloc (op : Op) (ty : Ty) (args : Option ℕ × Option ℕ) (v : S) : HM S ℕ := fun h =>
  (h.next,
   { next := h.next + 1
     op := Function.update h.op h.next op
     ty := Function.update h.ty h.next ty
     args := Function.update h.args h.next args
     val := Function.update h.val h.next v
     adjoint := Function.update h.adjoint h.next zero
     adjE := Function.update h.adjE h.next none
     scratch := Function.update h.scratch h.next (-1) })

/-- `constant_ptr` / `ConstantExpression` (`expression.hpp:422-424`, `575-588`). -/
def mkConst (v : S) : HM S ℕ := alloc .constant .constant (none, none) v

/-- `DecisionVariableExpression` default constructor (`expression.hpp:594-609`): value zero. -/
def mkVar : HM S ℕ := alloc .variable .linear (none, none) zero

/-- A unary operator node (`expression.hpp:131-132`); `val` starts at zero. -/
def mkUn (op : Op) (ty : Ty) (a : ℕ) : HM S ℕ := alloc op ty (some a, none) zero

/-- A binary operator node (`expression.hpp:138-139`); `val` starts at zero. -/
def mkBin (op : Op) (ty : Ty) (a b : ℕ) : HM S ℕ := alloc op ty (some a, some b) zero

/-- `Expression::is_constant` (`expression.hpp:147-149`). -/
def isConst (h : Heap S) (p : ℕ) (c : S) : Bool := h.ty p = .constant && eq (h.val p) c

/-- `type() == CONSTANT` (`expression.hpp:148,1373,1406`). -/
def isK (h : Heap S) (p : ℕ) : Bool := h.ty p = .constant

/-- The type cascade `LINEAR → LINEAR, QUADRATIC → QUADRATIC, otherwise NONLINEAR` used by
`operator*`, `operator/`, `operator+`, `operator-` (`expression.hpp:181-187, 189-195, 227-233,
263-272, 312-321, 341-347`). -/
def cascade : Ty → Ty
  | .linear => .linear
  | .quadratic => .quadratic
  | _ => .nonlinear

/-- `operator*` (`expression.hpp:155-201`). -/
def mul (l r : ℕ) : HM S ℕ := do
  let h ← get
  if isConst h l zero then return l
  else if isConst h r zero then return r
  else if isConst h l one then return r
  else if isConst h r one then return l
  else if isK h l && isK h r then mkConst (ScalarOps.mul (h.val l) (h.val r))
  else if isK h l then mkBin .mul (cascade (h.ty r)) l r
  else if isK h r then mkBin .mul (cascade (h.ty l)) l r
  else if h.ty l = .linear && h.ty r = .linear then mkBin .mul .quadratic l r
  else mkBin .mul .nonlinear l r

/-- `operator/` (`expression.hpp:207-237`). -/
def div (l r : ℕ) : HM S ℕ := do
  let h ← get
  if isConst h l zero then return l
  else if isConst h r one then return l
  else if isK h l && isK h r then mkConst (ScalarOps.div (h.val l) (h.val r))
  else if isK h r then mkBin .div (cascade (h.ty l)) l r
  else mkBin .div .nonlinear l r

/-- `operator+` on non-null operands (`expression.hpp:243-273`). -/
def add (l r : ℕ) : HM S ℕ := do
  let h ← get
  if isConst h l zero then return r
  else if isConst h r zero then return l
  else if isK h l && isK h r then mkConst (ScalarOps.add (h.val l) (h.val r))
  else mkBin .add (cascade (Ty.max (h.ty l) (h.ty r))) l r

/-- `operator+=` on adjoint expressions (`expression.hpp:279-282`) with the null-pointer checks of
`operator+` (`expression.hpp:249, 252`): a null operand yields the other one. -/
def addOpt (l r : Option ℕ) : HM S (Option ℕ) :=
  match l, r with
  | none, r => return r
  | some l, none => return some l
  | some l, some r => do return some (← add l r)

/-- Unary `operator-` (`expression.hpp:327-348`). -/
def neg (x : ℕ) : HM S ℕ := do
  let h ← get
  if isConst h x zero then return x
  else if isK h x then mkConst (ScalarOps.neg (h.val x))
  else mkUn .neg (cascade (h.ty x)) x

/-- Binary `operator-` (`expression.hpp:288-322`). -/
def sub (l r : ℕ) : HM S ℕ := do
  let h ← get
  if isConst h l zero then
    if isConst h r zero then return r else neg r
  else if isConst h r zero then return l
  else if isK h l && isK h r then mkConst (ScalarOps.sub (h.val l) (h.val r))
  else mkBin .sub (cascade (Ty.max (h.ty l) (h.ty r))) l r

/-- Unary `operator+` (`expression.hpp:353-355`). -/
def pos (x : ℕ) : HM S ℕ := return x

/-- The common shape "constant zero → itself; constant → folded; otherwise a nonlinear node" of
`abs` (`expression.hpp:811-827`), `asin` (920-936), `atan` (974-990), `erf` (1200-1216),
`log` (1447-1463), `log10` (1501-1517), `sin` (1838-1854), `sinh` (1893-1909), `tan` (2007-2023),
`tanh` (2065-2081). Note that this includes `log` and `log10` of the constant zero. -/
def unZero (op : Op) (f : S → S) (x : ℕ) : HM S ℕ := do
  let h ← get
  if isConst h x zero then return x
  else if isK h x then mkConst (f (h.val x))
  else mkUn op .nonlinear x

/-- The common shape "constant zero → a given constant; constant → folded; otherwise a nonlinear
node" of `acos` (`expression.hpp:866-881`), `cos` (1091-1106), `cosh` (1145-1160), `exp`
(1255-1270). -/
def unAt0 (op : Op) (f : S → S) (c : S) (x : ℕ) : HM S ℕ := do
  let h ← get
  if isConst h x zero then mkConst c
  else if isK h x then mkConst (f (h.val x))
  else mkUn op .nonlinear x

/-- `abs` (`expression.hpp:811-827`). -/
def abs (x : ℕ) : HM S ℕ := unZero .abs ScalarOps.abs x
/-- `acos` (`expression.hpp:866-881`). -/
def acos (x : ℕ) : HM S ℕ := unAt0 .acos ScalarOps.acos (ScalarOps.div pi two) x
/-- `asin` (`expression.hpp:920-936`). -/
def asin (x : ℕ) : HM S ℕ := unZero .asin ScalarOps.asin x
/-- `atan` (`expression.hpp:974-990`). -/
def atan (x : ℕ) : HM S ℕ := unZero .atan ScalarOps.atan x
/-- `atan2` (`expression.hpp:1041-1052`). -/
def atan2 (y x : ℕ) : HM S ℕ := do
  let h ← get
  if isK h y && isK h x then mkConst (ScalarOps.atan2 (h.val y) (h.val x))
  else mkBin .atan2 .nonlinear y x
/-- `cbrt` (`expression.hpp:553-570`). -/
def cbrt (x : ℕ) : HM S ℕ := do
  let h ← get
  if isK h x then
    if eq (h.val x) zero then return x
    else if eq (h.val x) negOne || eq (h.val x) one then return x
    else mkConst (ScalarOps.cbrt (h.val x))
  else mkUn .cbrt .nonlinear x
/-- `cos` (`expression.hpp:1091-1106`). -/
def cos (x : ℕ) : HM S ℕ := unAt0 .cos ScalarOps.cos one x
/-- `cosh` (`expression.hpp:1145-1160`). -/
def cosh (x : ℕ) : HM S ℕ := unAt0 .cosh ScalarOps.cosh one x
/-- `erf` (`expression.hpp:1200-1216`). -/
def erf (x : ℕ) : HM S ℕ := unZero .erf ScalarOps.erf x
/-- `exp` (`expression.hpp:1255-1270`). -/
def exp (x : ℕ) : HM S ℕ := unAt0 .exp ScalarOps.exp one x
/-- `hypot` (`expression.hpp:1327-1345`). -/
def hypot (x y : ℕ) : HM S ℕ := do
  let h ← get
  if isConst h x zero then abs y
  else if isConst h y zero then abs x
  else if isK h x && isK h y then mkConst (ScalarOps.hypot (h.val x) (h.val y))
  else mkBin .hypot .nonlinear x y
/-- `is_nonnegative` (`expression.hpp:1372-1378`). -/
def isNonneg (x : ℕ) : HM S ℕ := do
  let h ← get
  if isK h x then mkConst (if le zero (h.val x) then one else zero)
  else mkUn .isNonneg .nonlinear x
/-- `is_positive` (`expression.hpp:1405-1411`). -/
def isPos (x : ℕ) : HM S ℕ := do
  let h ← get
  if isK h x then mkConst (if lt zero (h.val x) then one else zero)
  else mkUn .isPos .nonlinear x
/-- `log` (`expression.hpp:1447-1463`). -/
def log (x : ℕ) : HM S ℕ := unZero .log ScalarOps.log x
/-- `log10` (`expression.hpp:1501-1517`). -/
def log10 (x : ℕ) : HM S ℕ := unZero .log10 ScalarOps.log10 x
/-- `max` (`expression.hpp:1575-1586`). -/
def max (a b : ℕ) : HM S ℕ := do
  let h ← get
  if isK h a && isK h b then mkConst (ScalarOps.max (h.val a) (h.val b))
  else mkBin .max .nonlinear a b
/-- `min` (`expression.hpp:1645-1656`). -/
def min (a b : ℕ) : HM S ℕ := do
  let h ← get
  if isK h a && isK h b then mkConst (ScalarOps.min (h.val a) (h.val b))
  else mkBin .min .nonlinear a b
/-- `pow` (`expression.hpp:1716-1750`). -/
def pow (b p : ℕ) : HM S ℕ := do
  let h ← get
  if isConst h b zero then return b
  else if isConst h b one then return b
  else if isConst h p zero then mkConst one
  else if isConst h p one then return b
  else if isK h b && isK h p then mkConst (ScalarOps.pow (h.val b) (h.val p))
  else if isConst h p two then
    if h.ty b = .linear then mkBin .mul .quadratic b b else mkBin .mul .nonlinear b b
  else mkBin .pow .nonlinear b p
/-- `sign` (`expression.hpp:1783-1799`). -/
def sign (x : ℕ) : HM S ℕ := do
  let h ← get
  if isK h x then
    if lt (h.val x) zero then mkConst negOne
    else if eq (h.val x) zero then return x
    else mkConst one
  else mkUn .sign .nonlinear x
/-- `sin` (`expression.hpp:1838-1854`). -/
def sin (x : ℕ) : HM S ℕ := unZero .sin ScalarOps.sin x
/-- `sinh` (`expression.hpp:1893-1909`). -/
def sinh (x : ℕ) : HM S ℕ := unZero .sinh ScalarOps.sinh x
/-- `sqrt` (`expression.hpp:1948-1965`). -/
def sqrt (x : ℕ) : HM S ℕ := do
  let h ← get
  if isK h x then
    if eq (h.val x) zero then return x
    else if eq (h.val x) one then return x
    else mkConst (ScalarOps.sqrt (h.val x))
  else mkUn .sqrt .nonlinear x
/-- `tan` (`expression.hpp:2007-2023`). -/
def tan (x : ℕ) : HM S ℕ := unZero .tan ScalarOps.tan x
/-- `tanh` (`expression.hpp:2065-2081`). -/
def tanh (x : ℕ) : HM S ℕ := unZero .tanh ScalarOps.tanh x

/-- Three-argument `hypot` (`variable.hpp:711-714`): `sqrt(pow(x, 2) + pow(y, 2) + pow(z, 2))`, where
each literal `2` is a new constant. -/
def hypot3 (x y z : ℕ) : HM S ℕ := do
  let x2 ← pow x (← mkConst two)
  let y2 ← pow y (← mkConst two)
  let z2 ← pow z (← mkConst two)
  sqrt (← add (← add x2 y2) z2)

/-- The virtual `value(lhs, rhs)` of each class with operands (`expression.hpp:453, 490, 524-527,
624, 664, 703, 780-783, 840-843, 894-897, 949-952, 1005-1008, 1065-1068, 1119-1122, 1173-1176,
1229-1232, 1289-1292, 1358-1360, 1391-1393, 1424-1427, 1476-1479, 1533-1536, 1602-1605, 1675-1678,
1763-1771, 1812-1815, 1867-1870, 1922-1925, 1978-1981, 2036-2039`). For the two leaf classes `value`
returns the stored value; those are never evaluated through this function (no operands), and the
model returns the first argument. -/
def opVal : Op → S → S → S
  | .constant, x, _ => x
  | .variable, x, _ => x
  | .add, x, y => ScalarOps.add x y
  | .sub, x, y => ScalarOps.sub x y
  | .mul, x, y => ScalarOps.mul x y
  | .div, x, y => ScalarOps.div x y
  | .neg, x, _ => ScalarOps.neg x
  | .abs, x, _ => ScalarOps.abs x
  | .acos, x, _ => ScalarOps.acos x
  | .asin, x, _ => ScalarOps.asin x
  | .atan, x, _ => ScalarOps.atan x
  | .atan2, y, x => ScalarOps.atan2 y x
  | .cbrt, x, _ => ScalarOps.cbrt x
  | .cos, x, _ => ScalarOps.cos x
  | .cosh, x, _ => ScalarOps.cosh x
  | .erf, x, _ => ScalarOps.erf x
  | .exp, x, _ => ScalarOps.exp x
  | .hypot, x, y => ScalarOps.hypot x y
  | .isNonneg, x, _ => if le zero x then one else zero
  | .isPos, x, _ => if lt zero x then one else zero
  | .log, x, _ => ScalarOps.log x
  | .log10, x, _ => ScalarOps.log10 x
  | .max, x, y => ScalarOps.max x y
  | .min, x, y => ScalarOps.min x y
  | .pow, x, y => ScalarOps.pow x y
  | .sign, x, _ => if lt x zero then negOne else if eq x zero then zero else one
  | .sin, x, _ => ScalarOps.sin x
  | .sinh, x, _ => ScalarOps.sinh x
  | .sqrt, x, _ => ScalarOps.sqrt x
  | .tan, x, _ => ScalarOps.tan x
  | .tanh, x, _ => ScalarOps.tanh x

/-- The virtual `grad_l(lhs, rhs)` of each class (default `0`, `expression.hpp:383-386`; overrides at
`459, 496, 533-538, 630-632, 670-672, 709, 789-797, 849-852, 903-906, 958-960, 1014-1016, 1074-1077,
1128-1131, 1182-1185, 1238-1241, 1298-1301, 1433, 1485-1487, 1542-1544, 1611-1613, 1684-1687,
1821-1824, 1876-1879, 1931-1934, 1987-1992, 2045-2050`). `a` is `this->adjoint`. -/
def gradL : Op → S → S → S → S
  | .constant, _, _, _ => zero
  | .variable, _, _, _ => zero
  | .add, a, _, _ => a
  | .sub, a, _, _ => a
  | .mul, a, _, y => ScalarOps.mul a y
  | .div, a, _, y => ScalarOps.div a y
  | .neg, a, _, _ => ScalarOps.neg a
  | .abs, a, x, _ => if lt x zero then ScalarOps.neg a else if lt zero x then a else zero
  | .acos, a, x, _ =>
    ScalarOps.div (ScalarOps.neg a) (ScalarOps.sqrt (ScalarOps.sub one (ScalarOps.mul x x)))
  | .asin, a, x, _ => ScalarOps.div a (ScalarOps.sqrt (ScalarOps.sub one (ScalarOps.mul x x)))
  | .atan, a, x, _ => ScalarOps.div a (ScalarOps.add one (ScalarOps.mul x x))
  | .atan2, a, y, x =>
    ScalarOps.div (ScalarOps.mul a x) (ScalarOps.add (ScalarOps.mul y y) (ScalarOps.mul x x))
  | .cbrt, a, x, _ =>
    ScalarOps.div a (ScalarOps.mul (ScalarOps.mul three (ScalarOps.cbrt x)) (ScalarOps.cbrt x))
  | .cos, a, x, _ => ScalarOps.mul a (ScalarOps.neg (ScalarOps.sin x))
  | .cosh, a, x, _ => ScalarOps.mul a (ScalarOps.sinh x)
  | .erf, a, x, _ =>
    ScalarOps.mul (ScalarOps.mul a twoInvSqrtPi)
      (ScalarOps.exp (ScalarOps.mul (ScalarOps.neg x) x))
  | .exp, a, x, _ => ScalarOps.mul a (ScalarOps.exp x)
  | .hypot, a, x, y => ScalarOps.div (ScalarOps.mul a x) (ScalarOps.hypot x y)
  | .isNonneg, _, _, _ => zero
  | .isPos, _, _, _ => zero
  | .log, a, x, _ => ScalarOps.div a x
  | .log10, a, x, _ => ScalarOps.div a (ScalarOps.mul ln10 x)
  | .max, a, x, y => if le y x then a else zero
  | .min, a, x, y => if le x y then a else zero
  | .pow, a, x, y => ScalarOps.mul (ScalarOps.mul a (ScalarOps.pow x (ScalarOps.sub y one))) y
  | .sign, _, _, _ => zero
  | .sin, a, x, _ => ScalarOps.mul a (ScalarOps.cos x)
  | .sinh, a, x, _ => ScalarOps.mul a (ScalarOps.cosh x)
  | .sqrt, a, x, _ => ScalarOps.div a (ScalarOps.mul two (ScalarOps.sqrt x))
  | .tan, a, x, _ => ScalarOps.div a (ScalarOps.mul (ScalarOps.cos x) (ScalarOps.cos x))
  | .tanh, a, x, _ => ScalarOps.div a (ScalarOps.mul (ScalarOps.cosh x) (ScalarOps.cosh x))

/-- The virtual `grad_r(lhs, rhs)` of each class (default `0`, `expression.hpp:393-396`; overrides at
`461, 498, 634-636, 674-676, 1018-1020, 1303-1306, 1546-1548, 1615-1618, 1689-1694`). -/
def gradR : Op → S → S → S → S
  | .add, a, _, _ => a
  | .sub, a, _, _ => ScalarOps.neg a
  | .mul, a, x, _ => ScalarOps.mul a x
  | .div, a, x, y =>
    ScalarOps.div (ScalarOps.mul a (ScalarOps.neg x)) (ScalarOps.mul y y)
  | .atan2, a, y, x =>
    ScalarOps.div (ScalarOps.mul a (ScalarOps.neg y))
      (ScalarOps.add (ScalarOps.mul y y) (ScalarOps.mul x x))
  | .hypot, a, x, y => ScalarOps.div (ScalarOps.mul a y) (ScalarOps.hypot x y)
  | .max, a, x, y => if le y x then zero else a
  | .min, a, x, y => if le x y then zero else a
  | .pow, a, x, y => ScalarOps.mul (ScalarOps.mul a (ScalarOps.pow x y)) (ScalarOps.log x)
  | _, _, _, _ => zero

/-- The virtual `grad_expr_l(lhs, rhs)` of each class (default: the constant zero,
`expression.hpp:403-407`; overrides at `463-467, 500-504, 540-545, 638-642, 678-682, 711-715,
799-803, 854-858, 908-912, 962-966, 1022-1026, 1079-1083, 1133-1137, 1187-1192, 1243-1247,
1308-1312, 1435-1439, 1489-1493, 1550-1556, 1620-1627, 1696-1701, 1826-1830, 1881-1885, 1936-1940,
1994-1999, 2052-2057`). `a` is `this->adjoint_expr`, which is never null when this is called by
`gradient_tree`; `y` is the second operand, or arbitrary for unary classes, which ignore it. -/
def gradEL (op : Op) (a x y : ℕ) : HM S ℕ := do
  match op with
  | .add => return a
  | .sub => return a
  | .mul => mul a y
  | .div => div a y
  | .neg => neg a
  | .abs => mul a (← sign x)
  | .acos => do
    let n ← neg a
    let xx ← mul x x
    div n (← sqrt (← sub (← mkConst one) xx))
  | .asin => do
    let xx ← mul x x
    div a (← sqrt (← sub (← mkConst one) xx))
  | .atan => do
    let xx ← mul x x
    div a (← add (← mkConst one) xx)
  | .atan2 => do
    let n ← mul a y
    let xx ← mul x x
    let yy ← mul y y
    div n (← add xx yy)
  | .cbrt => do
    let c ← cbrt x
    let m ← mul (← mkConst three) c
    div a (← mul m c)
  | .cos => do
    let s ← sin x
    mul a (← neg s)
  | .cosh => do mul a (← sinh x)
  | .erf => do
    let m ← mul a (← mkConst twoInvSqrtPi)
    let nx ← neg x
    mul m (← exp (← mul nx x))
  | .exp => do mul a (← exp x)
  | .hypot => do
    let n ← mul a x
    div n (← hypot x y)
  | .log => div a x
  | .log10 => do div a (← mul (← mkConst ln10) x)
  | .max => do mul a (← isNonneg (← sub x y))
  | .min => do mul a (← isNonneg (← sub y x))
  | .pow => do
    let p ← pow x (← sub y (← mkConst one))
    mul (← mul a p) y
  | .sin => do mul a (← cos x)
  | .sinh => do mul a (← cosh x)
  | .sqrt => do
    let s ← sqrt x
    div a (← mul (← mkConst two) s)
  | .tan => do
    let c ← cos x
    div a (← mul c c)
  | .tanh => do
    let c ← cosh x
    div a (← mul c c)
  | _ => mkConst zero

/-- The virtual `grad_expr_r(lhs, rhs)` of each class (default: the constant zero,
`expression.hpp:414-418`; overrides at `469-473, 506-510, 644-648, 684-688, 1028-1032, 1314-1318,
1558-1566, 1629-1636, 1703-1707`). -/
def gradER (op : Op) (a x y : ℕ) : HM S ℕ := do
  match op with
  | .add => return a
  | .sub => neg a
  | .mul => mul a x
  | .div => do
    let n ← mul a (← neg x)
    div n (← mul y y)
  | .atan2 => do
    let n ← mul a (← neg x)
    let xx ← mul x x
    let yy ← mul y y
    div n (← add xx yy)
  | .hypot => do
    let n ← mul a y
    div n (← hypot x y)
  | .max => do mul a (← isPos (← sub y x))
  | .min => do mul a (← isPos (← sub x y))
  | .pow => do
    let p ← pow x y
    let m ← mul a p
    mul m (← log x)
  | _ => mkConst zero

end Slp
