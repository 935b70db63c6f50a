import Verif.Autodiff.RealOps
import Verif.Autodiff.ApiOps
import Mathlib.Analysis.Calculus.Deriv.Basic

/-!
Specification of what autodiff expressions mean, independent of the model: mathematical expressions
over real variables, their value, where the value is defined, and where they are smooth.
-/

namespace Slp

/-- Mathematical expressions. `pd k t` is the partial derivative of `t` by variable `k`. -/
inductive Term where
  | lit (c : ℝ)
  | var (k : ℕ)
  | un (f : UnOp) (t : Term)
  | bin (f : BinOp) (s t : Term)
  | pd (k : ℕ) (t : Term)

/-- Sign of a real number. -/
noncomputable def sgn (x : ℝ) : ℝ := if x < 0 then -1 else if x = 0 then 0 else 1

noncomputable def UnOp.eval : UnOp → ℝ → ℝ
  | .pos, x => x
  | .neg, x => -x
  | .abs, x => |x|
  | .acos, x => Real.arccos x
  | .asin, x => Real.arcsin x
  | .atan, x => Real.arctan x
  | .cbrt, x => rcbrt x
  | .cos, x => Real.cos x
  | .cosh, x => Real.cosh x
  | .erf, x => rerf x
  | .exp, x => Real.exp x
  | .log, x => Real.log x
  | .log10, x => Real.logb 10 x
  | .sign, x => sgn x
  | .sin, x => Real.sin x
  | .sinh, x => Real.sinh x
  | .sqrt, x => √x
  | .tan, x => Real.tan x
  | .tanh, x => Real.tanh x

noncomputable def BinOp.eval : BinOp → ℝ → ℝ → ℝ
  | .add, x, y => x + y
  | .sub, x, y => x - y
  | .mul, x, y => x * y
  | .div, x, y => x / y
  | .atan2, y, x => ratan2 y x
  | .hypot, x, y => √(x ^ 2 + y ^ 2)
  | .max, x, y => Max.max x y
  | .min, x, y => Min.min x y
  | .pow, x, y => x ^ y

/-- Where a unary operation is defined mathematically. -/
def UnOp.Dom : UnOp → ℝ → Prop
  | .acos, x | .asin, x => -1 ≤ x ∧ x ≤ 1
  | .log, x | .log10, x => 0 < x
  | .sqrt, x => 0 ≤ x
  | .tan, x => Real.cos x ≠ 0
  | _, _ => True

/-- Where a binary operation is defined mathematically (`0 ^ 0` is left out). -/
def BinOp.Dom : BinOp → ℝ → ℝ → Prop
  | .div, _, y => y ≠ 0
  | .pow, x, y => 0 < x ∨ (x = 0 ∧ 0 < y) ∨ (x < 0 ∧ ∃ k : ℤ, y = k)
  | _, _, _ => True

/-- Where a unary operation is smooth. -/
def UnOp.Smooth : UnOp → ℝ → Prop
  | .abs, x | .cbrt, x | .sign, x => x ≠ 0
  | .acos, x | .asin, x => -1 < x ∧ x < 1
  | .log, x | .log10, x | .sqrt, x => 0 < x
  | .tan, x => Real.cos x ≠ 0
  | _, _ => True

/-- Where a binary operation is smooth; `lit` says that the second operand is a literal. -/
def BinOp.Smooth (lit : Prop) : BinOp → ℝ → ℝ → Prop
  | .div, _, y => y ≠ 0
  | .atan2, y, x => y ≠ 0 ∨ 0 < x
  | .hypot, x, y => x ≠ 0 ∨ y ≠ 0
  | .max, x, y | .min, x, y => x ≠ y
  | .pow, x, y => 0 < x ∨ (lit ∧ ∃ k : ℤ, y = k ∧ (x ≠ 0 ∨ 1 ≤ k))
  | _, _, _ => True

namespace Term

/-- The value of an expression when variable `k` has value `env k`. -/
noncomputable def eval : Term → (ℕ → ℝ) → ℝ
  | lit c, _ => c
  | var k, env => env k
  | un f t, env => f.eval (eval t env)
  | bin f s t, env => f.eval (eval s env) (eval t env)
  | pd k t, env => deriv (fun x => eval t (Function.update env k x)) (env k)

/-- The expression is a literal. -/
def IsLit : Term → Prop
  | lit _ => True
  | _ => False

/-- All operations of the expression are smooth at `env`. -/
def Smooth : Term → (ℕ → ℝ) → Prop
  | lit _, _ => True
  | var _, _ => True
  | un f t, env => Smooth t env ∧ f.Smooth (eval t env)
  | bin f s t, env => Smooth s env ∧ Smooth t env ∧ f.Smooth t.IsLit (eval s env) (eval t env)
  | pd _ t, env => Smooth t env

/-- All operations of the expression are defined at `env`; a partial derivative is meant only where
the expression is smooth. -/
def Dom : Term → (ℕ → ℝ) → Prop
  | lit _, _ => True
  | var _, _ => True
  | un f t, env => Dom t env ∧ f.Dom (eval t env)
  | bin f s t, env => Dom s env ∧ Dom t env ∧ f.Dom (eval s env) (eval t env)
  | pd _ t, env => Smooth t env

/-- The variables of an expression are among the first `N`. -/
def Vars (N : ℕ) : Term → Prop
  | lit _ => True
  | var k => k < N
  | un _ t => Vars N t
  | bin _ s t => Vars N s ∧ Vars N t
  | pd k t => k < N ∧ Vars N t

/-- `hypot(x, y, z)` in terms of the other operations. -/
noncomputable def hypot3 (x y z : Term) : Term :=
  un .sqrt (bin .add (bin .add (bin .pow x (lit 2)) (bin .pow y (lit 2))) (bin .pow z (lit 2)))

end Term

end Slp
