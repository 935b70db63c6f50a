import Verif.Autodiff.ApiModel

/-!
Specification of the values of expressions for any scalar type: `value()` returns the number that the same formula gives
when it is computed directly with the arithmetic of the scalar type, operation by operation, rounding errors included.
Nothing here refers to nodes, graphs or caches.
-/

namespace Slp

open ScalarOps

variable {S : Type} [ScalarOps S]

/-- A formula over the declared variables, as the user wrote it. -/
inductive Form (S : Type) where
  | lit (c : S)
  | var (k : ℕ)
  | un (f : UnOp) (t : Form S)
  | bin (f : BinOp) (s t : Form S)

/-- What a unary operation computes on numbers. -/
def UnOp.direct : UnOp → S → S
  | .pos, x => x
  | .neg, x => ScalarOps.neg x
  | .abs, x => ScalarOps.abs x
  | .acos, x => ScalarOps.acos x
  | .asin, x => ScalarOps.asin x
  | .atan, x => ScalarOps.atan x
  | .cbrt, x => ScalarOps.cbrt x
  | .cos, x => ScalarOps.cos x
  | .cosh, x => ScalarOps.cosh x
  | .erf, x => ScalarOps.erf x
  | .exp, x => ScalarOps.exp x
  | .log, x => ScalarOps.log x
  | .log10, x => ScalarOps.log10 x
  | .sign, x => if lt x zero then negOne else if eq x zero then zero else one
  | .sin, x => ScalarOps.sin x
  | .sinh, x => ScalarOps.sinh x
  | .sqrt, x => ScalarOps.sqrt x
  | .tan, x => ScalarOps.tan x
  | .tanh, x => ScalarOps.tanh x

/-- What a binary operation computes on numbers. -/
def BinOp.direct : BinOp → S → S → S
  | .add, x, y => ScalarOps.add x y
  | .sub, x, y => ScalarOps.sub x y
  | .mul, x, y => ScalarOps.mul x y
  | .div, x, y => ScalarOps.div x y
  | .atan2, y, x => ScalarOps.atan2 y x
  | .hypot, x, y => ScalarOps.hypot x y
  | .max, x, y => ScalarOps.max x y
  | .min, x, y => ScalarOps.min x y
  | .pow, x, y => ScalarOps.pow x y

/-- The number that the formula gives when it is computed directly. -/
def Form.calc (env : ℕ → S) : Form S → S
  | .lit c => c
  | .var k => env k
  | .un f t => f.direct (t.calc env)
  | .bin f s t => f.direct (s.calc env) (t.calc env)

/-- All numbers that occur in the direct computation are proper (`P`), and `pow(0, 0)` does not occur. -/
def Form.Proper (P : S → Prop) (env : ℕ → S) : Form S → Prop
  | .lit c => P c
  | .var k => P (env k)
  | .un f t => t.Proper P env ∧ P (f.direct (t.calc env))
  | .bin f s t => s.Proper P env ∧ t.Proper P env ∧ P (f.direct (s.calc env) (t.calc env)) ∧
      (f = .pow → s.calc env = zero → t.calc env ≠ zero)

/-- What is assumed about a scalar type: that simplifications which a mathematician would make with `0`, `1`, `-1` and
`2` hold among its proper numbers `P`. For `double`, the proper numbers are the finite ones; the sign of a zero is
not distinguished, and `std::pow(x, 2)` is assumed to round as `x * x` does. -/
structure ScalarLaws (S : Type) [ScalarOps S] (P : S → Prop) : Prop where
  eq_zero : ∀ x : S, eq x zero = true → x = zero
  eq_one : ∀ x : S, eq x one = true → x = one
  eq_negOne : ∀ x : S, eq x negOne = true → x = negOne
  eq_two : ∀ x : S, eq x two = true → x = two
  zero_add : ∀ x : S, P x → ScalarOps.add zero x = x
  add_zero : ∀ x : S, P x → ScalarOps.add x zero = x
  zero_sub : ∀ x : S, P x → ScalarOps.sub zero x = ScalarOps.neg x
  sub_zero : ∀ x : S, P x → ScalarOps.sub x zero = x
  neg_zero : ScalarOps.neg (zero : S) = zero
  zero_mul : ∀ x : S, P x → ScalarOps.mul zero x = zero
  mul_zero : ∀ x : S, P x → ScalarOps.mul x zero = zero
  one_mul : ∀ x : S, P x → ScalarOps.mul one x = x
  mul_one : ∀ x : S, P x → ScalarOps.mul x one = x
  zero_div : ∀ x : S, P x → P (ScalarOps.div zero x) → ScalarOps.div zero x = zero
  div_one : ∀ x : S, P x → ScalarOps.div x one = x
  abs_zero : ScalarOps.abs (zero : S) = zero
  acos_zero : ScalarOps.acos (zero : S) = ScalarOps.div pi two
  asin_zero : ScalarOps.asin (zero : S) = zero
  atan_zero : ScalarOps.atan (zero : S) = zero
  cbrt_zero : ScalarOps.cbrt (zero : S) = zero
  cbrt_one : ScalarOps.cbrt (one : S) = one
  cbrt_negOne : ScalarOps.cbrt (negOne : S) = negOne
  cos_zero : ScalarOps.cos (zero : S) = one
  cosh_zero : ScalarOps.cosh (zero : S) = one
  erf_zero : ScalarOps.erf (zero : S) = zero
  exp_zero : ScalarOps.exp (zero : S) = one
  hypot_zero_left : ∀ x : S, P x → ScalarOps.hypot zero x = ScalarOps.abs x
  hypot_zero_right : ∀ x : S, P x → ScalarOps.hypot x zero = ScalarOps.abs x
  log_zero : P (ScalarOps.log (zero : S)) → ScalarOps.log (zero : S) = zero
  log10_zero : P (ScalarOps.log10 (zero : S)) → ScalarOps.log10 (zero : S) = zero
  pow_zero_left : ∀ y : S, P y → P (ScalarOps.pow zero y) → y ≠ zero → ScalarOps.pow zero y = zero
  pow_one_left : ∀ y : S, P y → ScalarOps.pow one y = one
  pow_zero : ∀ x : S, P x → ScalarOps.pow x zero = one
  pow_one : ∀ x : S, P x → ScalarOps.pow x one = x
  pow_two : ∀ x : S, P x → ScalarOps.pow x two = ScalarOps.mul x x
  sin_zero : ScalarOps.sin (zero : S) = zero
  sinh_zero : ScalarOps.sinh (zero : S) = zero
  sqrt_zero : ScalarOps.sqrt (zero : S) = zero
  sqrt_one : ScalarOps.sqrt (one : S) = one
  tan_zero : ScalarOps.tan (zero : S) = zero
  tanh_zero : ScalarOps.tanh (zero : S) = zero

/-- Abstract state of a program: the number of declared variables, their current values, the formula that each
`Variable` object stands for, and the number of `Jacobian` objects. -/
structure Forms (S : Type) where
  n : ℕ
  env : ℕ → S
  forms : List (Form S)
  jacs : ℕ

namespace Forms

/-- The state before the first call. -/
def empty : Forms S := ⟨0, fun _ => zero, [], 0⟩

/-- Object `i` is a declared variable. -/
def IsVar (σ : Forms S) (i : ℕ) : Prop := ∃ k, σ.forms[i]? = some (.var k)

/-- Precondition of each call: objects exist, and `set_value` is called on declared variables only. `Jacobian::get` and
Hessians are left out: they build expressions that the user did not write. -/
def Valid (σ : Forms S) : Cmd S → Prop
  | .decl | .lit _ => True
  | .un _ i | .copy i | .assignLit i _ | .value i | .type i => i < σ.forms.length
  | .bin _ i j | .assign i j => i < σ.forms.length ∧ j < σ.forms.length
  | .hypot3 i j k => i < σ.forms.length ∧ j < σ.forms.length ∧ k < σ.forms.length
  | .setValue i _ => σ.IsVar i
  | .jac rows wrt => (∀ i ∈ rows, i < σ.forms.length) ∧ ∀ i ∈ wrt, σ.IsVar i
  | .jacValue j => j < σ.jacs
  | .jacGet _ | .hess _ _ _ | .hessValue _ | .hessGet _ => False

/-- The formula of object `i`. -/
def form (σ : Forms S) (i : ℕ) : Form S := σ.forms.getD i (.lit zero)

/-- Effect of each call. -/
def next (σ : Forms S) : Cmd S → Forms S
  | .decl => { σ with n := σ.n + 1, env := Function.update σ.env σ.n zero, forms := σ.forms ++ [.var σ.n] }
  | .lit c => { σ with forms := σ.forms ++ [.lit c] }
  | .un f i => { σ with forms := σ.forms ++ [.un f (σ.form i)] }
  | .bin f i j => { σ with forms := σ.forms ++ [.bin f (σ.form i) (σ.form j)] }
  | .hypot3 i j k =>
    let sq := fun t => Form.bin .pow t (.lit two)
    { σ with forms := σ.forms ++
        [.un .sqrt (.bin .add (.bin .add (sq (σ.form i)) (sq (σ.form j))) (sq (σ.form k)))] }
  | .copy i => { σ with forms := σ.forms ++ [σ.form i] }
  | .assign i j => { σ with forms := σ.forms.set i (σ.form j) }
  | .assignLit i c => { σ with forms := σ.forms.set i (.lit c) }
  | .setValue i v =>
    match σ.forms[i]? with
    | some (.var k) => { σ with env := Function.update σ.env k v }
    | _ => σ
  | .jac _ _ => { σ with jacs := σ.jacs + 1 }
  | _ => σ

/-- What each call must return: `value()` returns the number that the formula gives. -/
def Returns (P : S → Prop) (σ : Forms S) (c : Cmd S) (o : Obs S) : Prop :=
  match c with
  | .value i => ∃ x, o = .num x ∧ ((σ.form i).Proper P σ.env → x = (σ.form i).calc σ.env)
  | .type _ => ∃ ty, o = .ty ty
  | .jacValue _ => ∃ m, o = .mat m
  | _ => o = .unit

/-- All preconditions hold along a sequence of calls. -/
def ValidAll : List (Cmd S) → Forms S → Prop
  | [], _ => True
  | c :: cs, σ => σ.Valid c ∧ ValidAll cs (σ.next c)

/-- All results along a sequence of calls are right. -/
def ReturnsAll (P : S → Prop) : List (Cmd S) → Forms S → List (Obs S) → Prop
  | [], _, os => os = []
  | c :: cs, σ, o :: os => σ.Returns P c o ∧ ReturnsAll P cs (σ.next c) os
  | _ :: _, _, [] => False

end Forms

end Slp
