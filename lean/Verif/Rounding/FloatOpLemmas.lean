import Verif.Rounding.FloatLocalLemmas
import Verif.Rounding.FloatSpec

/-! The values that the classes of expressions compute, in floating-point arithmetic. -/

namespace Slp

open ScalarOps

/-- The class of a unary operation (modelling only: the classes of `expression.hpp:444-2029`); `+x` has none. -/
def UnOp.cls : UnOp → Op
  | .pos => .constant | .neg => .neg | .abs => .abs | .acos => .acos | .asin => .asin | .atan => .atan | .cbrt => .cbrt
  | .cos => .cos | .cosh => .cosh | .erf => .erf | .exp => .exp | .log => .log | .log10 => .log10 | .sign => .sign
  | .sin => .sin | .sinh => .sinh | .sqrt => .sqrt | .tan => .tan | .tanh => .tanh

/-- The class of a binary operation (modelling only: the classes of `expression.hpp:444-2029`). -/
def BinOp.cls : BinOp → Op
  | .add => .add | .sub => .sub | .mul => .mul | .div => .div | .atan2 => .atan2 | .hypot => .hypot | .max => .max
  | .min => .min | .pow => .pow

/-- Number of roundings in the value of a unary operation. -/
def UnOp.rounds : UnOp → ℕ
  | .pos | .neg => 0
  | .acos => 2
  | _ => 1

namespace FloatMath

variable {A : FloatMath}

@[simp] theorem f_pi : toReal (ScalarOps.pi : A.Num) = A.cpi := rfl
@[simp] theorem f_twoInvSqrtPi : toReal (ScalarOps.twoInvSqrtPi : A.Num) = A.cerf := rfl
@[simp] theorem f_abs (a : A.Num) : toReal (ScalarOps.abs a) = |toReal a| := rfl
@[simp] theorem f_acos (a : A.Num) : toReal (ScalarOps.acos a) = A.facos (toReal a) := rfl
@[simp] theorem f_asin (a : A.Num) : toReal (ScalarOps.asin a) = A.fasin (toReal a) := rfl
@[simp] theorem f_atan (a : A.Num) : toReal (ScalarOps.atan a) = A.fatan (toReal a) := rfl
@[simp] theorem f_atan2 (a b : A.Num) : toReal (ScalarOps.atan2 a b) = A.fatan2 (toReal a) (toReal b) := rfl
@[simp] theorem f_erf (a : A.Num) : toReal (ScalarOps.erf a) = A.ferf (toReal a) := rfl
@[simp] theorem f_log (a : A.Num) : toReal (ScalarOps.log a) = A.flog (toReal a) := rfl
@[simp] theorem f_log10 (a : A.Num) : toReal (ScalarOps.log10 a) = A.flog10 (toReal a) := rfl
@[simp] theorem f_max (a b : A.Num) : toReal (ScalarOps.max a b) = Max.max (toReal a) (toReal b) := rfl
@[simp] theorem f_min (a b : A.Num) : toReal (ScalarOps.min a b) = Min.min (toReal a) (toReal b) := rfl
@[simp] theorem f_pow (a b : A.Num) : toReal (ScalarOps.pow a b) = A.fpow (toReal a) (toReal b) := rfl
@[simp] theorem f_tan (a : A.Num) : toReal (ScalarOps.tan a) = A.ftan (toReal a) := rfl
@[simp] theorem f_tanh (a : A.Num) : toReal (ScalarOps.tanh a) = A.ftanh (toReal a) := rfl

/-- Where something is known about the value of a unary operation. -/
def OkU (A : FloatMath) (f : UnOp) (x : ℝ) : Prop := (f = .pos ∨ f = .neg) ∨ (A.Lib ∧ f.Smooth x)

/-- Where something is known about the value of a binary operation. -/
def OkB (A : FloatMath) (f : BinOp) (lit : Prop) (x y : ℝ) : Prop :=
  (f = .add ∨ f = .sub ∨ f = .mul) ∨ (A.Lib ∧ f.Smooth lit x y)

theorem near_refl (k : ℕ) (x : ℝ) : A.Near k x x := (Rounding.Near.refl A.lt_one x).mono A.lt_one (Nat.zero_le k)

theorem near_of_eq {k : ℕ} {x y : ℝ} (h : x = y) : A.Near k x y := h ▸ near_refl k x

theorem _root_.Slp.Rounding.Near.trans_eq {R : Rounding} {k : ℕ} {x y z : ℝ} (h : R.Near k x y) (e : y = z) :
    R.Near k x z := e ▸ h

theorem near_zero_iff {x y : ℝ} : A.Near 0 x y ↔ x = y := by
  refine ⟨?_, fun h => near_of_eq h⟩
  rintro ⟨t, ⟨h1, h2⟩, rfl⟩
  simp only [pow_zero, mul_one] at h1 h2
  rw [le_antisymm h2 h1, mul_one]

theorem opVal_un {f : UnOp} (hf : f ≠ .pos) {x : A.Num} (ok : OkU A f (toReal x)) :
    A.Near f.rounds (toReal (opVal f.cls x zero)) (f.eval (toReal x)) := by
  rcases ok with (e | rfl) | ⟨L, hs⟩
  · exact absurd e hf
  · exact near_of_eq rfl
  have two : ∀ {v e : ℝ}, A.Near 1 v e → A.Near 2 v e := fun h => h.mono A.lt_one (by norm_num)
  cases f <;> simp only [UnOp.Smooth] at hs
  case pos => exact absurd rfl hf
  case neg => exact near_of_eq rfl
  case abs => exact near_of_eq rfl
  case acos => exact two (err_near (L.facos_err _ hs.1.le hs.2.le))
  case asin => exact err_near (L.fasin_err _ hs.1.le hs.2.le)
  case atan => exact err_near (L.fatan_err _)
  case cbrt => exact err_near (A.fcbrt_err _)
  case cos => exact err_near (A.fcos_err _)
  case cosh => exact err_near (A.fcosh_err _)
  case erf => exact err_near (L.ferf_err _)
  case exp => exact err_near (A.fexp_err _)
  case log => exact err_near (L.flog_err _ hs)
  case log10 => exact err_near (L.flog10_err _ hs)
  case sign =>
    refine near_of_eq ?_
    simp only [UnOp.cls, opVal, f_lt, f_zero, f_eq, UnOp.eval, sgn]
    by_cases h1 : toReal x < 0
    · simp [h1]
    · simp [h1, hs]
  case sin => exact err_near (A.fsin_err _)
  case sinh => exact err_near (A.fsinh_err _)
  case sqrt => exact err_near (A.fsqrt_err _ hs.le)
  case tan => exact err_near (L.ftan_err _ hs)
  case tanh => exact err_near (L.ftanh_err _)

theorem opVal_bin {f : BinOp} {lit : Prop} {x y : A.Num} (ok : OkB A f lit (toReal x) (toReal y)) :
    A.Near 1 (toReal (opVal f.cls x y)) (f.eval (toReal x) (toReal y)) := by
  have hr := fun z => Rounding.near_rnd (R := A.toRounding) A.lt_one z
  rcases ok with (rfl | rfl | rfl) | ⟨L, hs⟩
  · exact hr _
  · exact hr _
  · exact hr _
  cases f <;> simp only [BinOp.Smooth] at hs
  case add => exact hr _
  case sub => exact hr _
  case mul => exact hr _
  case div => exact hr _
  case atan2 => exact err_near (L.fatan2_err _ _)
  case hypot => exact err_near (A.fhypot_err _ _)
  case max => exact near_of_eq rfl
  case min => exact near_of_eq rfl
  case pow =>
    refine err_near (L.fpow_err _ _ ?_)
    rcases hs with h | ⟨_, k, e, h⟩
    · exact Or.inl h
    · exact Or.inr ⟨k, e, h.imp_right fun h => by omega⟩

end FloatMath

end Slp
