import Mathlib.Analysis.SpecialFunctions.Pow.Real
import Mathlib.Analysis.SpecialFunctions.Log.Basic

/-!
Floating-point numbers as seen by the solvers: exact real numbers, the two infinities and NaN. Rounding,
overflow of finite values and the sign of zero are not modelled. Every comparison with NaN is false.
-/

namespace Slp

open Classical

/-- A scalar. -/
inductive Fl where
  | fin (x : ℝ)
  | pinf
  | ninf
  | nan

namespace Fl

instance : Coe ℝ Fl := ⟨Fl.fin⟩
noncomputable instance : Zero Fl := ⟨fin 0⟩
noncomputable instance : One Fl := ⟨fin 1⟩
instance : Inhabited Fl := ⟨nan⟩

theorem zero_def : (0 : Fl) = fin 0 := rfl
theorem one_def : (1 : Fl) = fin 1 := rfl

/-- `isfinite()`. -/
def isFinite : Fl → Bool
  | fin _ => true
  | _ => false

/-- IEEE addition. -/
noncomputable def add : Fl → Fl → Fl
  | fin a, fin b => fin (a + b)
  | nan, _ => nan
  | _, nan => nan
  | pinf, ninf => nan
  | ninf, pinf => nan
  | pinf, _ => pinf
  | _, pinf => pinf
  | ninf, _ => ninf
  | _, ninf => ninf

/-- Negation. -/
noncomputable def neg : Fl → Fl
  | fin a => fin (-a)
  | pinf => ninf
  | ninf => pinf
  | nan => nan

/-- An infinity times a number of sign `a`. -/
noncomputable def infMul (positive : Bool) (a : ℝ) : Fl :=
  if a = 0 then nan else if (0 < a) = (positive = true) then pinf else ninf

/-- IEEE multiplication. -/
noncomputable def mul : Fl → Fl → Fl
  | fin a, fin b => fin (a * b)
  | nan, _ => nan
  | _, nan => nan
  | pinf, fin b => infMul true b
  | fin a, pinf => infMul true a
  | ninf, fin b => infMul false b
  | fin a, ninf => infMul false a
  | pinf, pinf => pinf
  | ninf, ninf => pinf
  | pinf, ninf => ninf
  | ninf, pinf => ninf

/-- IEEE division. Zero divisors count as positive zero. -/
noncomputable def div : Fl → Fl → Fl
  | fin a, fin b => if b = 0 then (if a = 0 then nan else if 0 < a then pinf else ninf) else fin (a / b)
  | nan, _ => nan
  | _, nan => nan
  | fin _, pinf => fin 0
  | fin _, ninf => fin 0
  | pinf, fin b => if 0 ≤ b then pinf else ninf
  | ninf, fin b => if 0 ≤ b then ninf else pinf
  | _, _ => nan

noncomputable instance : Add Fl := ⟨add⟩
noncomputable instance : Neg Fl := ⟨neg⟩
noncomputable instance : Sub Fl := ⟨fun a b => add a (neg b)⟩
noncomputable instance : Mul Fl := ⟨mul⟩
noncomputable instance : Div Fl := ⟨div⟩

/-- IEEE `<=`. -/
def le : Fl → Fl → Prop
  | fin a, fin b => a ≤ b
  | nan, _ => False
  | _, nan => False
  | ninf, _ => True
  | _, pinf => True
  | _, _ => False

/-- IEEE `<`. -/
def lt : Fl → Fl → Prop
  | fin a, fin b => a < b
  | ninf, fin _ => True
  | fin _, pinf => True
  | ninf, pinf => True
  | _, _ => False

instance : LE Fl := ⟨le⟩
instance : LT Fl := ⟨lt⟩
noncomputable instance : DecidableLE Fl := fun _ _ => propDecidable _
noncomputable instance : DecidableLT Fl := fun _ _ => propDecidable _

@[simp] theorem fin_le (a b : ℝ) : fin a ≤ fin b ↔ a ≤ b := Iff.rfl
@[simp] theorem fin_lt (a b : ℝ) : fin a < fin b ↔ a < b := Iff.rfl
@[simp] theorem fin_add (a b : ℝ) : fin a + fin b = fin (a + b) := rfl
@[simp] theorem fin_sub (a b : ℝ) : fin a - fin b = fin (a - b) := by
  show fin (a + -b) = _; rw [sub_eq_add_neg]
@[simp] theorem fin_mul (a b : ℝ) : fin a * fin b = fin (a * b) := rfl
@[simp] theorem fin_neg (a : ℝ) : -fin a = fin (-a) := rfl
theorem fin_div {a b : ℝ} (h : b ≠ 0) : fin a / fin b = fin (a / b) := by
  show div _ _ = _; simp [div, h]
@[simp] theorem isFinite_fin (a : ℝ) : (fin a).isFinite = true := rfl

theorem isFinite_iff {a : Fl} : a.isFinite = true ↔ ∃ x, a = fin x := by
  cases a <;> simp [isFinite]

/-- `std::max(a, b)`, which is `(a < b) ? b : a`. -/
noncomputable def max (a b : Fl) : Fl := if a < b then b else a

/-- `std::min(a, b)`, which is `(b < a) ? b : a`. -/
noncomputable def min (a b : Fl) : Fl := if b < a then b else a

/-- `abs()`. -/
noncomputable def abs : Fl → Fl
  | fin a => fin |a|
  | pinf => pinf
  | ninf => pinf
  | nan => nan

/-- `pow(a, b)` for a positive exponent `b` that is not an integer. -/
noncomputable def pow (a : Fl) (b : ℝ) : Fl :=
  match a with
  | fin a => if a < 0 then nan else fin (a ^ b)
  | pinf => pinf
  | ninf => pinf
  | nan => nan

/-- `log()`. -/
noncomputable def log : Fl → Fl
  | fin a => if a < 0 then nan else if a = 0 then ninf else fin (Real.log a)
  | pinf => pinf
  | _ => nan

/-- `sqrt()`. -/
noncomputable def sqrt : Fl → Fl
  | fin a => if a < 0 then nan else fin (Real.sqrt a)
  | pinf => pinf
  | _ => nan

@[simp] theorem abs_fin (a : ℝ) : (fin a).abs = fin |a| := rfl
@[simp] theorem max_fin (a b : ℝ) : max (fin a) (fin b) = fin (Max.max a b) := by
  unfold max
  by_cases h : a < b
  · rw [if_pos (by exact h), max_eq_right h.le]
  · rw [if_neg (by exact h), max_eq_left (not_lt.1 h)]
@[simp] theorem min_fin (a b : ℝ) : min (fin a) (fin b) = fin (Min.min a b) := by
  unfold min
  by_cases h : b < a
  · rw [if_pos (by exact h), min_eq_right h.le]
  · rw [if_neg (by exact h), min_eq_left (not_lt.1 h)]
theorem pow_fin {a : ℝ} (h : 0 ≤ a) (b : ℝ) : pow (fin a) b = fin (a ^ b) := by
  simp [pow, not_lt.2 h]
theorem log_fin {a : ℝ} (h : 0 < a) : log (fin a) = fin (Real.log a) := by
  simp [log, not_lt.2 h.le, h.ne']

theorem le_trans' {a b c : Fl} (h1 : a ≤ b) (h2 : b ≤ c) : a ≤ c := by
  change le a b at h1
  change le b c at h2
  show le a c
  cases a <;> cases b <;> cases c <;> simp_all [le]
  exact h1.trans h2

theorem lt_le_trans {a b c : Fl} (h1 : a < b) (h2 : b ≤ c) : a < c := by
  change lt a b at h1
  change le b c at h2
  show lt a c
  cases a <;> cases b <;> cases c <;> simp_all [le, lt]
  exact h1.trans_le h2

theorem not_nan_of_le {a b : Fl} (h : a ≤ b) : a ≠ nan ∧ b ≠ nan := by
  change le a b at h
  cases a <;> cases b <;> simp_all [le]

end Fl

end Slp
