import Verif.Rounding.FloatAccLemmas

/-! Which classes of expressions compute their partial derivatives accurately. -/

namespace Slp
namespace FloatMath

open ScalarOps

variable {A : FloatMath}

/-- Operations whose partial derivatives are computed with a small relative error, where they are smooth. The
derivatives of `acos` and `asin` suffer from cancellation in `1 - x * x`, that of `erf` evaluates `exp` at a rounded
number, and that of `pow` raises to a rounded power. -/
def Accurate (op : Op) (x y : ℝ) : Prop :=
  op ≠ .acos ∧ op ≠ .asin ∧ op ≠ .erf ∧ op ≠ .pow ∧ SmoothOp op False x y

private theorem near0 (x : ℝ) : A.Near 0 x x := Rounding.Near.refl A.lt_one x

theorem err_near {f e : ℝ} (h : |f - e| ≤ A.u * |e|) : A.Near 1 f e := by
  rcases eq_or_ne e 0 with rfl | he
  · simp only [sub_zero, abs_zero, mul_zero, abs_nonpos_iff] at h
    exact ⟨1, Rounding.fac_one A.lt_one 1, by rw [h, zero_mul]⟩
  · have h1 := A.lt_one
    have h0 := A.nonneg
    refine ⟨f / e, ?_, by field_simp⟩
    have hq : |f / e - 1| ≤ A.u := by
      rw [show f / e - 1 = (f - e) / e by field_simp, abs_div, div_le_iff₀ (abs_pos.mpr he)]; exact h
    rw [abs_le] at hq
    constructor
    · rw [pow_one]; linarith
    · rw [pow_one]
      have : f / e ≤ 1 + A.u := by linarith
      nlinarith

theorem fsin_near (x : ℝ) : A.Near 1 (A.fsin x) (Real.sin x) := err_near (A.fsin_err x)

private theorem sq_nonneg' (x : ℝ) : 0 ≤ x * x := mul_self_nonneg x

local macro "fl" : tactic => `(tactic| simp only [f_zero, f_one, f_two, f_three, f_ln10, f_add, f_sub, f_mul, f_div,
  f_neg, f_cbrt, f_cos, f_cosh, f_exp, f_hypot, f_sin, f_sinh, f_sqrt, r_zero, r_one, r_two, r_three, r_ln10, r_add,
  r_sub, r_mul, r_div, r_neg, r_cbrt, r_cos, r_cosh, r_exp, r_hypot, r_sin, r_sinh, r_sqrt])

/-- The partial derivatives of these operations are computed with at most five roundings. -/
theorem local_of_accurate {op : Op} {x y : A.Num} (h : Accurate op (toReal x) (toReal y)) (rc : Prop) :
    Local A 5 op rc x y := by
  obtain ⟨h1, h2, h3, h4, hs⟩ := h
  have hu := A.lt_one
  intro a
  have n0 : ∀ {k : ℕ} {v e : ℝ}, v = e → A.Near k v e := fun {k v e} h => by
    rw [h]; exact (near0 e).mono hu (Nat.zero_le k)
  have fin : ∀ {k : ℕ} {v w e : ℝ}, A.Near k v w → w = e → k ≤ 5 → A.Near 5 v e := fun {k v w e} h h' hk => by
    rw [← h']; exact h.mono hu hk
  have nr := fun z => Rounding.near_rnd (R := A.toRounding) hu z
  suffices hh : A.Near 5 (toReal (gradL op a x y)) (toReal a * gradL op 1 (toReal x) (toReal y)) ∧
      A.Near 5 (toReal (gradR op a x y)) (toReal a * gradR op 1 (toReal x) (toReal y)) from ⟨hh.1, fun _ => hh.2⟩
  cases op <;> simp only [ne_eq, not_true_eq_false, reduceCtorEq, not_false_eq_true] at h1 h2 h3 h4 <;>
    simp only [SmoothOp] at hs <;> constructor <;> simp only [gradL, gradR]
  case constant.left => exact n0 (by simp)
  case constant.right => exact n0 (by simp)
  case variable.left => exact n0 (by simp)
  case variable.right => exact n0 (by simp)
  case add.left => exact n0 (by simp)
  case add.right => exact n0 (by simp)
  case sub.left => exact n0 (by simp)
  case sub.right => exact n0 (by simp)
  case mul.left => simpa using (nr _).mono hu (by omega)
  case mul.right => simpa using (nr _).mono hu (by omega)
  case div.left =>
    have := nr (toReal a / toReal y)
    fl
    exact fin this (by ring) (by norm_num)
  case div.right =>
    have := ((nr (toReal a * -toReal x)).div hu (nr (toReal y * toReal y))).rnd hu
    fl
    exact fin this (by ring) (by norm_num)
  case neg.left => exact n0 (by simp)
  case neg.right => exact n0 (by simp)
  case abs.left =>
    refine n0 ?_
    simp only [f_lt, f_zero, r_lt, r_zero, decide_eq_true_eq]
    rcases lt_trichotomy (toReal x) 0 with h | h | h
    · simp [h]
    · exact absurd h hs
    · simp [h, not_lt.mpr h.le]
  case abs.right => exact n0 (by simp)
  case atan.left =>
    have := ((near0 (toReal a)).div hu (((near0 (1 : ℝ)).mono hu (Nat.zero_le 1)).add hu
      (nr (toReal x * toReal x)) zero_le_one (sq_nonneg' _) |>.rnd hu)).rnd hu
    fl
    exact fin this (by ring) (by norm_num)
  case atan.right => exact n0 (by simp)
  case atan2.left =>
    have := ((nr (toReal a * toReal y)).div hu (((nr (toReal x * toReal x)).add hu
      (nr (toReal y * toReal y)) (sq_nonneg' _) (sq_nonneg' _)).rnd hu)).rnd hu
    fl
    exact fin this (by ring) (by norm_num)
  case atan2.right =>
    have := ((nr (toReal a * -toReal x)).div hu (((nr (toReal x * toReal x)).add hu
      (nr (toReal y * toReal y)) (sq_nonneg' _) (sq_nonneg' _)).rnd hu)).rnd hu
    fl
    exact fin this (by ring) (by norm_num)
  case cbrt.left =>
    have hc := err_near (A.fcbrt_err (toReal x))
    have := ((near0 (toReal a)).div hu ((((near0 (3 : ℝ)).mul hu hc).rnd hu).mul hu hc |>.rnd hu)).rnd hu
    fl
    exact fin this (by ring) (by norm_num)
  case cbrt.right => exact n0 (by simp)
  case cos.left =>
    have := ((near0 (-toReal a)).mul hu (err_near (A.fsin_err (toReal x)))).rnd hu
    have e : toReal a * -A.fsin (toReal x) = -toReal a * A.fsin (toReal x) := by ring
    simp only [f_mul, f_neg, f_sin, e, r_mul, r_neg, r_sin, one_mul]
    rw [show toReal a * -Real.sin (toReal x) = -toReal a * Real.sin (toReal x) by ring]
    exact this.mono hu (by omega)
  case cos.right => exact n0 (by simp)
  case cosh.left =>
    have := ((near0 (toReal a)).mul hu (err_near (A.fsinh_err (toReal x)))).rnd hu
    fl
    exact fin this (by ring) (by norm_num)
  case cosh.right => exact n0 (by simp)
  case exp.left =>
    have := ((near0 (toReal a)).mul hu (err_near (A.fexp_err (toReal x)))).rnd hu
    fl
    exact fin this (by ring) (by norm_num)
  case exp.right => exact n0 (by simp)
  case hypot.left =>
    have := ((nr (toReal a * toReal x)).div hu (err_near (A.fhypot_err (toReal x) (toReal y)))).rnd hu
    fl
    exact fin this (by ring) (by norm_num)
  case hypot.right =>
    have := ((nr (toReal a * toReal y)).div hu (err_near (A.fhypot_err (toReal x) (toReal y)))).rnd hu
    fl
    exact fin this (by ring) (by norm_num)
  case isNonneg.left => exact n0 (by simp)
  case isNonneg.right => exact n0 (by simp)
  case isPos.left => exact n0 (by simp)
  case isPos.right => exact n0 (by simp)
  case log.left =>
    have := nr (toReal a / toReal x)
    fl
    exact fin this (by ring) (by norm_num)
  case log.right => exact n0 (by simp)
  case log10.left =>
    have := ((near0 (toReal a)).div hu (((err_near A.cln10_err).mul hu (near0 (toReal x))).rnd hu)).rnd hu
    fl
    exact fin this (by ring) (by norm_num)
  case log10.right => exact n0 (by simp)
  case max.left =>
    refine n0 ?_
    simp only [f_le, r_le, decide_eq_true_eq]
    split <;> simp
  case max.right =>
    refine n0 ?_
    simp only [f_le, r_le, decide_eq_true_eq]
    split <;> simp
  case min.left =>
    refine n0 ?_
    simp only [f_le, r_le, decide_eq_true_eq]
    split <;> simp
  case min.right =>
    refine n0 ?_
    simp only [f_le, r_le, decide_eq_true_eq]
    split <;> simp
  case sign.left => exact n0 (by simp)
  case sign.right => exact n0 (by simp)
  case sin.left =>
    have := ((near0 (toReal a)).mul hu (err_near (A.fcos_err (toReal x)))).rnd hu
    fl
    exact fin this (by ring) (by norm_num)
  case sin.right => exact n0 (by simp)
  case sinh.left =>
    have := ((near0 (toReal a)).mul hu (err_near (A.fcosh_err (toReal x)))).rnd hu
    fl
    exact fin this (by ring) (by norm_num)
  case sinh.right => exact n0 (by simp)
  case sqrt.left =>
    have := ((near0 (toReal a)).div hu (((near0 (2 : ℝ)).mul hu (err_near (A.fsqrt_err (toReal x) hs.le))).rnd hu)).rnd hu
    fl
    exact fin this (by ring) (by norm_num)
  case sqrt.right => exact n0 (by simp)
  case tan.left =>
    have hc := err_near (A.fcos_err (toReal x))
    have := ((near0 (toReal a)).div hu ((hc.mul hu hc).rnd hu)).rnd hu
    fl
    exact fin this (by ring) (by norm_num)
  case tan.right => exact n0 (by simp)
  case tanh.left =>
    have hc := err_near (A.fcosh_err (toReal x))
    have := ((near0 (toReal a)).div hu ((hc.mul hu hc).rnd hu)).rnd hu
    fl
    exact fin this (by ring) (by norm_num)
  case tanh.right => exact n0 (by simp)

/-- Sums, differences, products and negation need one rounding. -/
theorem local_poly {op : Op} (hop : op = .add ∨ op = .sub ∨ op = .mul ∨ op = .neg) (x y : A.Num)
    (rc : Prop) : Local A 1 op rc x y := by
  have hu := A.lt_one
  have n0 : ∀ {v e : ℝ}, v = e → A.Near 1 v e := fun {v e} h => by
    rw [h]; exact (near0 e).mono hu (Nat.zero_le 1)
  intro a
  rcases hop with rfl | rfl | rfl | rfl <;> refine ⟨?_, fun _ => ?_⟩ <;> simp only [gradL, gradR]
  · exact n0 (by simp)
  · exact n0 (by simp)
  · exact n0 (by simp)
  · exact n0 (by simp)
  · simpa using Rounding.near_rnd (R := A.toRounding) hu _
  · simpa using Rounding.near_rnd (R := A.toRounding) hu _
  · exact n0 (by simp)
  · exact n0 (by simp)

end FloatMath
end Slp
