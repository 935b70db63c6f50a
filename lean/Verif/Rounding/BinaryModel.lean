import Verif.Rounding.RoundModel
import Mathlib.Algebra.Order.Round
import Mathlib.Data.Int.Log
import Mathlib.Analysis.SpecialFunctions.Sqrt
import Mathlib.Tactic.FieldSimp
import Mathlib.Tactic.NormNum

/-!
Binary floating-point numbers with `p` bits of precision and an unbounded exponent: rounding to the nearest one.
-/

namespace Slp
namespace Rounding

/-- The distance between adjacent numbers around `x` (modelling of the arithmetic of `Scalar`, such as `double`,
throughout; of `expression.hpp:444-2050` in particular). -/
noncomputable def ulp (p : ℕ) (x : ℝ) : ℝ := 2 ^ (Int.log 2 |x| + 1 - p : ℤ)

/-- The nearest number with `p` bits, ties going away from zero for positive numbers (they do not matter here; IEEE
754 rounds them to even). -/
noncomputable def nearest (p : ℕ) (x : ℝ) : ℝ := round (x / ulp p x) * ulp p x

theorem ulp_pos (p : ℕ) (x : ℝ) : 0 < ulp p x := by unfold ulp; positivity

theorem nearest_err (p : ℕ) (x : ℝ) : |nearest p x - x| ≤ 2 ^ (-p : ℤ) * |x| := by
  have hu := ulp_pos p x
  have h1 : nearest p x - x = (round (x / ulp p x) - x / ulp p x) * ulp p x := by
    unfold nearest
    rw [sub_mul, div_mul_cancel₀ _ hu.ne']
  rw [h1, abs_mul, abs_of_pos hu]
  have h2 : |(round (x / ulp p x) : ℝ) - x / ulp p x| ≤ 1 / 2 := by
    rw [abs_sub_comm]; exact abs_sub_round _
  rcases eq_or_ne x 0 with rfl | hx
  · simp
  have h3 : (2 : ℝ) ^ Int.log 2 |x| ≤ |x| := Int.zpow_log_le_self one_lt_two (abs_pos.mpr hx)
  have h4 : ulp p x = 2 * ((2 : ℝ) ^ (-p : ℤ) * 2 ^ Int.log 2 |x|) := by
    unfold ulp
    rw [← zpow_add₀ two_ne_zero, ← zpow_one_add₀ two_ne_zero]
    congr 1; ring
  calc _ ≤ 1 / 2 * ulp p x := mul_le_mul_of_nonneg_right h2 hu.le
    _ = (2 : ℝ) ^ (-p : ℤ) * 2 ^ Int.log 2 |x| := by rw [h4]; ring
    _ ≤ _ := mul_le_mul_of_nonneg_left h3 (by positivity)

theorem nearest_zero (p : ℕ) : nearest p 0 = 0 := by simp [nearest]

theorem nearest_neg_two_zpow {p : ℕ} (hp : 1 ≤ p) (j : ℤ) : nearest p (-2 ^ j) = -2 ^ j := by
  have h1 : |(-2 ^ j : ℝ)| = ((2 : ℕ) : ℝ) ^ j := by rw [abs_neg, abs_of_pos (by positivity)]; norm_num
  have h2 : ulp p (-2 ^ j) = 2 ^ (j + 1 - p) := by
    unfold ulp; rw [h1, Int.log_zpow one_lt_two]
  have h3 : (-2 ^ j : ℝ) / 2 ^ (j + 1 - p) = ((-2 ^ (p - 1) : ℤ) : ℝ) := by
    rw [neg_div, ← zpow_sub₀ two_ne_zero]
    push_cast
    rw [← zpow_natCast]
    congr 2
    push_cast [hp]; ring
  unfold nearest
  rw [h2, h3, round_intCast, ← h3, div_mul_cancel₀ _ (by positivity)]

theorem nearest_two_zpow {p : ℕ} (hp : 1 ≤ p) (j : ℤ) : nearest p (2 ^ j) = 2 ^ j := by
  have h1 : |(2 ^ j : ℝ)| = ((2 : ℕ) : ℝ) ^ j := by rw [abs_of_pos (by positivity)]; norm_num
  have h2 : ulp p (2 ^ j) = 2 ^ (j + 1 - p) := by
    unfold ulp; rw [h1, Int.log_zpow one_lt_two]
  have h3 : (2 ^ j : ℝ) / 2 ^ (j + 1 - p) = ((2 ^ (p - 1) : ℤ) : ℝ) := by
    rw [← zpow_sub₀ two_ne_zero]
    push_cast
    rw [← zpow_natCast]
    congr 1
    push_cast [hp]; ring
  unfold nearest
  rw [h2, h3, round_intCast, ← h3, div_mul_cancel₀ _ (by positivity)]

/-- Numbers just below 1 round to 1. -/
theorem nearest_one_sub {p : ℕ} (hp : 1 ≤ p) {μ : ℝ} (h0 : 0 < μ) (h1 : 2 * μ < 2 ^ (-p : ℤ)) :
    nearest p (1 - μ) = 1 := by
  have hpow : (2 : ℝ) ^ (-p : ℤ) ≤ 1 / 2 := by
    calc (2 : ℝ) ^ (-p : ℤ) ≤ 2 ^ (-1 : ℤ) := zpow_le_zpow_right₀ one_le_two (by omega)
      _ = 1 / 2 := by norm_num
  have hpos : 0 < 1 - μ := by linarith
  have hlog : Int.log 2 |1 - μ| = -1 := by
    rw [abs_of_pos hpos]
    have a : (-1 : ℤ) ≤ Int.log 2 (1 - μ) := by
      rw [← Int.zpow_le_iff_le_log one_lt_two hpos]; norm_num; linarith
    have b : Int.log 2 (1 - μ) < 0 := by
      rw [← Int.lt_zpow_iff_log_lt one_lt_two hpos]; norm_num; linarith
    omega
  have hu : ulp p (1 - μ) = 2 ^ (-p : ℤ) := by unfold ulp; rw [hlog]; congr 1; ring
  have hr : round ((1 - μ) / (2 : ℝ) ^ (-p : ℤ)) = 2 ^ p := by
    rw [round_eq, Int.floor_eq_iff]
    have e : (1 - μ) / (2 : ℝ) ^ (-p : ℤ) = 2 ^ p - μ * 2 ^ p := by
      rw [zpow_neg, zpow_natCast, div_inv_eq_mul]; ring
    have l : μ * 2 ^ p < 1 / 2 := by
      have : 2 * μ * 2 ^ p < (2 : ℝ) ^ (-p : ℤ) * 2 ^ p := mul_lt_mul_of_pos_right h1 (by positivity)
      rw [zpow_neg, zpow_natCast, inv_mul_cancel₀ (by positivity)] at this
      linarith
    have l' : 0 < μ * 2 ^ p := by positivity
    rw [e]; push_cast
    constructor <;> linarith
  unfold nearest
  rw [hu, hr]
  push_cast
  rw [zpow_neg, zpow_natCast, mul_inv_cancel₀ (by positivity)]

/-- Arithmetic with `p` bits (modelling of the arithmetic of `Scalar`, such as `double`, throughout; of
`expression.hpp:444-2050` in particular). -/
noncomputable def binary (p : ℕ) : Rounding where
  u := 2 ^ (-p : ℤ)
  rnd := nearest p
  axpy x α q := nearest p (x + nearest p (α * q))
  pow μ := nearest p (μ * Real.sqrt μ)
  nonneg := by positivity
  err := nearest_err p
  axpy_eq _ _ _ := .inl rfl

end Rounding
end Slp
