import Mathlib.Analysis.SpecialFunctions.Pow.Real
import Mathlib.Tactic.Linarith

/-! First-order conditions of the elastic problem that feasibility restoration solves, one constraint at a time. -/

namespace Slp

/-- A product of a small multiplier error and a difference. -/
theorem elastic_relax {T S z s p q e : ℝ} (hT : 0 ≤ T) (hz : 0 ≤ z) (hs : 0 < s) (hp : |p - s| ≤ T)
    (hc : |s * z| ≤ T * S) (he : |e| ≤ T * S) (hS : 0 ≤ S) (hq : 0 ≤ q) :
    -(T * S) - T * z - T * S * (p + q + 2 * T) ≤ (z + e) * (q - p) := by
  obtain ⟨h1, h2⟩ := abs_le.1 hp
  have h3 := (abs_le.1 hc).2
  obtain ⟨h4, h5⟩ := abs_le.1 he
  have hTS : 0 ≤ T * S := mul_nonneg hT hS
  have h6 : -(T * S) - T * z ≤ z * (q - p) := by nlinarith
  have h7 : -(T * S * (p + q + 2 * T)) ≤ e * (q - p) := by
    have h8 : |q - p| ≤ p + q + 2 * T := by
      rw [abs_le]
      constructor <;> linarith
    have h9 : |e * (q - p)| ≤ T * S * (p + q + 2 * T) := by
      rw [abs_mul]
      exact mul_le_mul he h8 (abs_nonneg _) hTS
    exact (abs_le.1 h9).1
  linarith [mul_add z q (-p)]

/-- An equality constraint with value `c`, relaxed by `p` and `n`, and its value `cw` at another point. -/
theorem elastic_eq {T S y z1 z2 s1 s2 p n c cw : ℝ} (hT : 0 ≤ T) (hT1 : T ≤ 1) (hS : 0 ≤ S) (hS1 : S ≤ 21)
    (hc : |c - p + n| ≤ T) (hz1 : 0 ≤ z1) (hz2 : 0 ≤ z2) (hs1 : 0 < s1) (hs2 : 0 < s2) (hp : |p - s1| ≤ T)
    (hn : |n - s2| ≤ T) (hc1 : |s1 * z1| ≤ T * S) (hc2 : |s2 * z2| ≤ T * S) (h1 : |1000 + y - z1| ≤ T * S)
    (h2 : |1000 - y - z2| ≤ T * S) :
    (1000 - 21 * T) * |c| ≤ (1000 + 21 * T) * |cw| + y * (cw - c) + 8300 * T := by
  have hTS : T * S ≤ 21 * T := by rw [mul_comm]; exact mul_le_mul_of_nonneg_right hS1 hT
  have hTS0 : 0 ≤ T * S := mul_nonneg hT hS
  have a1 := elastic_relax (q := max cw 0) hT hz1 hs1 hp hc1 h1 hS (le_max_right _ _)
  have a2 := elastic_relax (q := max (-cw) 0) hT hz2 hs2 hn hc2 h2 hS (le_max_right _ _)
  have e1 : max cw 0 - max (-cw) 0 = cw := by
    rcases le_total cw 0 with h | h
    · rw [max_eq_right h, max_eq_left (by linarith)]; ring
    · rw [max_eq_left h, max_eq_right (by linarith)]; ring
  have e2 : max cw 0 + max (-cw) 0 = |cw| := by
    rcases le_total cw 0 with h | h
    · rw [max_eq_right h, max_eq_left (by linarith), abs_of_nonpos h]; ring
    · rw [max_eq_left h, max_eq_right (by linarith), abs_of_nonneg h]; ring
  generalize max cw 0 = q1 at *
  generalize max (-cw) 0 = q2 at *
  obtain ⟨b1, b2⟩ := abs_le.1 h1
  obtain ⟨b3, b4⟩ := abs_le.1 h2
  obtain ⟨b5, b6⟩ := abs_le.1 hc
  obtain ⟨b7, b8⟩ := abs_le.1 hp
  obtain ⟨b9, b10⟩ := abs_le.1 hn
  have hy : |y| ≤ 1021 := abs_le.2 ⟨by linarith, by linarith⟩
  have hz1' : z1 ≤ 2042 := by linarith
  have hz2' : z2 ≤ 2042 := by linarith
  -- the part of the constraint
  have a3 : -(1021 * T) ≤ y * (c - p + n) := by
    have : |y * (c - p + n)| ≤ 1021 * T := by
      rw [abs_mul]; exact mul_le_mul hy hc (abs_nonneg _) (by norm_num)
    exact (abs_le.1 this).1
  have a3' : y * (c - p + n) ≤ 1021 * T := by
    have : |y * (c - p + n)| ≤ 1021 * T := by
      rw [abs_mul]; exact mul_le_mul hy hc (abs_nonneg _) (by norm_num)
    exact (abs_le.1 this).2
  have key : 1000 * (p + n) ≤ 1000 * (q1 + q2) + y * (cw - c) + 1021 * T + T * (z1 + z2) + 2 * (T * S) +
      T * S * (p + n + (q1 + q2) + 4 * T) := by
    have e3 : y * (cw - c) = y * (q1 - p) - y * (q2 - n) - y * (c - p + n) := by rw [← e1]; ring
    linarith
  have hsum : |c| - 3 * T ≤ p + n := by
    rcases abs_cases c with ⟨h, -⟩ | ⟨h, -⟩ <;> rw [h] <;> linarith
  have hpn : -(2 * T) ≤ p + n := by linarith
  have hq : 0 ≤ q1 + q2 := by rw [e2]; exact abs_nonneg _
  have f1 : T * (z1 + z2) ≤ T * 4084 := mul_le_mul_of_nonneg_left (by linarith) hT
  have f0 : T * T ≤ T := mul_le_of_le_one_left hT hT1
  have f2 : T * S * (p + n + (q1 + q2) + 4 * T) ≤ 21 * T * (p + n + (q1 + q2) + 4 * T) :=
    mul_le_mul_of_nonneg_right hTS (by linarith)
  have f3 : (1000 - 21 * T) * (p + n) ≤ (1000 + 21 * T) * (q1 + q2) + y * (cw - c) + 5231 * T := by linarith
  have f4 : (1000 - 21 * T) * (|c| - 3 * T) ≤ (1000 - 21 * T) * (p + n) :=
    mul_le_mul_of_nonneg_left hsum (by linarith)
  have f5 := mul_nonneg hT hT
  rw [← e2]
  linarith

/-- The same for an inequality constraint. -/
theorem elastic_ineq {T S z s z1 z2 s1 s2 p n c cw : ℝ} (hT : 0 ≤ T) (hT1 : T ≤ 1) (hS : 0 ≤ S) (hS1 : S ≤ 21)
    (hz : 0 ≤ z) (hs : 0 < s) (hc : |c - p + n - s| ≤ T) (hc0 : |s * z| ≤ T * S) (hz1 : 0 ≤ z1) (hz2 : 0 ≤ z2)
    (hs1 : 0 < s1) (hs2 : 0 < s2) (hp : |p - s1| ≤ T) (hn : |n - s2| ≤ T) (hc1 : |s1 * z1| ≤ T * S)
    (hc2 : |s2 * z2| ≤ T * S) (h1 : |1000 + z - z1| ≤ T * S) (h2 : |1000 - z - z2| ≤ T * S) :
    (1000 - 21 * T) * max (-c) 0 ≤ (1000 + 21 * T) * max (-cw) 0 + z * (cw - c) + 8300 * T := by
  have hTS : T * S ≤ 21 * T := by rw [mul_comm]; exact mul_le_mul_of_nonneg_right hS1 hT
  have hTS0 : 0 ≤ T * S := mul_nonneg hT hS
  have a1 := elastic_relax (q := 0) hT hz1 hs1 hp hc1 h1 hS le_rfl
  have a2 := elastic_relax (q := max (-cw) 0) hT hz2 hs2 hn hc2 h2 hS (le_max_right _ _)
  have hq : 0 ≤ max (-cw) 0 := le_max_right _ _
  have e1 : 0 ≤ cw + max (-cw) 0 := by linarith [le_max_left (-cw) 0]
  generalize max (-cw) 0 = q2 at *
  obtain ⟨b1, b2⟩ := abs_le.1 h1
  obtain ⟨b3, b4⟩ := abs_le.1 h2
  obtain ⟨b5, b6⟩ := abs_le.1 hc
  obtain ⟨b7, b8⟩ := abs_le.1 hp
  obtain ⟨b9, b10⟩ := abs_le.1 hn
  have hz' : z ≤ 1021 := by linarith
  have hz1' : z1 ≤ 2042 := by linarith
  have hz2' : z2 ≤ 2042 := by linarith
  have b11 := (abs_le.1 hc0).2
  have a3 : z * (c - p + n) ≤ T * S + 1021 * T := by
    have h3 : z * (c - p + n) ≤ z * (s + T) := mul_le_mul_of_nonneg_left (by linarith) hz
    have h4 : z * T ≤ 1021 * T := mul_le_mul_of_nonneg_right hz' hT
    linarith
  have a4 : 0 ≤ z * (cw + q2) := mul_nonneg hz e1
  have key : 1000 * (p + n) ≤ 1000 * q2 + z * (cw - c) + 1021 * T + T * (z1 + z2) + 3 * (T * S) +
      T * S * (p + n + q2 + 4 * T) := by linarith
  have hsum : max (-c) 0 - 3 * T ≤ p + n := by
    rcases max_cases (-c) 0 with ⟨h, -⟩ | ⟨h, -⟩ <;> rw [h] <;> linarith
  have f1 : T * (z1 + z2) ≤ T * 4084 := mul_le_mul_of_nonneg_left (by linarith) hT
  have f0 : T * T ≤ T := mul_le_of_le_one_left hT hT1
  have f2 : T * S * (p + n + q2 + 4 * T) ≤ 21 * T * (p + n + q2 + 4 * T) :=
    mul_le_mul_of_nonneg_right hTS (by linarith)
  have f3 : (1000 - 21 * T) * (p + n) ≤ (1000 + 21 * T) * q2 + z * (cw - c) + 5252 * T := by linarith
  have f4 : (1000 - 21 * T) * (max (-c) 0 - 3 * T) ≤ (1000 - 21 * T) * (p + n) :=
    mul_le_mul_of_nonneg_left hsum (by linarith)
  have f5 := mul_nonneg hT hT
  linarith

end Slp
