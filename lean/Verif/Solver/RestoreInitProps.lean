import Verif.Solver.RestoreInitModel
import Mathlib.Tactic.Linarith
import Mathlib.Tactic.FieldSimp
import Mathlib.Tactic.Ring
import Mathlib.Tactic.Positivity
import Mathlib.Data.List.GetD

/-!
C36: the restoration slacks are strictly positive, satisfy the relaxed constraint and minimise the barrier
objective of the restoration problem at the current point.
-/

namespace Slp

/-- The part of the restoration barrier objective that depends on one pair `p`, `n`. -/
noncomputable def restoreObjective (ρ μ : ℝ) (p n : ℝ) : ℝ := ρ * (p + n) - μ * (Real.log p + Real.log n)

theorem computePNRow_spec (c : ℝ) {ρ μ : ℝ} (hρ : 0 < ρ) (hμ : 0 < μ) :
    0 < (computePNRow c ρ μ).1 ∧ 0 < (computePNRow c ρ μ).2 ∧
      c - (computePNRow c ρ μ).1 + (computePNRow c ρ μ).2 = 0 ∧
      2 * ρ * ((computePNRow c ρ μ).1 * (computePNRow c ρ μ).2) =
        μ * ((computePNRow c ρ μ).1 + (computePNRow c ρ μ).2) := by
  unfold computePNRow
  have hd : (ρ * c - μ) * (ρ * c - μ) - 4 * ρ * (-μ * c / 2) = (ρ * c) ^ 2 + μ ^ 2 := by ring
  simp only [hd]
  set r := Real.sqrt ((ρ * c) ^ 2 + μ ^ 2) with hr
  have hr2 : r ^ 2 = (ρ * c) ^ 2 + μ ^ 2 := Real.sq_sqrt (by positivity)
  have habs : |ρ * c| < r := by
    rw [hr, ← Real.sqrt_sq_eq_abs]
    exact Real.sqrt_lt_sqrt (sq_nonneg _) (by nlinarith)
  obtain ⟨h1, h2⟩ := abs_lt.1 habs
  have hn : 0 < (-(ρ * c - μ) + r) / (2 * ρ) := div_pos (by linarith) (by linarith)
  have hp : c + (-(ρ * c - μ) + r) / (2 * ρ) = (ρ * c + μ + r) / (2 * ρ) := by
    field_simp; ring
  refine ⟨?_, hn, by ring, ?_⟩
  · rw [hp]; exact div_pos (by linarith) (by linarith)
  · rw [hp]
    field_simp
    nlinarith [hr2]

/-- C36: for each constraint value, `p` and `n` are positive, absorb the constraint exactly, and every
other positive pair that absorbs it has a larger barrier objective. -/
theorem compute_p_n_optimal (c : ℝ) {ρ μ : ℝ} (hρ : 0 < ρ) (hμ : 0 < μ) :
    0 < (computePNRow c ρ μ).1 ∧ 0 < (computePNRow c ρ μ).2 ∧
      c - (computePNRow c ρ μ).1 + (computePNRow c ρ μ).2 = 0 ∧
      ∀ p n : ℝ, 0 < p → 0 < n → c - p + n = 0 → (p, n) ≠ computePNRow c ρ μ →
        restoreObjective ρ μ (computePNRow c ρ μ).1 (computePNRow c ρ μ).2 < restoreObjective ρ μ p n := by
  obtain ⟨h1, h2, h3, h4⟩ := computePNRow_spec c hρ hμ
  refine ⟨h1, h2, h3, ?_⟩
  generalize hq : computePNRow c ρ μ = q at h1 h2 h3 h4 ⊢
  obtain ⟨P, N⟩ := q
  simp only at h1 h2 h3 h4 ⊢
  intro p n hp hn hc hne
  have hd : p - P = n - N := by linarith
  have hpne : p / P ≠ 1 := by
    intro h
    rw [div_eq_one_iff_eq h1.ne'] at h
    exact hne (Prod.ext h (by linarith : n = N))
  have l1 : Real.log p - Real.log P < p / P - 1 := by
    rw [← Real.log_div hp.ne' h1.ne']
    exact Real.log_lt_sub_one_of_pos (div_pos hp h1) hpne
  have l2 : Real.log n - Real.log N ≤ n / N - 1 := by
    rw [← Real.log_div hn.ne' h2.ne']
    exact Real.log_le_sub_one_of_pos (div_pos hn h2)
  have key : ρ * (p + n - (P + N)) = μ * (p / P - 1 + (n / N - 1)) := by
    have e1 : p = n - N + P := by linarith
    rw [e1]
    field_simp
    linear_combination (n - N) * h4
  have := mul_lt_mul_of_pos_left (add_lt_add_of_lt_of_le l1 l2) hμ
  unfold restoreObjective
  nlinarith

/-- C36: the vectors returned have the size of the constraint vector and hold those pairs. -/
theorem compute_p_n_rows (c : List ℝ) (ρ μ : ℝ) :
    (computePN c ρ μ).1.length = c.length ∧ (computePN c ρ μ).2.length = c.length ∧
      ∀ (i : ℕ) (h : i < c.length), (computePN c ρ μ).1[i]? = some (computePNRow c[i] ρ μ).1 ∧
        (computePN c ρ μ).2[i]? = some (computePNRow c[i] ρ μ).2 := by
  refine ⟨by simp [computePN], by simp [computePN], fun i h => ?_⟩
  simp [computePN, h]

/-- A violated and a satisfied constraint. -/
example : 0 < (computePNRow (-3) 1000 3).1 ∧ 0 < (computePNRow 0 1000 0.1).2 :=
  ⟨(compute_p_n_optimal _ (by norm_num) (by norm_num)).1, (compute_p_n_optimal _ (by norm_num) (by norm_num)).2.1⟩

end Slp
