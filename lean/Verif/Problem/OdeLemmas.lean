import Mathlib.Analysis.Calculus.MeanValue
import Mathlib.Analysis.Calculus.ContDiff.Operations
import Mathlib.Analysis.Calculus.Deriv.Pow
import Mathlib.Topology.MetricSpace.ProperSpace

/-! Taylor expansion of the solutions of differential equations. -/

namespace Slp.Ode

open Set Finset

variable {E : Type*} [NormedAddCommGroup E] [NormedSpace ℝ E]

/-- The functions `D 0, D 1, …, D n` are derivatives of each other on an interval. -/
def Tower (D : ℕ → ℝ → E) (n : ℕ) (a b : ℝ) : Prop :=
  ∀ i < n, ∀ t ∈ Icc a b, HasDerivWithinAt (D i) (D (i + 1) t) (Icc a b) t

theorem taylor {D : ℕ → ℝ → E} {n : ℕ} {a b C : ℝ} (hD : Tower D n a b) :
    ∀ m i, i + m ≤ n → (∀ t ∈ Icc a b, ‖D (i + m) t‖ ≤ C) → ∀ t ∈ Icc a b,
      ‖D i t - ∑ j ∈ range m, ((t - a) ^ j / (j.factorial : ℝ)) • D (i + j) a‖ ≤ C * (t - a) ^ m / (m.factorial : ℝ) := by
  intro m
  induction m with
  | zero => intro i _ hC t ht; simpa using hC t ht
  | succ m ih =>
    intro i hi hC
    have ih' := ih (i + 1) (by omega) fun t ht => by rw [show i + 1 + m = i + (m + 1) by omega]; exact hC t ht
    have hd : ∀ t ∈ Icc a b, HasDerivWithinAt
        (fun t => D i t - ∑ j ∈ range (m + 1), ((t - a) ^ j / (j.factorial : ℝ)) • D (i + j) a)
        (D (i + 1) t - ∑ j ∈ range m, ((t - a) ^ j / (j.factorial : ℝ)) • D (i + 1 + j) a) (Icc a b) t := by
      intro t ht
      refine (hD i (by omega) t ht).sub ?_
      have h1 : ∀ j ∈ range (m + 1), HasDerivWithinAt (fun t => ((t - a) ^ j / (j.factorial : ℝ)) • D (i + j) a)
          ((j * (t - a) ^ (j - 1) / (j.factorial : ℝ)) • D (i + j) a) (Icc a b) t := fun j _ => by
        have h2 : HasDerivAt (fun t : ℝ => (t - a) ^ j) (j * (t - a) ^ (j - 1) * 1) t :=
          ((hasDerivAt_id t).sub_const a).pow j
        rw [mul_one] at h2
        exact ((h2.div_const _).smul_const _).hasDerivWithinAt
      have h3 := HasDerivWithinAt.fun_sum h1
      convert h3 using 1
      rw [sum_range_succ']
      simp only [Nat.cast_zero, zero_mul, zero_div, zero_smul, add_zero]
      refine sum_congr rfl fun j _ => ?_
      rw [show i + 1 + j = i + (j + 1) by omega, Nat.add_sub_cancel, Nat.factorial_succ]
      congr 1
      push_cast
      have : (j : ℝ) + 1 ≠ 0 := by positivity
      field_simp
    refine image_norm_le_of_norm_deriv_right_le_deriv_boundary
      (f' := fun t => D (i + 1) t - ∑ j ∈ range m, ((t - a) ^ j / (j.factorial : ℝ)) • D (i + 1 + j) a)
      (B' := fun t => C * (t - a) ^ m / (m.factorial : ℝ))
      (fun t ht => (hd t ht).continuousWithinAt)
      (fun t ht => (hd t ⟨ht.1, ht.2.le⟩).mono_of_mem_nhdsWithin (Icc_mem_nhdsGE_of_mem ht)) ?_ (fun t => ?_)
      (fun t ht => ih' t ⟨ht.1, ht.2.le⟩)
    · rw [sum_range_succ']
      simp
    · have h2 : HasDerivAt (fun t : ℝ => (t - a) ^ (m + 1)) ((m + 1 : ℕ) * (t - a) ^ m * 1) t :=
        ((hasDerivAt_id t).sub_const a).pow (m + 1)
      refine ((h2.const_mul C).div_const ((m + 1).factorial : ℝ)).congr_deriv ?_
      rw [Nat.factorial_succ]
      push_cast
      have : (m : ℝ) + 1 ≠ 0 := by positivity
      field_simp

/-- One step of the classical fourth order Runge-Kutta method for `x' = V(x)`. -/
noncomputable def step (V : E → E) (h : ℝ) (x : E) : E :=
  let k₁ := V x
  let k₂ := V (x + (h / 2) • k₁)
  let k₃ := V (x + (h / 2) • k₂)
  let k₄ := V (x + h • k₃)
  x + (h / 6) • (k₁ + (2 : ℝ) • k₂ + (2 : ℝ) • k₃ + k₄)

/-- `D 0` is a solution of `x' = V(x)` on an interval, with derivatives `D 1, …, D 5` bounded by `B`; around it, `V` is
Lipschitz continuous, and differentiable with a derivative that is Lipschitz continuous. -/
structure Regular (V : E → E) (D : ℕ → ℝ → E) (a h B L M N : ℝ) : Prop where
  tower : Tower D 5 a (a + h)
  ode : ∀ t ∈ Icc a (a + h), D 1 t = V (D 0 t)
  bound : ∀ i, 2 ≤ i → i ≤ 5 → ∀ t ∈ Icc a (a + h), ‖D i t‖ ≤ B
  lip : ∀ t ∈ Icc a (a + h), ∀ x x', ‖x - D 0 t‖ ≤ 1 → ‖x' - D 0 t‖ ≤ 1 → ‖V x - V x'‖ ≤ L * ‖x - x'‖
  linear : ∃ A : ℝ → E →L[ℝ] E, (∀ t ∈ Icc a (a + h), ‖A t‖ ≤ L) ∧
    (∀ t ∈ Icc a (a + h), ∀ x, ‖x - D 0 t‖ ≤ 1 → ‖V x - V (D 0 t) - A t (x - D 0 t)‖ ≤ M * ‖x - D 0 t‖ ^ 2) ∧
    ∀ t ∈ Icc a (a + h), ∀ t' ∈ Icc a (a + h), ‖A t - A t'‖ ≤ N * |t - t'|

theorem Regular.expand {V : E → E} {D : ℕ → ℝ → E} {a h B L M N : ℝ} (H : Regular V D a h B L M N) {θ : ℝ}
    (h0 : 0 ≤ θ) (h1 : θ ≤ h) (m i : ℕ) (hi : i + m ≤ 5) (hm : 2 ≤ i + m) :
    ‖D i (a + θ) - ∑ j ∈ range m, (θ ^ j / (j.factorial : ℝ)) • D (i + j) a‖ ≤ B * θ ^ m / (m.factorial : ℝ) := by
  have := taylor H.tower m i hi (H.bound _ hm hi) (a + θ) ⟨by linarith, by linarith⟩
  rwa [add_sub_cancel_left] at this

end Slp.Ode
