import Verif.Problem.RkLemmas
import Mathlib.Analysis.Calculus.ContDiff.Comp
import Mathlib.Analysis.Calculus.FDeriv.CompCLM
import Mathlib.Analysis.SpecialFunctions.Exp
import Mathlib.Analysis.Normed.Module.Convex
import Mathlib.Tactic.IntervalCases

/-! Bounds for smooth differential equations, and the error of many steps. -/

namespace Slp.Ode

open Set Finset

variable {E : Type*} [NormedAddCommGroup E] [NormedSpace ℝ E]

/-- `z` solves `z' = V(z)` on an interval. -/
def Solves (V : E → E) (z : ℝ → E) (a b : ℝ) : Prop := ∀ t ∈ Icc a b, HasDerivWithinAt z (V (z t)) (Icc a b) t

/-- The derivatives of a solution as functions of its value. -/
noncomputable def lie (V : E → E) : ℕ → E → E
  | 0 => id
  | i + 1 => fun w => fderiv ℝ (lie V i) w (V w)

theorem lie_smooth {V : E → E} (hV : ContDiff ℝ 4 V) : ∀ i j : ℕ, i + j = 4 → ContDiff ℝ (j : ℕ) (lie V (i + 1)) := by
  intro i
  induction i with
  | zero =>
    intro j hj
    have : lie V 1 = V := by funext w; simp [lie]
    rw [show 0 + 1 = 1 from rfl, this]
    obtain rfl : j = 4 := by omega
    exact hV
  | succ i ih =>
    intro j hj
    have h1 := ih (j + 1) (by omega)
    have h2 : ContDiff ℝ (j : ℕ) (fderiv ℝ (lie V (i + 1))) := h1.fderiv_right (by push_cast; exact le_rfl)
    have h3 : ContDiff ℝ (j : ℕ) V := hV.of_le (by exact_mod_cast (show j ≤ 4 by omega))
    exact h2.clm_apply h3

theorem solution_tower {V : E → E} (hV : ContDiff ℝ 4 V) {z : ℝ → E} {a b : ℝ} (hz : Solves V z a b) :
    Tower (fun i t => lie V i (z t)) 5 a b := by
  intro i hi t ht
  have hd : DifferentiableAt ℝ (lie V i) (z t) := by
    rcases i with _ | i
    · exact differentiableAt_id
    · exact ((lie_smooth hV i (4 - i) (by omega)).differentiable (by
        have : 4 - i ≠ 0 := by omega
        exact_mod_cast this)) _
  exact hd.hasFDerivAt.comp_hasDerivWithinAt t (hz t ht)

/-- Near bounded solutions of smooth differential equations, everything is bounded by constants that depend only on the
bound. -/
theorem exists_regular [ProperSpace E] {V : E → E} (hV : ContDiff ℝ 4 V) (R : ℝ) :
    ∃ B L M N : ℝ, 0 ≤ B ∧ 0 ≤ L ∧ 0 ≤ M ∧ 0 ≤ N ∧
      (∀ x x', ‖x‖ ≤ R + 1 → ‖x'‖ ≤ R + 1 → ‖V x - V x'‖ ≤ L * ‖x - x'‖) ∧
      (∀ x, ‖x‖ ≤ R + 1 → ‖V x‖ ≤ B) ∧
      ∀ z a h, 0 ≤ h → Solves V z a (a + h) → (∀ t ∈ Icc a (a + h), ‖z t‖ ≤ R) →
        Regular V (fun i t => lie V i (z t)) a h B L M N := by
  have hK : IsCompact (Metric.closedBall (0 : E) (R + 1)) := isCompact_closedBall _ _
  have hc : Convex ℝ (Metric.closedBall (0 : E) (R + 1)) := convex_closedBall _ _
  have mem : ∀ {x : E}, ‖x‖ ≤ R + 1 → x ∈ Metric.closedBall (0 : E) (R + 1) := fun h => by simpa using h
  have cont : ∀ i, i ≤ 5 → Continuous (lie V i) := by
    intro i hi
    rcases i with _ | i
    · exact continuous_id
    · exact (lie_smooth hV i (4 - i) (by omega)).continuous
  have hb : ∀ i, ∃ C, 0 ≤ C ∧ (i ≤ 5 → ∀ x, ‖x‖ ≤ R + 1 → ‖lie V i x‖ ≤ C) := by
    intro i
    by_cases hi : i ≤ 5
    · obtain ⟨C, hC⟩ := hK.exists_bound_of_continuousOn (cont i hi).continuousOn
      exact ⟨Max.max C 0, le_max_right _ _, fun _ x hx => (hC x (mem hx)).trans (le_max_left _ _)⟩
    · exact ⟨0, le_rfl, fun h => absurd h hi⟩
  choose b b0 hb using hb
  have v1 : lie V 1 = V := by funext w; simp [lie]
  have hd : ContDiff ℝ 3 (fderiv ℝ V) := hV.fderiv_right (by norm_num)
  have hd2 : ContDiff ℝ 2 (fderiv ℝ (fderiv ℝ V)) := hd.fderiv_right (by norm_num)
  obtain ⟨L, hL⟩ := hK.exists_bound_of_continuousOn hd.continuous.continuousOn
  obtain ⟨M, hM⟩ := hK.exists_bound_of_continuousOn hd2.continuous.continuousOn
  have dV : Differentiable ℝ V := hV.differentiable (by norm_num)
  have ddV : Differentiable ℝ (fderiv ℝ V) := hd.differentiable (by norm_num)
  have lip : ∀ x x', ‖x‖ ≤ R + 1 → ‖x'‖ ≤ R + 1 → ‖V x - V x'‖ ≤ Max.max L 0 * ‖x - x'‖ := fun x x' hx hx' =>
    hc.norm_image_sub_le_of_norm_fderiv_le (fun y _ => dV y) (fun y hy => (hL y hy).trans (le_max_left _ _)) (mem hx')
      (mem hx)
  have lip2 : ∀ x x', ‖x‖ ≤ R + 1 → ‖x'‖ ≤ R + 1 → ‖fderiv ℝ V x - fderiv ℝ V x'‖ ≤ Max.max M 0 * ‖x - x'‖ :=
    fun x x' hx hx' => hc.norm_image_sub_le_of_norm_fderiv_le (fun y _ => ddV y)
      (fun y hy => (hM y hy).trans (le_max_left _ _)) (mem hx') (mem hx)
  have hB : 0 ≤ b 1 + b 2 + b 3 + b 4 + b 5 := by have := b0; linarith [b0 1, b0 2, b0 3, b0 4, b0 5]
  refine ⟨b 1 + b 2 + b 3 + b 4 + b 5, Max.max L 0, Max.max M 0, Max.max M 0 * b 1, hB, le_max_right _ _,
    le_max_right _ _, mul_nonneg (le_max_right _ _) (b0 1), lip, fun x hx => ?_, fun z a h h0 hz hR => ?_⟩
  · have := hb 1 (by norm_num) x hx
    rw [v1] at this
    linarith [b0 2, b0 3, b0 4, b0 5]
  have near : ∀ t ∈ Icc a (a + h), ∀ x, ‖x - z t‖ ≤ 1 → ‖x‖ ≤ R + 1 := fun t ht x hx => by
    have := norm_add_le (z t) (x - z t)
    rw [add_sub_cancel] at this
    linarith [hR t ht]
  have self : ∀ t ∈ Icc a (a + h), ‖z t‖ ≤ R + 1 := fun t ht => near t ht _ (by simp)
  refine ⟨solution_tower hV hz, fun t _ => by simp only [v1]; rfl, fun i h2 h5 t ht => ?_,
    fun t ht x x' hx hx' => lip x x' (near t ht x hx) (near t ht x' hx'), fun t => fderiv ℝ V (z t),
    fun t ht => (hL _ (mem (self t ht))).trans (le_max_left _ _), fun t ht x hx => ?_, fun t ht t' ht' => ?_⟩
  · have h3 := hb i h5 (z t) (self t ht)
    have : b i ≤ b 1 + b 2 + b 3 + b 4 + b 5 := by
      have := b0 1; have := b0 2; have := b0 3; have := b0 4; have := b0 5
      interval_cases i <;> linarith
    exact h3.trans this
  · have hcc : Convex ℝ (Metric.closedBall (0 : E) (R + 1) ∩ Metric.closedBall (z t) ‖x - z t‖) :=
      hc.inter (convex_closedBall _ _)
    have h1 := hcc.norm_image_sub_le_of_norm_fderiv_le' (φ := fderiv ℝ V (z t)) (C := Max.max M 0 * ‖x - z t‖)
      (fun y _ => dV y) (fun y hy => ?_) ⟨mem (self t ht), by simp⟩
      ⟨mem (near t ht x hx), by simp [dist_eq_norm]⟩
    · show ‖V x - V (z t) - fderiv ℝ V (z t) (x - z t)‖ ≤ _
      refine h1.trans (le_of_eq ?_)
      show _ = Max.max M 0 * ‖x - z t‖ ^ 2
      ring
    · refine (lip2 y (z t) (by simpa using hy.1) (self t ht)).trans ?_
      refine mul_le_mul_of_nonneg_left ?_ (le_max_right _ _)
      simpa [dist_eq_norm] using hy.2
  · refine (lip2 _ _ (self t ht) (self t' ht')).trans ?_
    rw [mul_assoc]
    refine mul_le_mul_of_nonneg_left ?_ (le_max_right _ _)
    have := (convex_Icc a (a + h)).norm_image_sub_le_of_norm_hasDerivWithin_le (f := z) (C := b 1) hz
      (fun s hs => by have := hb 1 (by norm_num) (z s) (self s hs); rwa [v1] at this) ht' ht
    simpa using this

/-! ### Many steps -/

/-- The discrete Gronwall inequality, for errors that obey a recurrence as long as they are small. -/
theorem gronwall {δ h : ℕ → ℝ} {K c ε r : ℝ} {n : ℕ} (hK : 0 ≤ K) (hc : 0 ≤ c) (hε : 0 ≤ ε) (h0 : 0 ≤ δ 0)
    (hh : ∀ k < n, 0 ≤ h k) (hstep : ∀ k < n, δ k ≤ r → δ (k + 1) ≤ (1 + K * h k) * δ k + c * h k + ε)
    (small : Real.exp (K * ∑ i ∈ range n, h i) * (δ 0 + c * ∑ i ∈ range n, h i + n * ε) ≤ r) :
    ∀ k ≤ n, δ k ≤ Real.exp (K * ∑ i ∈ range k, h i) * (δ 0 + c * ∑ i ∈ range k, h i + k * ε) := by
  intro k
  induction k with
  | zero => intro _; simp
  | succ k ih =>
    intro hk
    have ih := ih (by omega)
    have hn : 0 ≤ h k := hh k (by omega)
    have hpos : ∀ m ≤ n, 0 ≤ ∑ i ∈ range m, h i := fun m hm =>
      sum_nonneg fun i hi => hh i (by have := mem_range.1 hi; omega)
    have hmono : ∑ i ∈ range k, h i ≤ ∑ i ∈ range n, h i :=
      sum_le_sum_of_subset_of_nonneg (range_mono (by omega)) fun i hi _ => hh i (mem_range.1 hi)
    have hkn : (k : ℝ) ≤ n := by exact_mod_cast (show k ≤ n by omega)
    have hr : δ k ≤ r := by
      refine ih.trans (le_trans (mul_le_mul (Real.exp_le_exp.2 (mul_le_mul_of_nonneg_left hmono hK)) ?_ ?_
        (Real.exp_pos _).le) small)
      · have := mul_le_mul_of_nonneg_left hmono hc
        have := mul_le_mul_of_nonneg_right hkn hε
        linarith
      · have := mul_nonneg hc (hpos k (by omega))
        positivity
    have h1 := hstep k (by omega) hr
    rw [sum_range_succ]
    set S := ∑ i ∈ range k, h i
    have hS : 0 ≤ S := hpos k (by omega)
    have e1 : 1 + K * h k ≤ Real.exp (K * h k) := by linarith [Real.add_one_le_exp (K * h k)]
    have e2 : Real.exp (K * (S + h k)) = Real.exp (K * h k) * Real.exp (K * S) := by rw [← Real.exp_add]; ring_nf
    have e3 : 1 ≤ Real.exp (K * (S + h k)) := Real.one_le_exp (by positivity)
    have e4 : 0 ≤ Real.exp (K * S) * (δ 0 + c * S + k * ε) := by positivity
    have e5 : (1 + K * h k) * δ k ≤ Real.exp (K * (S + h k)) * (δ 0 + c * S + k * ε) := by
      rw [e2, mul_assoc]
      calc (1 + K * h k) * δ k ≤ (1 + K * h k) * (Real.exp (K * S) * (δ 0 + c * S + k * ε)) :=
            mul_le_mul_of_nonneg_left ih (by positivity)
        _ ≤ _ := mul_le_mul_of_nonneg_right e1 e4
    have e6 : c * h k + ε ≤ Real.exp (K * (S + h k)) * (c * h k + ε) := le_mul_of_one_le_left (by positivity) e3
    push_cast
    calc δ (k + 1) ≤ (1 + K * h k) * δ k + (c * h k + ε) := by linarith
      _ ≤ Real.exp (K * (S + h k)) * (δ 0 + c * S + k * ε) + Real.exp (K * (S + h k)) * (c * h k + ε) := add_le_add e5 e6
      _ = _ := by ring

end Slp.Ode
