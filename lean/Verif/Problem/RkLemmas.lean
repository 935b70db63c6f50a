import Verif.Problem.OdeLemmas
import Mathlib.Tactic.Module

/-! The error of one Runge-Kutta step. -/

namespace Slp.Ode

open Set Finset

variable {E : Type*} [NormedAddCommGroup E] [NormedSpace ℝ E]

theorem norm_pos_smul {c : ℝ} (hc : 0 ≤ c) (x : E) : ‖c • x‖ = c * ‖x‖ := by
  rw [norm_smul, Real.norm_eq_abs, abs_of_nonneg hc]

/-- The Taylor expansions at the middle and at the end of a step. -/
structure Expansions (D : ℕ → ℝ → E) (a h B : ℝ) : Prop where
  m1 : ‖D 0 (a + h / 2) - (D 0 a + (h / 2) • D 1 a)‖ ≤ B * h ^ 2 / 8
  m2 : ‖D 0 (a + h / 2) - (D 0 a + (h / 2) • D 1 a + (h ^ 2 / 8) • D 2 a)‖ ≤ B * h ^ 3 / 48
  m3 : ‖D 0 (a + h / 2) - (D 0 a + (h / 2) • D 1 a + (h ^ 2 / 8) • D 2 a + (h ^ 3 / 48) • D 3 a)‖ ≤ B * h ^ 4 / 384
  s1 : ‖D 1 (a + h / 2) - D 1 a‖ ≤ B * h / 2
  s2 : ‖D 1 (a + h / 2) - (D 1 a + (h / 2) • D 2 a)‖ ≤ B * h ^ 2 / 8
  s3 : ‖D 1 (a + h / 2) - (D 1 a + (h / 2) • D 2 a + (h ^ 2 / 8) • D 3 a)‖ ≤ B * h ^ 3 / 48
  s4 : ‖D 1 (a + h / 2) - (D 1 a + (h / 2) • D 2 a + (h ^ 2 / 8) • D 3 a + (h ^ 3 / 48) • D 4 a)‖ ≤ B * h ^ 4 / 384
  y2 : ‖D 0 (a + h) - (D 0 a + h • D 1 a + (h ^ 2 / 2) • D 2 a)‖ ≤ B * h ^ 3 / 6
  y3 : ‖D 0 (a + h) - (D 0 a + h • D 1 a + (h ^ 2 / 2) • D 2 a + (h ^ 3 / 6) • D 3 a)‖ ≤ B * h ^ 4 / 24
  y4 : ‖D 0 (a + h) - (D 0 a + h • D 1 a + (h ^ 2 / 2) • D 2 a + (h ^ 3 / 6) • D 3 a + (h ^ 4 / 24) • D 4 a)‖ ≤
    B * h ^ 5 / 120
  v3 : ‖D 1 (a + h) - (D 1 a + h • D 2 a + (h ^ 2 / 2) • D 3 a)‖ ≤ B * h ^ 3 / 6
  v4 : ‖D 1 (a + h) - (D 1 a + h • D 2 a + (h ^ 2 / 2) • D 3 a + (h ^ 3 / 6) • D 4 a)‖ ≤ B * h ^ 4 / 24

theorem Regular.expansions {V : E → E} {D : ℕ → ℝ → E} {a h B L M N : ℝ} (H : Regular V D a h B L M N) (h0 : 0 ≤ h) :
    Expansions D a h B := by
  have e (θ : ℝ) (h1 : 0 ≤ θ) (h2 : θ ≤ h) := H.expand h1 h2
  have hm : h / 2 ≤ h := by linarith
  have hp : 0 ≤ h / 2 := by linarith
  constructor
  · refine (le_of_eq_of_le (congrArg norm ?_) (e (h / 2) hp hm 2 0 (by omega) (by omega))).trans_eq ?_
    · simp only [sum_range_succ, sum_range_zero, Nat.factorial]; push_cast; module
    · simp only [Nat.factorial]; push_cast; ring
  · refine (le_of_eq_of_le (congrArg norm ?_) (e (h / 2) hp hm 3 0 (by omega) (by omega))).trans_eq ?_
    · simp only [sum_range_succ, sum_range_zero, Nat.factorial]; push_cast; module
    · simp only [Nat.factorial]; push_cast; ring
  · refine (le_of_eq_of_le (congrArg norm ?_) (e (h / 2) hp hm 4 0 (by omega) (by omega))).trans_eq ?_
    · simp only [sum_range_succ, sum_range_zero, Nat.factorial]; push_cast; module
    · simp only [Nat.factorial]; push_cast; ring
  · refine (le_of_eq_of_le (congrArg norm ?_) (e (h / 2) hp hm 1 1 (by omega) (by omega))).trans_eq ?_
    · simp only [sum_range_succ, sum_range_zero, Nat.factorial]; push_cast; module
    · simp only [Nat.factorial]; push_cast; ring
  · refine (le_of_eq_of_le (congrArg norm ?_) (e (h / 2) hp hm 2 1 (by omega) (by omega))).trans_eq ?_
    · simp only [sum_range_succ, sum_range_zero, Nat.factorial]; push_cast; module
    · simp only [Nat.factorial]; push_cast; ring
  · refine (le_of_eq_of_le (congrArg norm ?_) (e (h / 2) hp hm 3 1 (by omega) (by omega))).trans_eq ?_
    · simp only [sum_range_succ, sum_range_zero, Nat.factorial]; push_cast; module
    · simp only [Nat.factorial]; push_cast; ring
  · refine (le_of_eq_of_le (congrArg norm ?_) (e (h / 2) hp hm 4 1 (by omega) (by omega))).trans_eq ?_
    · simp only [sum_range_succ, sum_range_zero, Nat.factorial]; push_cast; module
    · simp only [Nat.factorial]; push_cast; ring
  · refine (le_of_eq_of_le (congrArg norm ?_) (e h h0 le_rfl 3 0 (by omega) (by omega))).trans_eq ?_
    · simp only [sum_range_succ, sum_range_zero, Nat.factorial]; push_cast; module
    · simp only [Nat.factorial]; push_cast; ring
  · refine (le_of_eq_of_le (congrArg norm ?_) (e h h0 le_rfl 4 0 (by omega) (by omega))).trans_eq ?_
    · simp only [sum_range_succ, sum_range_zero, Nat.factorial]; push_cast; module
    · simp only [Nat.factorial]; push_cast; ring
  · refine (le_of_eq_of_le (congrArg norm ?_) (e h h0 le_rfl 5 0 (by omega) (by omega))).trans_eq ?_
    · simp only [sum_range_succ, sum_range_zero, Nat.factorial]; push_cast; module
    · simp only [Nat.factorial]; push_cast; ring
  · refine (le_of_eq_of_le (congrArg norm ?_) (e h h0 le_rfl 3 1 (by omega) (by omega))).trans_eq ?_
    · simp only [sum_range_succ, sum_range_zero, Nat.factorial]; push_cast; module
    · simp only [Nat.factorial]; push_cast; ring
  · refine (le_of_eq_of_le (congrArg norm ?_) (e h h0 le_rfl 4 1 (by omega) (by omega))).trans_eq ?_
    · simp only [sum_range_succ, sum_range_zero, Nat.factorial]; push_cast; module
    · simp only [Nat.factorial]; push_cast; ring

/-- Bounds for the errors of the intermediate points of a step and combinations of them. -/
noncomputable def c3 (B L : ℝ) : ℝ := 3 / 8 * B + L * B / 16
noncomputable def c4 (B L : ℝ) : ℝ := 7 / 24 * B + L * c3 B L
noncomputable def c5 (B L : ℝ) : ℝ := 5 / 48 * B + L * B / 16
noncomputable def c6 (B L M : ℝ) : ℝ := L * c5 B L + M * ((B / 8) ^ 2 + c3 B L ^ 2)
noncomputable def c7 (B L M : ℝ) : ℝ := 3 / 32 * B + c6 B L M

/-- All intermediate points of a step of length `h ≤ 1` are within `stage B L * h²` of the solution. -/
noncomputable def stage (B L : ℝ) : ℝ := B / 8 + c3 B L + c4 B L

/-- The error of a step is at most `local B L M N * h⁵`. -/
noncomputable def localC (B L M N : ℝ) : ℝ :=
  (L * c7 B L M + N / 2 * c4 B L + M * (2 * (B / 8) ^ 2 + 2 * c3 B L ^ 2 + c4 B L ^ 2)) / 6 + B / 50

/-- The intermediate points. -/
noncomputable def Y2 (V : E → E) (h : ℝ) (x : E) : E := x + (h / 2) • V x
noncomputable def Y3 (V : E → E) (h : ℝ) (x : E) : E := x + (h / 2) • V (Y2 V h x)
noncomputable def Y4 (V : E → E) (h : ℝ) (x : E) : E := x + h • V (Y3 V h x)

theorem step_eq (V : E → E) (h : ℝ) (x : E) : step V h x =
    x + (h / 6) • (V x + (2 : ℝ) • V (Y2 V h x) + (2 : ℝ) • V (Y3 V h x) + V (Y4 V h x)) := rfl

theorem Regular.stages {V : E → E} {D : ℕ → ℝ → E} {a h B L M N : ℝ} (H : Regular V D a h B L M N) (h0 : 0 ≤ h)
    (h1 : h ≤ 1) (hB : 0 ≤ B) (hL : 0 ≤ L) (hs : stage B L * h ^ 2 ≤ 1 / 2) :
    ‖Y2 V h (D 0 a) - D 0 (a + h / 2)‖ ≤ B / 8 * h ^ 2 ∧ ‖Y3 V h (D 0 a) - D 0 (a + h / 2)‖ ≤ c3 B L * h ^ 2 ∧
    ‖Y4 V h (D 0 a) - D 0 (a + h)‖ ≤ c4 B L * h ^ 3 ∧ ‖Y2 V h (D 0 a) - D 0 (a + h / 2)‖ ≤ 1 / 2 ∧
    ‖Y3 V h (D 0 a) - D 0 (a + h / 2)‖ ≤ 1 / 2 ∧ ‖Y4 V h (D 0 a) - D 0 (a + h)‖ ≤ 1 / 2 := by
  have X := H.expansions h0
  have ta : a ∈ Icc a (a + h) := ⟨le_rfl, by linarith⟩
  have tm : a + h / 2 ∈ Icc a (a + h) := ⟨by linarith, by linarith⟩
  have p3 : 0 ≤ c3 B L := by unfold c3; positivity
  have p4 : 0 ≤ c4 B L := by unfold c4; positivity
  have h2 : 0 ≤ h ^ 2 := by positivity
  have h32 : h ^ 3 ≤ h ^ 2 := pow_le_pow_of_le_one h0 h1 (by norm_num)
  have e2 : ‖Y2 V h (D 0 a) - D 0 (a + h / 2)‖ ≤ B / 8 * h ^ 2 := by
    rw [norm_sub_rev, Y2, ← H.ode a ta]
    exact X.m1.trans (le_of_eq (by ring))
  have f2 : ‖Y2 V h (D 0 a) - D 0 (a + h / 2)‖ ≤ 1 / 2 := by
    refine e2.trans (le_trans ?_ hs)
    unfold stage; nlinarith
  have d2 : ‖V (Y2 V h (D 0 a)) - D 1 (a + h / 2)‖ ≤ L * (B / 8 * h ^ 2) := by
    rw [H.ode _ tm]
    exact (H.lip _ tm _ _ (f2.trans (by norm_num)) (by simp)).trans (mul_le_mul_of_nonneg_left e2 hL)
  have e3 : ‖Y3 V h (D 0 a) - D 0 (a + h / 2)‖ ≤ c3 B L * h ^ 2 := by
    have e : Y3 V h (D 0 a) - D 0 (a + h / 2) = -(D 0 (a + h / 2) - (D 0 a + (h / 2) • D 1 a)) +
        (h / 2) • (D 1 (a + h / 2) - D 1 a) + (h / 2) • (V (Y2 V h (D 0 a)) - D 1 (a + h / 2)) := by
      unfold Y3; module
    rw [e]
    refine (norm_add₃_le).trans ?_
    rw [norm_neg, norm_pos_smul (by linarith), norm_pos_smul (by linarith)]
    have k1 := mul_le_mul_of_nonneg_left X.s1 (show 0 ≤ h / 2 by linarith)
    have k2 := mul_le_mul_of_nonneg_left d2 (show 0 ≤ h / 2 by linarith)
    have k3 := mul_le_mul_of_nonneg_left h32 (show 0 ≤ L * B / 16 by positivity)
    unfold c3
    linarith [X.m1]
  have f3 : ‖Y3 V h (D 0 a) - D 0 (a + h / 2)‖ ≤ 1 / 2 := by
    refine e3.trans (le_trans ?_ hs)
    unfold stage; nlinarith
  have d3 : ‖V (Y3 V h (D 0 a)) - D 1 (a + h / 2)‖ ≤ L * (c3 B L * h ^ 2) := by
    rw [H.ode _ tm]
    exact (H.lip _ tm _ _ (f3.trans (by norm_num)) (by simp)).trans (mul_le_mul_of_nonneg_left e3 hL)
  have e4 : ‖Y4 V h (D 0 a) - D 0 (a + h)‖ ≤ c4 B L * h ^ 3 := by
    have e : Y4 V h (D 0 a) - D 0 (a + h) = -(D 0 (a + h) - (D 0 a + h • D 1 a + (h ^ 2 / 2) • D 2 a)) +
        h • (D 1 (a + h / 2) - (D 1 a + (h / 2) • D 2 a)) + h • (V (Y3 V h (D 0 a)) - D 1 (a + h / 2)) := by
      unfold Y4; module
    rw [e]
    refine (norm_add₃_le).trans ?_
    rw [norm_neg, norm_pos_smul h0, norm_pos_smul h0]
    have k1 := mul_le_mul_of_nonneg_left X.s2 h0
    have k2 := mul_le_mul_of_nonneg_left d3 h0
    unfold c4
    linarith [X.y2]
  refine ⟨e2, e3, e4, f2, f3, e4.trans (le_trans ?_ hs)⟩
  have := mul_le_mul_of_nonneg_left h32 p4
  unfold stage; nlinarith

theorem Regular.local_error {V : E → E} {D : ℕ → ℝ → E} {a h B L M N : ℝ} (H : Regular V D a h B L M N) (h0 : 0 ≤ h)
    (h1 : h ≤ 1) (hB : 0 ≤ B) (hL : 0 ≤ L) (hM : 0 ≤ M) (hN : 0 ≤ N) (hs : stage B L * h ^ 2 ≤ 1 / 2) :
    ‖step V h (D 0 a) - D 0 (a + h)‖ ≤ localC B L M N * h ^ 5 := by
  have X := H.expansions h0
  have ta : a ∈ Icc a (a + h) := ⟨le_rfl, by linarith⟩
  have tm : a + h / 2 ∈ Icc a (a + h) := ⟨by linarith, by linarith⟩
  have te : a + h ∈ Icc a (a + h) := ⟨by linarith, le_rfl⟩
  have p3 : 0 ≤ c3 B L := by unfold c3; positivity
  have p4 : 0 ≤ c4 B L := by unfold c4; positivity
  obtain ⟨e2, e3, e4, f2, f3, f4⟩ := H.stages h0 h1 hB hL hs
  obtain ⟨A, a1, a2, a3⟩ := H.linear
  have w2 := a2 _ tm _ (f2.trans (by norm_num))
  have w3 := a2 _ tm _ (f3.trans (by norm_num))
  have w4 := a2 _ te _ (f4.trans (by norm_num))
  have w5 := a3 _ te _ tm
  have w6 := a1 _ tm
  rw [← H.ode _ tm] at w2 w3
  rw [← H.ode _ te] at w4
  have u2 := H.lip _ tm _ _ (f2.trans (by norm_num)) (show ‖D 0 (a + h / 2) - D 0 (a + h / 2)‖ ≤ 1 by simp)
  rw [← H.ode _ tm] at u2
  set k2 := V (Y2 V h (D 0 a)) with hk2
  set k3 := V (Y3 V h (D 0 a)) with hk3
  set k4 := V (Y4 V h (D 0 a)) with hk4
  set E2 := Y2 V h (D 0 a) - D 0 (a + h / 2) with hE2
  set E3 := Y3 V h (D 0 a) - D 0 (a + h / 2) with hE3
  set E4 := Y4 V h (D 0 a) - D 0 (a + h) with hE4
  have y2 : Y2 V h (D 0 a) = D 0 a + (h / 2) • D 1 a := by rw [Y2, ← H.ode a ta]
  have y3 : Y3 V h (D 0 a) = D 0 a + (h / 2) • k2 := rfl
  have y4 : Y4 V h (D 0 a) = D 0 a + h • k3 := rfl
  have h4 : 0 ≤ h ^ 4 := by positivity
  have h43 : h ^ 4 ≤ h ^ 3 := pow_le_pow_of_le_one h0 h1 (by norm_num)
  have h64 : h ^ 6 ≤ h ^ 4 := pow_le_pow_of_le_one h0 h1 (by norm_num)
  have q2 : ‖E2‖ ^ 2 ≤ (B / 8) ^ 2 * h ^ 4 :=
    (pow_le_pow_left₀ (norm_nonneg _) e2 2).trans (le_of_eq (by ring))
  have q3 : ‖E3‖ ^ 2 ≤ c3 B L ^ 2 * h ^ 4 :=
    (pow_le_pow_left₀ (norm_nonneg _) e3 2).trans (le_of_eq (by ring))
  have q4 : ‖E4‖ ^ 2 ≤ c4 B L ^ 2 * h ^ 4 := by
    refine (pow_le_pow_left₀ (norm_nonneg _) e4 2).trans ?_
    have := mul_le_mul_of_nonneg_left h64 (sq_nonneg (c4 B L))
    linarith
  have d2 : ‖k2 - D 1 (a + h / 2)‖ ≤ L * (B / 8 * h ^ 2) := u2.trans (mul_le_mul_of_nonneg_left e2 hL)
  have e5 : ‖E2 + E3‖ ≤ c5 B L * h ^ 3 := by
    have e : E2 + E3 = (-2 : ℝ) • (D 0 (a + h / 2) - (D 0 a + (h / 2) • D 1 a + (h ^ 2 / 8) • D 2 a)) +
        (h / 2) • (D 1 (a + h / 2) - (D 1 a + (h / 2) • D 2 a)) + (h / 2) • (k2 - D 1 (a + h / 2)) := by
      rw [hE2, hE3, y2, y3]; module
    rw [e]
    refine (norm_add₃_le).trans ?_
    rw [norm_smul, norm_pos_smul (by linarith), norm_pos_smul (by linarith)]
    have k1 := mul_le_mul_of_nonneg_left X.s2 (show 0 ≤ h / 2 by linarith)
    have k2 := mul_le_mul_of_nonneg_left d2 (show 0 ≤ h / 2 by linarith)
    have : ‖(-2 : ℝ)‖ = 2 := by norm_num
    rw [this]
    unfold c5
    linarith [X.m2]
  have d6 : ‖(k2 - D 1 (a + h / 2)) + (k3 - D 1 (a + h / 2))‖ ≤ c6 B L M * h ^ 3 := by
    have e : (k2 - D 1 (a + h / 2)) + (k3 - D 1 (a + h / 2)) = A (a + h / 2) (E2 + E3) +
        (k2 - D 1 (a + h / 2) - A (a + h / 2) E2) + (k3 - D 1 (a + h / 2) - A (a + h / 2) E3) := by
      rw [map_add]; abel
    rw [e]
    refine (norm_add₃_le).trans ?_
    have k1 : ‖A (a + h / 2) (E2 + E3)‖ ≤ L * (c5 B L * h ^ 3) :=
      ((A (a + h / 2)).le_opNorm _).trans (mul_le_mul w6 e5 (norm_nonneg _) hL)
    have k2 := w2.trans (mul_le_mul_of_nonneg_left q2 hM)
    have k3 := w3.trans (mul_le_mul_of_nonneg_left q3 hM)
    have k4 := mul_le_mul_of_nonneg_left h43 (show 0 ≤ M * ((B / 8) ^ 2 + c3 B L ^ 2) by positivity)
    unfold c6
    linarith
  have e7 : ‖(2 : ℝ) • (E2 + E3) + E4‖ ≤ c7 B L M * h ^ 4 := by
    have e : (2 : ℝ) • (E2 + E3) + E4 =
        (-4 : ℝ) • (D 0 (a + h / 2) - (D 0 a + (h / 2) • D 1 a + (h ^ 2 / 8) • D 2 a + (h ^ 3 / 48) • D 3 a)) +
        -(D 0 (a + h) - (D 0 a + h • D 1 a + (h ^ 2 / 2) • D 2 a + (h ^ 3 / 6) • D 3 a)) +
        (2 * h) • (D 1 (a + h / 2) - (D 1 a + (h / 2) • D 2 a + (h ^ 2 / 8) • D 3 a)) +
        h • ((k2 - D 1 (a + h / 2)) + (k3 - D 1 (a + h / 2))) := by
      rw [hE2, hE3, hE4, y2, y3, y4]; module
    rw [e]
    refine (norm_add_le _ _).trans (le_trans (add_le_add_left (norm_add₃_le) _) ?_)
    rw [norm_smul (-4 : ℝ), norm_neg (_ - _), norm_pos_smul (by linarith), norm_pos_smul h0]
    have : ‖(-4 : ℝ)‖ = 4 := by norm_num
    rw [this]
    have k1 := mul_le_mul_of_nonneg_left X.s3 (show 0 ≤ 2 * h by linarith)
    have k2 := mul_le_mul_of_nonneg_left d6 h0
    unfold c7
    linarith [X.m3, X.y3]
  have d8 : ‖(2 : ℝ) • (k2 - D 1 (a + h / 2)) + (2 : ℝ) • (k3 - D 1 (a + h / 2)) + (k4 - D 1 (a + h))‖ ≤
      (L * c7 B L M + N / 2 * c4 B L + M * (2 * (B / 8) ^ 2 + 2 * c3 B L ^ 2 + c4 B L ^ 2)) * h ^ 4 := by
    have e : (2 : ℝ) • (k2 - D 1 (a + h / 2)) + (2 : ℝ) • (k3 - D 1 (a + h / 2)) + (k4 - D 1 (a + h)) =
        (A (a + h / 2) ((2 : ℝ) • (E2 + E3) + E4) + (A (a + h) - A (a + h / 2)) E4) +
        ((2 : ℝ) • (k2 - D 1 (a + h / 2) - A (a + h / 2) E2) + (2 : ℝ) • (k3 - D 1 (a + h / 2) - A (a + h / 2) E3) +
          (k4 - D 1 (a + h) - A (a + h) E4)) := by
      rw [map_add, map_smul, map_add, sub_apply]; module
    rw [e]
    refine (norm_add_le _ _).trans (le_trans (add_le_add (norm_add_le _ _) (norm_add₃_le)) ?_)
    rw [norm_pos_smul (by norm_num), norm_pos_smul (by norm_num)]
    have k1 : ‖A (a + h / 2) ((2 : ℝ) • (E2 + E3) + E4)‖ ≤ L * (c7 B L M * h ^ 4) :=
      ((A (a + h / 2)).le_opNorm _).trans (mul_le_mul w6 e7 (norm_nonneg _) hL)
    have k2 := w2.trans (mul_le_mul_of_nonneg_left q2 hM)
    have k3 := w3.trans (mul_le_mul_of_nonneg_left q3 hM)
    have k4 := w4.trans (mul_le_mul_of_nonneg_left q4 hM)
    have k5 : ‖(A (a + h) - A (a + h / 2)) E4‖ ≤ N * (h / 2) * (c4 B L * h ^ 3) := by
      refine ((A (a + h) - A (a + h / 2)).le_opNorm _).trans (mul_le_mul ?_ e4 (norm_nonneg _) (by positivity))
      refine w5.trans (le_of_eq ?_)
      rw [show a + h - (a + h / 2) = h / 2 by ring, abs_of_nonneg (by linarith)]
    linarith
  have e : step V h (D 0 a) - D 0 (a + h) =
      -(D 0 (a + h) - (D 0 a + h • D 1 a + (h ^ 2 / 2) • D 2 a + (h ^ 3 / 6) • D 3 a + (h ^ 4 / 24) • D 4 a)) +
      (2 * h / 3) • (D 1 (a + h / 2) - (D 1 a + (h / 2) • D 2 a + (h ^ 2 / 8) • D 3 a + (h ^ 3 / 48) • D 4 a)) +
      (h / 6) • (D 1 (a + h) - (D 1 a + h • D 2 a + (h ^ 2 / 2) • D 3 a + (h ^ 3 / 6) • D 4 a)) +
      (h / 6) • ((2 : ℝ) • (k2 - D 1 (a + h / 2)) + (2 : ℝ) • (k3 - D 1 (a + h / 2)) + (k4 - D 1 (a + h))) := by
    rw [step_eq, ← H.ode a ta]; module
  rw [e]
  refine (norm_add_le _ _).trans (le_trans (add_le_add_left (norm_add₃_le) _) ?_)
  rw [norm_neg, norm_pos_smul (by linarith), norm_pos_smul (by linarith), norm_pos_smul (by linarith)]
  have k1 := mul_le_mul_of_nonneg_left X.s4 (show 0 ≤ 2 * h / 3 by linarith)
  have k2 := mul_le_mul_of_nonneg_left X.v4 (show 0 ≤ h / 6 by linarith)
  have k3 := mul_le_mul_of_nonneg_left d8 (show 0 ≤ h / 6 by linarith)
  have k4 : 0 ≤ B * h ^ 5 := by positivity
  unfold localC
  linarith [X.y4]

end Slp.Ode
