import Verif.Solver.BoundaryModel
import Mathlib.Tactic.Linarith
import Mathlib.Tactic.FieldSimp
import Mathlib.Tactic.Ring
import Mathlib.Tactic.NormNum

/-! C28: the fraction-to-the-boundary rule. -/

namespace Slp

/-- `x + αp ≥ (1 − τ)x`, for all elements. -/
def StaysInside (xp : List (ℝ × ℝ)) (τ α : ℝ) : Prop := ∀ e ∈ xp, e.1 + α * e.2 ≥ (1 - τ) * e.1

theorem boundaryStep_spec {τ α : ℝ} (hτ : 0 < τ) {e : ℝ × ℝ} (hx : 0 < e.1) (hα : 0 < α) :
    0 < boundaryStep τ α e ∧ boundaryStep τ α e ≤ α ∧
      e.1 + boundaryStep τ α e * e.2 ≥ (1 - τ) * e.1 ∧
      (boundaryStep τ α e < α → ∀ β, boundaryStep τ α e < β → e.1 + β * e.2 < (1 - τ) * e.1) := by
  unfold boundaryStep
  have hτx : 0 < τ * e.1 := mul_pos hτ hx
  by_cases h : α * e.2 < -τ * e.1
  · rw [if_pos h]
    have hp : e.2 < 0 := by
      by_contra hcon
      have := mul_nonneg hα.le (not_lt.1 hcon)
      nlinarith
    have hval : -τ / e.2 * e.1 = τ * e.1 / (-e.2) := by
      have h1 : e.2 ≠ 0 := hp.ne
      field_simp
    have hmul : (-τ / e.2 * e.1) * e.2 = -(τ * e.1) := by
      have h1 : e.2 ≠ 0 := hp.ne
      field_simp
    refine ⟨?_, ?_, ?_, ?_⟩
    · rw [hval]; exact div_pos hτx (by linarith)
    · rw [hval, div_le_iff₀ (by linarith)]
      nlinarith
    · rw [hmul]; nlinarith
    · intro _ β hβ
      have := mul_lt_mul_of_neg_right hβ hp
      rw [hmul] at this
      nlinarith
  · rw [if_neg h]
    refine ⟨hα, le_rfl, ?_, fun h => absurd h (lt_irrefl _)⟩
    nlinarith [not_lt.1 h]

theorem foldl_boundary {τ : ℝ} (hτ : 0 < τ) (xp : List (ℝ × ℝ)) (hx : ∀ e ∈ xp, 0 < e.1)
    {α : ℝ} (hα : 0 < α) :
    0 < xp.foldl (boundaryStep τ) α ∧ xp.foldl (boundaryStep τ) α ≤ α ∧
      StaysInside xp τ (xp.foldl (boundaryStep τ) α) ∧
      (xp.foldl (boundaryStep τ) α < α → ∀ β, xp.foldl (boundaryStep τ) α < β →
        ¬ StaysInside xp τ β) := by
  induction xp generalizing α with
  | nil => exact ⟨hα, le_rfl, by simp [StaysInside], fun h => absurd h (lt_irrefl _)⟩
  | cons e xp ih =>
      obtain ⟨s1, s2, s3, s4⟩ := boundaryStep_spec hτ (hx e (by simp)) hα
      obtain ⟨i1, i2, i3, i4⟩ := ih (fun e he => hx e (by simp [he])) s1
      simp only [List.foldl_cons]
      refine ⟨i1, i2.trans s2, ?_, ?_⟩
      · intro f hf
        rcases List.mem_cons.1 hf with rfl | hf
        · have hfx := hx f (by simp)
          rcases le_or_gt 0 f.2 with hp | hp
          · have := mul_nonneg i1.le hp
            nlinarith [mul_pos hτ hfx]
          · have := mul_le_mul_of_nonpos_right i2 hp.le
            linarith
        · exact i3 f hf
      · intro hlt β hβ hin
        by_cases hc : xp.foldl (boundaryStep τ) (boundaryStep τ α e) < boundaryStep τ α e
        · exact i4 hc β hβ (fun f hf => hin f (by simp [hf]))
        · have heq : xp.foldl (boundaryStep τ) (boundaryStep τ α e) = boundaryStep τ α e :=
            le_antisymm i2 (not_lt.1 hc)
          rw [heq] at hlt hβ
          have := s4 hlt β hβ
          have := hin e (by simp)
          linarith

/-- C28: for positive `x` and `τ`, the result is the largest `α` in (0, 1] with
`x + αp ≥ (1 − τ)x`. -/
theorem boundary_correct {τ : ℝ} (hτ : 0 < τ) (xp : List (ℝ × ℝ)) (hx : ∀ e ∈ xp, 0 < e.1) :
    IsGreatest { α : ℝ | 0 < α ∧ α ≤ 1 ∧ StaysInside xp τ α } (fractionToTheBoundary xp τ) := by
  obtain ⟨h1, h2, h3, h4⟩ := foldl_boundary hτ xp hx one_pos
  refine ⟨⟨h1, h2, h3⟩, ?_⟩
  rintro β ⟨-, hβ1, hβ⟩
  by_contra hcon
  rw [not_le] at hcon
  unfold fractionToTheBoundary at hcon
  exact h4 (lt_of_lt_of_le hcon hβ1) β hcon hβ

/-- C28: a step of at most this length keeps positive quantities positive when `τ < 1`. -/
theorem boundary_positive {τ : ℝ} (hτ : 0 < τ) (hτ1 : τ < 1) (xp : List (ℝ × ℝ)) (hx : ∀ e ∈ xp, 0 < e.1)
    {β : ℝ} (hβ : 0 ≤ β) (hβ' : β ≤ fractionToTheBoundary xp τ) : ∀ e ∈ xp, 0 < e.1 + β * e.2 := by
  intro e he
  obtain ⟨⟨h1, h2, h3⟩, -⟩ := boundary_correct hτ xp hx
  have hxe := hx e he
  rcases le_or_gt 0 e.2 with hp | hp
  · have := mul_nonneg hβ hp; linarith
  · have h5 := mul_le_mul_of_nonpos_right hβ' hp.le
    have h6 := h3 e he
    have : 0 < (1 - τ) * e.1 := mul_pos (by linarith) hxe
    linarith

/-- Two elements, one of which limits the step. -/
example : (∀ e ∈ [((1 : ℝ), (-2 : ℝ)), (3, 1)], 0 < e.1) ∧
    fractionToTheBoundary [(1, -2), (3, 1)] 0.5 = 0.25 := by
  constructor
  · simp
  · unfold fractionToTheBoundary boundaryStep
    norm_num

end Slp
