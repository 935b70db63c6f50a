import Verif.Problem.SeenProps
import Verif.Solver.ClockLemmas

/-! C23: how the time is measured that is compared with the timeout. -/

namespace Slp

open Classical

/-- C23: the times that are compared with the timeout. After each iteration of the solver, except the last one shown,
the clock is read once more and compared with the reading at the beginning of the solve; only iterations of feasibility
restorations are compared with later readings. -/
theorem timeout_measured {p : Problem} {ad : Autodiff} {env : Env} {opts : SolverOptions} {spy : Bool} {s s' : Store}
    {o : p.Outcome} (h : p.solve ad env opts spy s = some (o, s')) :
    (∃ readings, ClockReadings env.clock o.world.ends readings) ∧
    o.world.ownEnds ≤ o.world.ownShown ∧ o.world.ownShown ≤ o.world.ownEnds + 1 := by
  have key : ∃ d ≤ 1, o.world.Clocked env.clock d := by
    rcases solve_cases h with ⟨h1, rfl, h2⟩ | ⟨h1, h2, h3, r, hr, rfl, -⟩ | ⟨h1, h2, h3, r, hr, rfl, -⟩ |
      ⟨h1, h2, b, -, -, rfl, -⟩ | ⟨h1, h2, b, r, -, -, hr, rfl, -⟩
    · exact ⟨0, by simp, .start _⟩
    · exact newton_clocked hr
    · exact sqp_clocked hr
    · exact ⟨0, by simp, .start _⟩
    · exact interiorPoint_clocked hr
  obtain ⟨d, h1, ⟨l, h2, -⟩, h3⟩ := key
  exact ⟨⟨l, h2⟩, by omega, by omega⟩

/-- C23: with a clock that does not run backwards, the times of the solver's own iterations increase, so that once one
exceeds the timeout all later ones would. -/
theorem timeout_monotone {clock : ℕ → ℝ} (hc : Monotone clock) {ends : List (Bool × ℝ)} {readings : List (ℕ × ℕ)}
    (h : ClockReadings clock ends readings) :
    (∀ e ∈ ends, 0 ≤ e.2) ∧ (ends.filter (!·.1)).Pairwise fun e e' => e.2 ≤ e'.2 := by
  obtain ⟨h1, h2, h3⟩ := h
  constructor
  · intro e he
    obtain ⟨i, hi, rfl⟩ := List.getElem_of_mem he
    have hl := h1.length_eq
    have := (List.forall₂_iff_get.1 h1).2 i hi (hl ▸ hi)
    simp only [List.get_eq_getElem] at this
    rw [this.1]
    exact sub_nonneg.2 (hc (h2 _ (List.getElem_mem _)).le)
  · have hp : ends.Pairwise fun e e' => e.1 = false → e'.1 = false → e.2 ≤ e'.2 := by
      clear h2
      induction h1 with
      | nil => exact .nil
      | @cons e r es rs h4 h5 ih =>
        rw [List.pairwise_cons] at h3 ⊢
        refine ⟨fun e' he' f1 f2 => ?_, ih h3.2⟩
        obtain ⟨i, hi, rfl⟩ := List.getElem_of_mem he'
        have hl := h5.length_eq
        have := (List.forall₂_iff_get.1 h5).2 i hi (hl ▸ hi)
        simp only [List.get_eq_getElem] at this
        rw [this.1, h4.1, h4.2 f1, this.2 f2]
        exact sub_le_sub_right (hc (h3.1 _ (List.getElem_mem _)).le) _
    rw [List.pairwise_filter]
    exact hp.imp fun hx f1 f2 => hx (by simpa using f1) (by simpa using f2)

/-- Two iterations of the solver, and between them one of a restoration that began at the second reading. -/
example : ClockReadings (fun i => i) [(false, 1), (true, 1), (false, 4)] [(0, 1), (2, 3), (0, 4)] where
  times := by
    refine .cons ⟨by norm_num, by simp⟩ (.cons ⟨by norm_num, by simp⟩ (.cons ⟨by norm_num, by simp⟩ .nil))
  after := by simp
  fresh := by simp

end Slp
