import Verif.Matrix.SliceProps

/-! C12: which single numbers can be made a slice. -/

namespace Slp.Slicing

/-- C12: a slice can be made from every `int` but the largest, for which the end of the slice overflows. -/
theorem slice_single_defined {i : ℤ} (hi : IsInt i) : Slice.mk1 i = none ↔ i = intMax := by
  obtain ⟨h1, h2⟩ := hi
  have hmin : intMin = -2147483648 := rfl
  have hmax : intMax = 2147483647 := rfl
  unfold Slice.mk1 ck
  by_cases h : i = -1
  · rw [if_pos h]
    constructor
    · intro e; cases e
    · intro e; omega
  · rw [if_neg h]
    by_cases h' : i = intMax
    · rw [if_neg (by omega)]
      exact ⟨fun _ => h', fun _ => rfl⟩
    · rw [if_pos (by omega)]
      exact ⟨fun e => (by cases e), fun e => absurd e h'⟩

/-- Both cases occur. -/
example : Slice.mk1 (-1) ≠ none ∧ Slice.mk1 intMax = none :=
  ⟨fun h => absurd ((slice_single_defined ⟨by decide, by decide⟩).mp h) (by decide),
    (slice_single_defined ⟨by decide, by decide⟩).mpr rfl⟩

end Slp.Slicing
