import Verif.Solver.LoopLemmas
import Verif.Solver.IpmModel
import Verif.Solver.FilterProps

/-! Lemmas for the line searches: how rejected trial points change the filter. -/

namespace Slp

open Classical

/-- Two filters that differ at most in the flag. -/
structure Filter.Similar (F F' : Filter) : Prop where
  entries : F'.entries = F.entries
  min : F'.minViolation = F.minViolation
  max : F'.maxViolation = F.maxViolation

namespace Filter

theorem Similar.refl (F : Filter) : F.Similar F := ⟨rfl, rfl, rfl⟩

theorem Similar.trans {F G H : Filter} (h : F.Similar G) (h' : G.Similar H) : F.Similar H :=
  ⟨h'.entries.trans h.entries, h'.min.trans h.min, h'.max.trans h.max⟩

theorem Similar.shrink {F G : Filter} (h : F.Similar G) : F.shrink = G.shrink := by
  unfold Filter.shrink Filter.reset
  rw [h.max, h.min]

/-- The flag does not influence the decision. -/
theorem Similar.tryAdd {F G : Filter} (h : F.Similar G) (c t : FilterEntry) (D α : Fl) :
    (G.tryAdd c t D α).2 = (F.tryAdd c t D α).2 := by
  have hin : G.inFilter t ↔ F.inFilter t := by unfold inFilter; rw [h.entries]
  unfold Filter.tryAdd Filter.finish
  rw [h.max, h.min]
  simp only [hin]
  split_ifs <;> rfl

theorem tryAdd_similar {F : Filter} {c t : FilterEntry} {D α : Fl} (h : ¬ (F.tryAdd c t D α).2 = true) :
    F.Similar (F.tryAdd c t D α).1 := by
  rcases hF : F.tryAdd c t D α with ⟨F', b⟩
  rw [hF] at h
  cases b with
  | true => exact absurd rfl h
  | false => obtain ⟨h1, h2, h3⟩ := tryAdd_false hF; exact ⟨h1, h2, h3⟩

/-- A filter without entries that has not rejected a point. -/
def Quiet (F : Filter) : Prop := F.entries = [] ∧ F.lastRejectionDueToFilter = false

theorem shrink_quiet (F : Filter) : F.shrink.Quiet := ⟨rfl, rfl⟩

theorem tryAdd_quiet {F : Filter} (hq : F.Quiet) {c t : FilterEntry} {D α : Fl} (h : ¬ (F.tryAdd c t D α).2 = true) :
    (F.tryAdd c t D α).1.Quiet := by
  have hin : ¬ F.inFilter t := by rintro ⟨x, hx, -⟩; rw [hq.1] at hx; simp at hx
  revert h
  unfold Filter.tryAdd Filter.finish
  simp only [hin, if_false]
  split_ifs <;> intro h <;> first
    | exact hq
    | exact ⟨hq.1, rfl⟩
    | exact absurd rfl h

/-- The filter during a line search that started with `F`: as at the start apart from the flag, or, provided `C`, as
after a reset with the smaller limit. -/
def Reached (C : Prop) (F G : Filter) : Prop := F.Similar G ∨ C ∧ F.shrink.Similar G ∧ G.Quiet

variable {C : Prop}

theorem Reached.refl (F : Filter) : F.Reached C F := .inl (.refl F)

theorem Reached.step {F G : Filter} (h : F.Reached C G) {c t : FilterEntry} {D α : Fl}
    (hr : ¬ (G.tryAdd c t D α).2 = true) : F.Reached C (G.tryAdd c t D α).1 := by
  rcases h with h | ⟨hC, h, hq⟩
  · exact .inl (h.trans (tryAdd_similar hr))
  · exact .inr ⟨hC, h.trans (tryAdd_similar hr), tryAdd_quiet hq hr⟩

theorem Reached.shrink {F G : Filter} (h : F.Reached C G) (hf : G.lastRejectionDueToFilter = true)
    (hC : F.Similar G → C) : F.Reached C G.shrink := by
  rcases h with h | ⟨-, -, hq⟩
  · rw [← h.shrink]; exact .inr ⟨hC h, .refl _, shrink_quiet F⟩
  · rw [hq.2] at hf; exact absurd hf (by simp)

/-- A decision of a filter of a line search is one of the filter at the start or one of the reset filter. -/
theorem Reached.tryAdd {F G : Filter} (h : F.Reached C G) {c t : FilterEntry} {D α : Fl}
    (ha : (G.tryAdd c t D α).2 = true) :
    (F.tryAdd c t D α).2 = true ∨ C ∧ (F.shrink.tryAdd c t D α).2 = true := by
  rcases h with h | ⟨hC, h, -⟩
  · exact .inl (by rw [← h.tryAdd]; exact ha)
  · exact .inr ⟨hC, by rw [← h.tryAdd]; exact ha⟩

theorem Reached.rejects {F G : Filter} (h : F.Reached C G) {c t : FilterEntry} {D α : Fl}
    (ha : ¬ (G.tryAdd c t D α).2 = true) :
    (F.tryAdd c t D α).2 = false ∨ C ∧ (F.shrink.tryAdd c t D α).2 = false := by
  rw [Bool.not_eq_true] at ha
  rcases h with h | ⟨hC, h, -⟩
  · exact .inl (by rw [← h.tryAdd]; exact ha)
  · exact .inr ⟨hC, by rw [← h.tryAdd]; exact ha⟩

/-- One if a reset is still possible. -/
noncomputable def resets (F : Filter) : ℕ := if F.Quiet then 0 else 1

theorem resets_shrink (F : Filter) : F.shrink.resets = 0 := if_pos (shrink_quiet F)

theorem resets_flag {F : Filter} (h : F.lastRejectionDueToFilter = true) : F.resets = 1 :=
  if_neg fun hq => by rw [hq.2] at h; simp at h

theorem resets_step {F : Filter} {c t : FilterEntry} {D α : Fl} (h : ¬ (F.tryAdd c t D α).2 = true) :
    (F.tryAdd c t D α).1.resets ≤ F.resets := by
  unfold resets
  by_cases hq : F.Quiet
  · rw [if_pos hq, if_pos (tryAdd_quiet hq h)]
  · rw [if_neg hq]; split <;> omega

end Filter

theorem half_lt {a : ℝ} : (Fl.fin a * .fin 0.5 < alphaMin) ↔ a < 2 * 1e-7 := by
  unfold alphaMin; rw [Fl.fin_mul, Fl.fin_lt]
  constructor <;> intro h <;> linarith

end Slp
