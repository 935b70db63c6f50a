import Verif.Solver.KktModel
import Mathlib.Algebra.Order.BigOperators.Group.Finset
import Mathlib.Tactic.Positivity

/-! Facts about the norms used in the KKT errors. -/

namespace Slp

open Matrix

variable {n m k : ℕ}

theorem foldr_max_le {l : List ℝ} {t : ℝ} : l.foldr (fun x r => max |x| r) 0 ≤ t ↔ 0 ≤ t ∧ ∀ x ∈ l, |x| ≤ t := by
  induction l with
  | nil => simp
  | cons a l ih =>
    simp only [List.foldr_cons, max_le_iff, ih, List.mem_cons, forall_eq_or_imp]
    tauto

theorem infNorm_le {v : Fin n → ℝ} {t : ℝ} : infNorm v ≤ t ↔ 0 ≤ t ∧ ∀ i, |v i| ≤ t := by
  unfold infNorm
  rw [foldr_max_le]
  simp [List.mem_ofFn]

theorem infNorm_nonneg (v : Fin n → ℝ) : 0 ≤ infNorm v := (infNorm_le.mp le_rfl).1

theorem abs_le_infNorm (v : Fin n → ℝ) (i : Fin n) : |v i| ≤ infNorm v := (infNorm_le.mp le_rfl).2 i

theorem infNorm_attained (v : Fin n → ℝ) : infNorm v = 0 ∨ ∃ i, infNorm v = |v i| := by
  by_contra h
  simp only [not_or, not_exists] at h
  have h0 : 0 < infNorm v := lt_of_le_of_ne (infNorm_nonneg v) (Ne.symm h.1)
  have : ∀ l : List ℝ, l.foldr (fun x r => max |x| r) 0 = 0 ∨ ∃ x ∈ l, l.foldr (fun x r => max |x| r) 0 = |x| := by
    intro l
    induction l with
    | nil => simp
    | cons a l ih =>
      simp only [List.foldr_cons]
      rcases max_choice |a| (l.foldr (fun x r => max |x| r) 0) with h | h
      · exact Or.inr ⟨a, by simp, h⟩
      · rw [h]
        rcases ih with ih | ⟨x, hx, ih⟩
        · exact Or.inl ih
        · exact Or.inr ⟨x, by simp [hx], ih⟩
  rcases this (List.ofFn v) with h' | ⟨x, hx, h'⟩
  · exact h.1 h'
  · obtain ⟨i, rfl⟩ := (List.mem_ofFn' _ _).mp hx
    exact h.2 i h'

theorem infNorm_eq_zero {v : Fin n → ℝ} : infNorm v = 0 ↔ ∀ i, v i = 0 := by
  constructor
  · intro h i
    have := abs_le_infNorm v i
    rw [h] at this
    exact abs_eq_zero.mp (le_antisymm this (abs_nonneg _))
  · intro h
    refine le_antisymm (infNorm_le.mpr ⟨le_rfl, fun i => by simp [h i]⟩) (infNorm_nonneg v)

theorem oneNorm_nonneg (v : Fin n → ℝ) : 0 ≤ oneNorm v := Finset.sum_nonneg fun _ _ => abs_nonneg _

theorem oneNorm_eq_zero {v : Fin n → ℝ} : oneNorm v = 0 ↔ ∀ i, v i = 0 := by
  unfold oneNorm
  rw [Finset.sum_eq_zero_iff_of_nonneg fun _ _ => abs_nonneg _]
  simp

theorem damping_pos (a : ℝ) : 1 ≤ max 100 a / 100 := by
  rw [le_div_iff₀ (by norm_num)]
  simp

theorem max_div_eq_zero {a b : ℝ} (hb : 1 ≤ b) : a / b = 0 ↔ a = 0 := by
  rw [div_eq_zero_iff]
  constructor
  · rintro (h | h)
    · exact h
    · linarith
  · exact Or.inl

theorem max_eq_zero_iff {a b : ℝ} (ha : 0 ≤ a) (hb : 0 ≤ b) : max a b = 0 ↔ a = 0 ∧ b = 0 := by
  constructor
  · intro h
    exact ⟨le_antisymm (h ▸ le_max_left a b) ha, le_antisymm (h ▸ le_max_right a b) hb⟩
  · rintro ⟨rfl, rfl⟩; simp

theorem scaleFactor_spec {norm : ℝ} (h : 0 ≤ norm) :
    ∃ d : ℝ, scaleFactor norm = Fl.fin d ∧ 0 < d ∧ d ≤ 1 ∧ d * norm ≤ 100 ∧ (norm ≤ 100 → d = 1) ∧
      (100 ≤ norm → d * norm = 100) := by
  unfold scaleFactor
  rcases eq_or_lt_of_le h with h0 | h0
  · refine ⟨1, ?_, by norm_num, le_rfl, by linarith, fun _ => rfl, fun h => by linarith⟩
    have : Fl.fin 100 / Fl.fin norm = Fl.pinf := by
      show Fl.div _ _ = _
      simp [Fl.div, ← h0]
    rw [this]
    show (if Fl.pinf < Fl.fin 1 then _ else _) = _
    rw [if_neg (by intro h; exact h)]
    rfl
  · rw [Fl.fin_div h0.ne', Fl.one_def, Fl.min_fin]
    refine ⟨_, rfl, by positivity, min_le_left _ _, ?_, ?_, ?_⟩
    · calc min 1 (100 / norm) * norm ≤ 100 / norm * norm := by
            exact mul_le_mul_of_nonneg_right (min_le_right _ _) h
        _ = 100 := by field_simp
    · intro h1
      exact min_eq_left ((one_le_div h0).mpr h1)
    · intro h1
      rw [min_eq_right ((div_le_one h0).mpr h1)]
      field_simp

end Slp
