import Verif.Matrix.SolveLemmas

/-! C15: `solve()` for matrices of size one to four. -/

namespace Slp.VMat

variable {α : Type} [Zero α] [Add α] [Sub α] [Mul α] [Div α] [Neg α] {ev : α → ℝ}

omit [Zero α] [Add α] [Sub α] [Mul α] [Neg α] in
/-- `solve(A, B)` for a 1x1 matrix `A` always returns a 1x1 matrix. -/
theorem solve1_eq {p : ℕ} {A B : Mat α} {M : Matrix (Fin 1) (Fin 1) ℝ} {N : Matrix (Fin 1) (Fin (p + 1)) ℝ}
    (hA : A.Is ev M) (hB : B.Is ev N) : ∃ a b, ev a = M 0 0 ∧ ev b = N 0 0 ∧
      solve1 A B = some ⟨1, 1, [b / a]⟩ := by
  obtain ⟨a, ha, ea⟩ := get_of_is hA 0 0
  obtain ⟨b, hb, eb⟩ := get_of_is hB 0 0
  refine ⟨a, b, ea, eb, ?_⟩
  have ha : A.get 0 0 = some a := ha
  have hb : B.get 0 0 = some b := hb
  unfold solve1
  rw [ha, hb]; rfl

/-- C15. The values of `solve(A, B)` satisfy `A X = B`. Missing from the property: a 1x1 matrix `A` with
a `B` of any other width than one, for which it is false, see `solve_drops_columns`. -/
theorem solve_correct_partial (hev : Reals ev) (qr : Mat α → Mat α → Option (Mat α)) {n p : ℕ}
    (hn : 1 ≤ n ∧ n ≤ 4) (hp : n = 1 → p = 1) {A B : Mat α} {M : Matrix (Fin n) (Fin n) ℝ}
    {N : Matrix (Fin n) (Fin p) ℝ} (hA : A.Is ev M) (hB : B.Is ev N) (hdet : M.det ≠ 0) :
    ∃ X, ∃ Y : Matrix (Fin n) (Fin p) ℝ, solve qr A B = some X ∧ X.Is ev Y ∧ M * Y = N := by
  have a1 : A.rows = n := hA.2.1
  have a2 : A.cols = n := hA.2.2.1
  have b1 : B.rows = n := hB.2.1
  have hcases : n = 1 ∨ n = 2 ∨ n = 3 ∨ n = 4 := by omega
  unfold solve
  rw [if_pos (by omega), a1, a2]
  rcases hcases with rfl | rfl | rfl | rfl
  · have hp1 := hp rfl
    subst hp1
    obtain ⟨a, b, ea, eb, hs⟩ := solve1_eq (p := 0) hA hB
    have ha : ev a ≠ 0 := by rw [ea]; rwa [Matrix.det_fin_one] at hdet
    refine ⟨_, Matrix.of fun _ _ => ev b / ev a, by simpa using hs, ⟨rfl, rfl, rfl, fun i j => ?_⟩, ?_⟩
    · fin_cases i; fin_cases j
      exact ⟨_, rfl, hev.div _ _ ha⟩
    · ext i j
      fin_cases i; fin_cases j
      simp only [Matrix.mul_apply, Fin.sum_univ_one, Matrix.of_apply]
      simp only [Fin.isValue, Fin.zero_eta]
      rw [← ea, ← eb]; field_simp
  · simpa using solve2_correct hev hA hB hdet
  · simpa using solve3_correct hev hA hB hdet
  · simpa using solve4_correct hev hA hB hdet

/-- The property fails for a 1x1 matrix `A` and a `B` with two or more columns: the result has one
column only, so it is not a solution of `A X = B`. -/
theorem solve_drops_columns (qr : Mat α → Mat α → Option (Mat α)) {p : ℕ} {A B : Mat α}
    {M : Matrix (Fin 1) (Fin 1) ℝ} {N : Matrix (Fin 1) (Fin (p + 2)) ℝ} (hA : A.Is ev M) (hB : B.Is ev N) :
    ∃ X, solve qr A B = some X ∧ ¬ ∃ Y : Matrix (Fin 1) (Fin (p + 2)) ℝ, X.Is ev Y := by
  obtain ⟨a, b, ea, eb, hs⟩ := solve1_eq (p := p + 1) hA hB
  have a1 : A.rows = 1 := hA.2.1
  have a2 : A.cols = 1 := hA.2.2.1
  have b1 : B.rows = 1 := hB.2.1
  refine ⟨_, by unfold solve; rw [if_pos (by omega), if_pos ⟨a1, a2⟩]; exact hs, ?_⟩
  rintro ⟨Y, -, -, h, -⟩
  exact absurd h (by simp [Mat.view])

/-- A matrix with determinant 5 and a right-hand side meet the hypotheses. -/
example : ∃ X, ∃ Y : Matrix (Fin 2) (Fin 1) ℝ,
    solve (fun _ _ => none) (⟨2, 2, [.var 0, .lit 1, .lit 1, .var 1]⟩ : Mat Term) ⟨2, 1, [.var 0, .lit 7]⟩ = some X ∧
      X.Is (fun t => t.eval fun k => (k : ℝ) + 2) Y ∧ (!![2, 1; 1, 3] : Matrix (Fin 2) (Fin 2) ℝ) * Y = !![2; 7] := by
  refine solve_correct_partial (term_reals fun k => (k : ℝ) + 2) _ (by omega) (by omega)
    ⟨rfl, rfl, rfl, fun i j => ?_⟩ ⟨rfl, rfl, rfl, fun i j => ?_⟩ ?_
  · fin_cases i <;> fin_cases j
    · exact ⟨_, rfl, by simp [Term.eval]⟩
    · exact ⟨_, rfl, by simp [Term.eval]⟩
    · exact ⟨_, rfl, by simp [Term.eval]⟩
    · exact ⟨_, rfl, by simp [Term.eval]; norm_num⟩
  · fin_cases i <;> fin_cases j
    · exact ⟨_, rfl, by simp [Term.eval]⟩
    · exact ⟨_, rfl, by simp [Term.eval]⟩
  · rw [Matrix.det_fin_two]; norm_num

end Slp.VMat
