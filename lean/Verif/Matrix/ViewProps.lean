import Verif.Matrix.BlockProps
import Verif.Matrix.ArithSpec
import Mathlib.LinearAlgebra.Matrix.Notation
import Mathlib.Tactic.FinCases

/-! C13, C14: views as operands, and the linear index of a matrix. -/

namespace Slp.VMat

open Slicing

variable {α : Type}

/-- C13, C14: wherever a matrix function takes a view, it operates on the selected rows and columns. -/
theorem view_operand {N M : ℕ} {first : Access} {rest : List Access} {R C : List ℤ}
    (h : ChainOk N M first rest R C) {ev : α → ℝ} {A : Mat α} {X : Matrix (Fin N) (Fin M) ℝ} (hA : A.Is ev X) :
    ∃ b, views N M first rest = some b ∧ ∃ (r : Fin R.length → Fin N) (c : Fin C.length → Fin M),
      (∀ i, ((r i : ℕ) : ℤ) = R[i]) ∧ (∀ j, ((c j : ℕ) : ℤ) = C[j]) ∧
      (b.view A).Is ev (fun i j => X (r i) (c j)) := by
  obtain ⟨b, hb, hr, hc, -, -, hR, hC, hget⟩ := view_reads (α := α) h
  have hr' (i : Fin R.length) := hR R[i] (List.getElem_mem i.2)
  have hc' (j : Fin C.length) := hC C[j] (List.getElem_mem j.2)
  refine ⟨b, hb, fun i => ⟨(R[i]).toNat, by have := hr' i; omega⟩, fun j => ⟨(C[j]).toNat, by have := hc' j; omega⟩,
    fun i => by have := hr' i; simp only []; omega, fun j => by have := hc' j; simp only []; omega, ?_, ?_, ?_⟩
  · show b.rows.toNat = _
    rw [hr]; rfl
  · show b.cols.toNat = _
    rw [hc]; rfl
  · intro i j
    obtain ⟨a, ha, hv⟩ := hA.2.2.2 ⟨(R[i]).toNat, by have := hr' i; omega⟩ ⟨(C[j]).toNat, by have := hc' j; omega⟩
    refine ⟨a, ?_, hv⟩
    show b.get A _ _ = _
    rw [(hget A).1 i j R[i] C[j] (List.getElem?_eq_getElem i.2) (List.getElem?_eq_getElem j.2), ← ha]
    show A.get _ _ = A.get _ _
    congr 1
    · have := hr' i; simp only []; omega
    · have := hc' j; simp only []; omega

/-- C13: element `k` of a matrix is its element `(k / cols, k % cols)`, and positions outside are rejected. -/
theorem matrix_index (A : Mat α) :
    (∀ i j : ℕ, i < A.rows → j < A.cols → A.getIndex (i * A.cols + j : ℕ) = A.get i j) ∧
      ∀ k : ℤ, ¬ (0 ≤ k ∧ k < A.rows * A.cols) → A.getIndex k = none := by
  refine ⟨fun i j hi hj => ?_, fun k hk => if_neg hk⟩
  have hlt := index_lt hi hj
  unfold Mat.getIndex Mat.get
  rw [if_pos ⟨by omega, by exact_mod_cast hlt⟩, if_pos ⟨by omega, by omega, by omega, by omega⟩]
  congr 1

/-- C13: the view of a whole matrix is the matrix. -/
theorem whole_view (A : Mat α) (hr : (A.rows : ℤ) ≤ intMax) (hc : (A.cols : ℤ) ≤ intMax) :
    ∃ b, Block.whole A.rows A.cols = some b ∧ b.rows = A.rows ∧ b.cols = A.cols ∧
      ∀ i j : ℤ, b.get A i j = A.get i j := by
  have ok : ChainOk A.rows A.cols (.block 0 0 A.rows A.cols) [] (allOf A.rows) (allOf A.cols) := by
    refine ⟨?_, hr, hc, fun h => absurd rfl h, fun h => absurd rfl h⟩
    have e (n : ℕ) : ((allOf n).drop 0).take n = allOf n := by simp [allOf]
    have := Access.Selects.block (R := allOf A.rows) (C := allOf A.cols) (ro := 0) (co := 0) (br := A.rows)
      (bc := A.cols) (by simp [allOf]) (by simp [allOf])
    rw [e, e] at this
    exact .cons this .nil
  have len (n : ℕ) : (allOf n).length = n := by simp [allOf]
  obtain ⟨b, hb, h1, h2, -, -, -, -, hget⟩ := view_reads (α := α) ok
  rw [len] at h1 h2
  refine ⟨b, by simpa [views, Access.onMatrix, Block.whole] using hb, h1, h2, fun i j => ?_⟩
  by_cases hij : 0 ≤ i ∧ i < A.rows ∧ 0 ≤ j ∧ j < A.cols
  · obtain ⟨i0, i1, j0, j1⟩ := hij
    obtain ⟨i, rfl⟩ := Int.eq_ofNat_of_zero_le i0
    obtain ⟨j, rfl⟩ := Int.eq_ofNat_of_zero_le j0
    exact (hget A).1 i j i j (by simp [allOf, show i < A.rows by omega]) (by simp [allOf, show j < A.cols by omega])
  · rw [(hget A).2 i j (by simpa only [len] using hij)]
    exact (if_neg hij).symm

/-- The last row of a matrix of two rows. -/
example : ∃ b, views 2 2 (.row 1) [] = some b ∧ ∃ (r : Fin 1 → Fin 2) (c : Fin 2 → Fin 2),
    (∀ i, ((r i : ℕ) : ℤ) = [1][i]) ∧ (∀ j, ((c j : ℕ) : ℤ) = (allOf 2)[j]) ∧
    (b.view (⟨2, 2, [1, 2, 3, 4]⟩ : Mat ℝ)).Is id (fun i j => !![1, 2; 3, 4] (r i) (c j)) :=
  view_operand (R := [1]) (C := allOf 2) ⟨.cons (.row rfl) .nil, by decide, by decide, fun h => absurd rfl h,
    fun h => absurd rfl h⟩ ⟨rfl, rfl, rfl, by
      intro i j
      fin_cases i <;> fin_cases j <;> exact ⟨_, rfl, rfl⟩⟩

end Slp.VMat
