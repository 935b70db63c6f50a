import Verif.Matrix.ArithProps
import Mathlib.LinearAlgebra.Matrix.Determinant.Basic
import Mathlib.Tactic.FieldSimp

/-! Lemmas for C15: `solve()` for matrices of size two to four. -/

namespace Slp.VMat

variable {α : Type} [Zero α] [Add α] [Sub α] [Mul α] [Div α] [Neg α] {ev : α → ℝ}

/-- `adj_A / det_A * B` solves the equation if `adj_A` has the values of an adjugate. -/
theorem adjSolve_correct (hev : Reals ev) {n p : ℕ} {adj : List (List α)} {det : α} {B : Mat α}
    {M Adj : Matrix (Fin n) (Fin n) ℝ} {N : Matrix (Fin n) (Fin p) ℝ}
    (hadj : ∃ Q, Mat.ofLists adj = some Q ∧ Q.view.Is ev Adj) (hB : B.Is ev N)
    (hprod : M * Adj = ev det • (1 : Matrix (Fin n) (Fin n) ℝ)) (hdet : ev det ≠ 0) :
    ∃ X, ∃ Y : Matrix (Fin n) (Fin p) ℝ, adjSolve adj det B = some X ∧ X.Is ev Y ∧ M * Y = N := by
  obtain ⟨Q, hQ, hQI⟩ := hadj
  obtain ⟨q, hq, hqI⟩ := sdiv_correct hev hQI det hdet
  obtain ⟨X, hX, hXI⟩ := mul_correct hev hqI.2 hB.2
  refine ⟨X, _, ?_, hXI, ?_⟩
  · unfold adjSolve
    rw [hQ]
    simp only [Option.bind_eq_bind, Option.bind_some]
    rw [hq]
    exact hX
  · rw [← Matrix.mul_assoc, Matrix.mul_smul, hprod, smul_smul, inv_mul_cancel₀ hdet, one_smul,
      Matrix.one_mul]

omit [Zero α] [Add α] [Sub α] [Mul α] [Div α] [Neg α] in
theorem get_of_is {m n : ℕ} {A : Mat α} {M : Matrix (Fin m) (Fin n) ℝ} (hA : A.Is ev M) (i : Fin m)
    (j : Fin n) : ∃ a, A.get (i : ℕ) (j : ℕ) = some a ∧ ev a = M i j := hA.2.2.2 i j

theorem solve2_correct (hev : Reals ev) {p : ℕ} {A B : Mat α} {M : Matrix (Fin 2) (Fin 2) ℝ}
    {N : Matrix (Fin 2) (Fin p) ℝ} (hA : A.Is ev M) (hB : B.Is ev N) (hdet : M.det ≠ 0) :
    ∃ X, ∃ Y : Matrix (Fin 2) (Fin p) ℝ, solve2 A B = some X ∧ X.Is ev Y ∧ M * Y = N := by
  obtain ⟨a, ha, ea⟩ := get_of_is hA 0 0
  obtain ⟨b, hb, eb⟩ := get_of_is hA 0 1
  obtain ⟨c, hc, ec⟩ := get_of_is hA 1 0
  obtain ⟨d, hd, ed⟩ := get_of_is hA 1 1
  have hA' : solve2 A B = adjSolve [[d, -b], [-c, a]] (a * d - b * c) B := by
    have ha : A.get 0 0 = some a := ha
    have hb : A.get 0 1 = some b := hb
    have hc : A.get 1 0 = some c := hc
    have hd : A.get 1 1 = some d := hd
    unfold solve2
    rw [ha, hb, hc, hd]; rfl
  rw [hA']
  have hdv : ev (a * d - b * c) = M.det := by
    rw [hev.sub, hev.mul, hev.mul, ea, eb, ec, ed, Matrix.det_fin_two]
  apply adjSolve_correct hev (Adj := !![ev d, -ev b; -ev c, ev a]) _ hB _ (by rw [hdv]; exact hdet)
  · refine ⟨⟨2, 2, [d, -b, -c, a]⟩, by simp [Mat.ofLists], rfl, rfl, fun i j => ?_⟩
    fin_cases i <;> fin_cases j
    · exact ⟨_, rfl, rfl⟩
    · exact ⟨_, rfl, hev.neg _⟩
    · exact ⟨_, rfl, hev.neg _⟩
    · exact ⟨_, rfl, rfl⟩
  · rw [hdv, Matrix.det_fin_two, ea, eb, ec, ed]
    ext i j
    fin_cases i <;> fin_cases j <;>
      simp only [Matrix.mul_apply, Fin.sum_univ_two, Matrix.smul_apply, smul_eq_mul] <;> simp <;> ring

theorem solve3_correct (hev : Reals ev) {p : ℕ} {A B : Mat α} {M : Matrix (Fin 3) (Fin 3) ℝ}
    {N : Matrix (Fin 3) (Fin p) ℝ} (hA : A.Is ev M) (hB : B.Is ev N) (hdet : M.det ≠ 0) :
    ∃ X, ∃ Y : Matrix (Fin 3) (Fin p) ℝ, solve3 A B = some X ∧ X.Is ev Y ∧ M * Y = N := by
  obtain ⟨a, ha, ea⟩ := get_of_is hA 0 0
  obtain ⟨b, hb, eb⟩ := get_of_is hA 0 1
  obtain ⟨c, hc, ec⟩ := get_of_is hA 0 2
  obtain ⟨d, hd, ed⟩ := get_of_is hA 1 0
  obtain ⟨e, he, ee⟩ := get_of_is hA 1 1
  obtain ⟨f, hf, ef⟩ := get_of_is hA 1 2
  obtain ⟨g, hg, eg⟩ := get_of_is hA 2 0
  obtain ⟨h, hh, eh⟩ := get_of_is hA 2 1
  obtain ⟨i, hi, ei⟩ := get_of_is hA 2 2
  let adj : List (List α) := [[e * i - f * h, c * h - b * i, b * f - c * e],
    [f * g - d * i, a * i - c * g, c * d - a * f], [d * h - e * g, b * g - a * h, a * e - b * d]]
  let det : α := a * (e * i - f * h) + b * (f * g - d * i) + c * (d * h - e * g)
  have hA' : solve3 A B = adjSolve adj det B := by
    have ha : A.get 0 0 = some a := ha
    have hb : A.get 0 1 = some b := hb
    have hc : A.get 0 2 = some c := hc
    have hd : A.get 1 0 = some d := hd
    have he : A.get 1 1 = some e := he
    have hf : A.get 1 2 = some f := hf
    have hg : A.get 2 0 = some g := hg
    have hh : A.get 2 1 = some h := hh
    have hi : A.get 2 2 = some i := hi
    unfold solve3
    rw [ha, hb, hc, hd, he, hf, hg, hh, hi]; rfl
  rw [hA']
  have hdv : ev det = M.det := by
    simp only [det, hev.add, hev.sub, hev.mul, ea, eb, ec, ed, ee, ef, eg, eh, ei, Matrix.det_fin_three]
    ring
  apply adjSolve_correct hev (Adj := Matrix.of fun i j => ev (((adj[(i : ℕ)]?).getD [])[(j : ℕ)]?.getD 0)) _ hB _
    (by rw [hdv]; exact hdet)
  · refine ⟨⟨3, 3, adj.flatten⟩, by simp [Mat.ofLists, adj], rfl, rfl, fun i j => ?_⟩
    fin_cases i <;> fin_cases j <;> exact ⟨_, rfl, rfl⟩
  · rw [hdv, Matrix.det_fin_three]
    ext i j
    fin_cases i <;> fin_cases j <;>
      simp [Matrix.mul_apply, Fin.sum_univ_three, adj, hev.sub, hev.mul, ea, eb, ec, ed, ee, ef, eg, eh,
        ei] <;> ring

theorem det_fin_four (M : Matrix (Fin 4) (Fin 4) ℝ) : M.det =
    M 0 0 * (M 1 1 * (M 2 2 * M 3 3 - M 2 3 * M 3 2) - M 1 2 * (M 2 1 * M 3 3 - M 2 3 * M 3 1) +
      M 1 3 * (M 2 1 * M 3 2 - M 2 2 * M 3 1)) -
    M 0 1 * (M 1 0 * (M 2 2 * M 3 3 - M 2 3 * M 3 2) - M 1 2 * (M 2 0 * M 3 3 - M 2 3 * M 3 0) +
      M 1 3 * (M 2 0 * M 3 2 - M 2 2 * M 3 0)) +
    M 0 2 * (M 1 0 * (M 2 1 * M 3 3 - M 2 3 * M 3 1) - M 1 1 * (M 2 0 * M 3 3 - M 2 3 * M 3 0) +
      M 1 3 * (M 2 0 * M 3 1 - M 2 1 * M 3 0)) -
    M 0 3 * (M 1 0 * (M 2 1 * M 3 2 - M 2 2 * M 3 1) - M 1 1 * (M 2 0 * M 3 2 - M 2 2 * M 3 0) +
      M 1 2 * (M 2 0 * M 3 1 - M 2 1 * M 3 0)) := by
  rw [Matrix.det_succ_row_zero]
  simp only [Fin.sum_univ_four, Matrix.det_fin_three, Matrix.submatrix_apply, Fin.succAbove]
  simp [Fin.lt_def]
  ring!

set_option maxHeartbeats 2000000 in
theorem solve4_correct (hev : Reals ev) {p' : ℕ} {A B : Mat α} {M : Matrix (Fin 4) (Fin 4) ℝ}
    {N : Matrix (Fin 4) (Fin p') ℝ} (hA : A.Is ev M) (hB : B.Is ev N) (hdet : M.det ≠ 0) :
    ∃ X, ∃ Y : Matrix (Fin 4) (Fin p') ℝ, solve4 A B = some X ∧ X.Is ev Y ∧ M * Y = N := by
  obtain ⟨a, ha, ea⟩ := get_of_is hA 0 0
  obtain ⟨b, hb, eb⟩ := get_of_is hA 0 1
  obtain ⟨c, hc, ec⟩ := get_of_is hA 0 2
  obtain ⟨d, hd, ed⟩ := get_of_is hA 0 3
  obtain ⟨e, he, ee⟩ := get_of_is hA 1 0
  obtain ⟨f, hf, ef⟩ := get_of_is hA 1 1
  obtain ⟨g, hg, eg⟩ := get_of_is hA 1 2
  obtain ⟨h, hh, eh⟩ := get_of_is hA 1 3
  obtain ⟨i, hi, ei⟩ := get_of_is hA 2 0
  obtain ⟨j, hj, ej⟩ := get_of_is hA 2 1
  obtain ⟨k, hk, ek⟩ := get_of_is hA 2 2
  obtain ⟨l, hl, el⟩ := get_of_is hA 2 3
  obtain ⟨m, hm, em⟩ := get_of_is hA 3 0
  obtain ⟨n, hn, en⟩ := get_of_is hA 3 1
  obtain ⟨o, ho, eo⟩ := get_of_is hA 3 2
  obtain ⟨p, hp, ep⟩ := get_of_is hA 3 3
  let adj : List (List α) := [[f * k * p - f * l * o - g * j * p + g * l * n + h * j * o - h * k * n,
      -(b * k * p) + b * l * o + c * j * p - c * l * n - d * j * o + d * k * n,
      b * g * p - b * h * o - c * f * p + c * h * n + d * f * o - d * g * n,
      -(b * g * l) + b * h * k + c * f * l - c * h * j - d * f * k + d * g * j],
    [-(e * k * p) + e * l * o + g * i * p - g * l * m - h * i * o + h * k * m,
      a * k * p - a * l * o - c * i * p + c * l * m + d * i * o - d * k * m,
      -(a * g * p) + a * h * o + c * e * p - c * h * m - d * e * o + d * g * m,
      a * g * l - a * h * k - c * e * l + c * h * i + d * e * k - d * g * i],
    [e * j * p - e * l * n - f * i * p + f * l * m + h * i * n - h * j * m,
      -(a * j * p) + a * l * n + b * i * p - b * l * m - d * i * n + d * j * m,
      a * f * p - a * h * n - b * e * p + b * h * m + d * e * n - d * f * m,
      -(a * f * l) + a * h * j + b * e * l - b * h * i - d * e * j + d * f * i],
    [-(e * j * o) + e * k * n + f * i * o - f * k * m - g * i * n + g * j * m,
      a * j * o - a * k * n - b * i * o + b * k * m + c * i * n - c * j * m,
      -(a * f * o) + a * g * n + b * e * o - b * g * m - c * e * n + c * f * m,
      a * f * k - a * g * j - b * e * k + b * g * i + c * e * j - c * f * i]]
  let det : α := a * (f * k * p - f * l * o - g * j * p + g * l * n + h * j * o - h * k * n) + b * (-(e * k * p) + e * l * o + g * i * p - g * l * m - h * i * o + h * k * m) +
    c * (e * j * p - e * l * n - f * i * p + f * l * m + h * i * n - h * j * m) + d * (-(e * j * o) + e * k * n + f * i * o - f * k * m - g * i * n + g * j * m)
  have hA' : solve4 A B = adjSolve adj det B := by
    have ha : A.get 0 0 = some a := ha
    have hb : A.get 0 1 = some b := hb
    have hc : A.get 0 2 = some c := hc
    have hd : A.get 0 3 = some d := hd
    have he : A.get 1 0 = some e := he
    have hf : A.get 1 1 = some f := hf
    have hg : A.get 1 2 = some g := hg
    have hh : A.get 1 3 = some h := hh
    have hi : A.get 2 0 = some i := hi
    have hj : A.get 2 1 = some j := hj
    have hk : A.get 2 2 = some k := hk
    have hl : A.get 2 3 = some l := hl
    have hm : A.get 3 0 = some m := hm
    have hn : A.get 3 1 = some n := hn
    have ho : A.get 3 2 = some o := ho
    have hp : A.get 3 3 = some p := hp
    unfold solve4
    rw [ha, hb, hc, hd, he, hf, hg, hh, hi, hj, hk, hl, hm, hn, ho, hp]
    rfl
  rw [hA']
  have hdv : ev det = M.det := by
    simp only [det, hev.add, hev.sub, hev.mul, hev.neg, ea, eb, ec, ed, ee, ef, eg, eh, ei, ej, ek, el, em, en, eo, ep, det_fin_four]
    ring
  apply adjSolve_correct hev (Adj := Matrix.of fun i j => ev (((adj[(i : ℕ)]?).getD [])[(j : ℕ)]?.getD 0)) _ hB _
    (by rw [hdv]; exact hdet)
  · refine ⟨⟨4, 4, adj.flatten⟩, by simp [Mat.ofLists, adj], rfl, rfl, fun i j => ?_⟩
    fin_cases i <;> fin_cases j <;> exact ⟨_, rfl, rfl⟩
  · rw [hdv, det_fin_four]
    ext i j
    fin_cases i <;> fin_cases j <;>
      simp [Matrix.mul_apply, Fin.sum_univ_four, adj, hev.sub, hev.mul, hev.add, hev.neg, ea, eb, ec, ed, ee, ef, eg, eh, ei, ej, ek, el, em, en, eo, ep] <;> ring

end Slp.VMat
