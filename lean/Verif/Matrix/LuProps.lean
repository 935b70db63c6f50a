import Verif.Matrix.LuLemmas
import Verif.Matrix.ExpProps
import Mathlib.LinearAlgebra.Matrix.Gershgorin

/-!
C55: the matrix exponential with the linear solver that it uses.

`now` gives the values of expressions while `exp()` runs, `ev` those at which the result is evaluated.
-/

namespace Slp.VMat

open Matrix Slp.Pade
open scoped Matrix.Norms.Operator

variable {α : Type} [Zero α] [Add α] [Sub α] [Mul α] [Div α] [Neg α] {ev now : α → ℝ} {abs : α → α} {n : ℕ}

namespace Lu

theorem solution_unique {M N Y : Matrix (Fin n) (Fin n) ℝ} (hd : M.det ≠ 0) (h : M * Y = N) : Y = M⁻¹ * N := by
  rw [← h, ← Matrix.mul_assoc, Matrix.nonsing_inv_mul _ (isUnit_iff_ne_zero.2 hd), Matrix.one_mul]

theorem row_le_norm (A : Matrix (Fin n) (Fin n) ℝ) (i : Fin n) : ∑ j, |A i j| ≤ ‖A‖ := by
  rw [linfty_opNorm_def]
  have := NNReal.coe_le_coe.2 (Finset.le_sup (f := fun i => ∑ j, ‖A i j‖₊) (Finset.mem_univ i))
  push_cast at this
  exact this

/-- The leading blocks of a matrix near the identity are regular. -/
theorem leading_regular {N : Matrix (Fin n) (Fin n) ℝ} (h : ‖N - 1‖ < 1) {k : ℕ} (hk : k < n) :
    (N.submatrix (Fin.castLE hk) (Fin.castLE hk)).det ≠ 0 := by
  refine det_ne_zero_of_sum_row_lt_diag fun i => ?_
  set c := Fin.castLE (show k + 1 ≤ n from hk) with hc
  have e : ∑ j : Fin (k + 1), |(N - 1) (c i) (c j)| ≤ ∑ j, |(N - 1) (c i) j| := by
    rw [← Finset.sum_image (s := Finset.univ) (g := c) (f := fun j => |(N - 1) (c i) j|)
      (fun a _ b _ e => Fin.castLE_injective _ e)]
    exact Finset.sum_le_sum_of_subset_of_nonneg (Finset.subset_univ _) fun _ _ _ => abs_nonneg _
  have hlt := e.trans_lt ((row_le_norm _ _).trans_lt h)
  rw [← Finset.add_sum_erase _ _ (Finset.mem_univ i)] at hlt
  have e2 : ∑ j ∈ Finset.univ.erase i, |(N - 1) (c i) (c j)| = ∑ j ∈ Finset.univ.erase i, |N (c i) (c j)| := by
    refine Finset.sum_congr rfl fun j hj => ?_
    rw [Matrix.sub_apply, Matrix.one_apply_ne fun h => (Finset.ne_of_mem_erase hj) (Fin.castLE_injective _ h).symm, sub_zero]
  rw [e2, Matrix.sub_apply, Matrix.one_apply_eq] at hlt
  have h3 := abs_sub_abs_le_abs_sub 1 (N (c i) (c i))
  rw [abs_one, abs_sub_comm] at h3
  show ∑ j ∈ Finset.univ.erase i, |N (c i) (c j)| < |N (c i) (c i)|
  linarith

end Lu

/-- At the values at which it runs, `lu().solve()` solves all regular systems. -/
theorem luSolve_solves (N : Reals.Abs now abs) : LuSolves now (luSolve now abs) := by
  intro n A B M R hA hB hd
  obtain ⟨X, Y, h1, h2, h3⟩ := Lu.luSolve_core N.toReals N hA hB
    (Lu.stepOk_now N _ (by rwa [Qr.mat_toEigen hA])) hd
  exact ⟨X, h1, Lu.solution_unique hd h3 ▸ h2⟩

/-- `lu().solve()` called while the matrix is diagonal and regular solves the system at all values at which the leading
blocks are regular. -/
theorem luSolve_later (E : Reals ev) (N : Reals.Abs now abs) {p : ℕ} {A B : Mat α} {M M0 : Matrix (Fin n) (Fin n) ℝ}
    {R : Matrix (Fin n) (Fin p) ℝ} (hA : A.Is ev M) (hA0 : A.Is now M0) (hB : B.Is ev R)
    (h0 : ∀ i j, i ≠ j → M0 i j = 0) (h1 : ∀ i, M0 i i ≠ 0)
    (hm : ∀ (k : ℕ) (hk : k < n), (M.submatrix (Fin.castLE hk) (Fin.castLE hk)).det ≠ 0) :
    ∃ X, ∃ Y : Matrix (Fin n) (Fin p) ℝ, luSolve now abs A B = some X ∧ X.Is ev Y ∧ M * Y = R := by
  have hM : ∀ i j : Fin n, ev (A.toEigen i j) = M i j := fun i j => congrFun (congrFun (Qr.mat_toEigen hA) i) j
  have hM0 : ∀ i j : Fin n, now (A.toEigen i j) = M0 i j := fun i j => congrFun (congrFun (Qr.mat_toEigen hA0) i) j
  have hdet : M.det ≠ 0 := by
    match n, M, hm with
    | 0, M, _ => simp
    | n + 1, M, hm => exact hm n (Nat.lt_succ_self n)
  refine Lu.luSolve_core E N hA hB (Lu.stepOk_diag E N _ (fun i hi j hj hij => ?_) (fun i hi => ?_) fun k hk => ?_) hdet
  · rw [hM0 ⟨i, hi⟩ ⟨j, hj⟩]; exact h0 _ _ fun h => hij (congrArg Fin.val h)
  · rw [hM0 ⟨i, hi⟩ ⟨i, hi⟩]; exact h1 _
  · have : Qr.mat ev (k + 1) (k + 1) A.toEigen = M.submatrix (Fin.castLE hk) (Fin.castLE hk) := by
      ext i j
      exact hM (Fin.castLE hk i) (Fin.castLE hk j)
    rw [this]; exact hm k hk

/-- C55 at the values at which `exp()` runs: if the rows of the matrix have absolute sums of at most 4, the elements of
the result are within `2·10⁻¹⁷ + 4000u` of those of the exponential. Missing: larger matrices, see `exp_now_wrong`. -/
theorem exp_now_partial (E : Reals.Abs now abs) {A : Mat α} {M : Matrix (Fin n) (Fin n) ℝ} (hA : A.Is now M)
    {u : ℝ} (hu0 : 0 ≤ u) (hu : u ≤ 1e-3) {p q : List α} (hp : Rounded now u p padeP) (hq : Rounded now u q padeQ)
    (hM : ∀ i, ∑ j, |M i j| ≤ 4) :
    ∃ X N, A.expNow now abs p q = some X ∧ X.Is now N ∧ ∀ i j, |N i j - NormedSpace.exp M i j| ≤ 2e-17 + 4000 * u :=
  matrix_exp_partial E.toReals ((luSolve_solves E).for p q A) hA hu0 hu hp hq hM

/-- The same for `exp()` of a block. -/
theorem block_exp_now_partial (E : Reals.Abs now abs) {A : Mat α} {b : Block} {M : Matrix (Fin n) (Fin n) ℝ}
    (hb : (b.view A).Is now M) {u : ℝ} (hu0 : 0 ≤ u) (hu : u ≤ 1e-3) {p q : List α} (hp : Rounded now u p padeP)
    (hq : Rounded now u q padeQ) (hM : ∀ i, ∑ j, |M i j| ≤ 4) :
    ∃ X N, b.expNow now abs p q A = some X ∧ X.Is now N ∧ ∀ i j, |N i j - NormedSpace.exp M i j| ≤ 2e-17 + 4000 * u :=
  block_exp_partial E.toReals (luSolve_solves E) hb hu0 hu hp hq hM

/-- C55 at values that are set later: `exp()` of a matrix that is zero while it runs, as a matrix of new decision
variables is, is within `10⁻³³ + 12u` of the exponential at all values for which the absolute sums of the rows are at most
1. Missing: larger matrices, at which a pivot may vanish although it was the largest one when `exp()` ran. -/
theorem exp_later_partial (E : Reals ev) (E0 : Reals.Abs now abs) {A : Mat α} {M : Matrix (Fin n) (Fin n) ℝ}
    (hA : A.Is ev M) (hA0 : A.Is now (0 : Matrix (Fin n) (Fin n) ℝ)) {u : ℝ} (hu0 : 0 ≤ u) (hu : u ≤ 1e-3) {p q : List α}
    (hp : Rounded ev u p padeP) (hq : Rounded ev u q padeQ) (hq0 : Rounded now u q padeQ) (hM : ∀ i, ∑ j, |M i j| ≤ 1) :
    ∃ X N, A.expNow now abs p q = some X ∧ X.Is ev N ∧ ∀ i j, |N i j - NormedSpace.exp M i j| ≤ 1e-33 + 12 * u := by
  refine matrix_exp_small_partial E ?_ hA hu0 hu hp hq hM
  intro Qt Pt MQ MP e1 v1 v2 hd
  have hpne : p ≠ [] := fun h => by have := hp.length_eq; rw [h] at this; simp [padeP] at this
  have hlen := hp.length_eq.trans (show padeP.length = padeQ.length from rfl) |>.trans hq.length_eq.symm
  obtain ⟨Q1, P1, f1, w1, -⟩ := expParts_is E hA hpne hlen
  obtain ⟨Q2, P2, f2, w2, -⟩ := expParts_is E0.toReals hA0 hpne hlen
  rw [f1] at e1
  rw [f1] at f2
  obtain ⟨rfl, rfl⟩ := Prod.mk.injEq _ _ _ _ ▸ Option.some_injective _ e1
  obtain ⟨rfl, rfl⟩ := Prod.mk.injEq _ _ _ _ ▸ Option.some_injective _ f2
  obtain rfl : MQ = (evalR M (q.map ev))ᵀ := by
    ext i j
    rw [← Qr.mat_toEigen v1, ← Qr.mat_toEigen w1]
  have hn : ‖M‖ ≤ ((1 : ℚ) : ℝ) := norm_le_of_rows (by norm_num) (by simpa using hM)
  have near : ‖evalR M (q.map ev) - 1‖ < 1 := by
    have g1 := norm_evalR_sub norm_one_le hn hq
    have g2 := norm_evalL norm_one_le hn padeQ.tail
    have g3 : evalL M padeQ = 1 + M * evalL M padeQ.tail := by
      have : padeQ = 1.0 :: padeQ.tail := rfl
      rw [this, evalL]
      norm_num
    have n1 : ((normL 1 padeQ : ℚ) : ℝ) ≤ ((165 / 100 : ℚ) : ℝ) := by
      exact_mod_cast (by decide +kernel : normL 1 padeQ ≤ 165 / 100)
    have n2 : ((normL 1 padeQ.tail : ℚ) : ℝ) ≤ ((65 / 100 : ℚ) : ℝ) := by
      exact_mod_cast (by decide +kernel : normL 1 padeQ.tail ≤ 65 / 100)
    push_cast at n1 n2 hn
    have g4 : ‖M * evalL M padeQ.tail‖ ≤ 1 * (65 / 100) :=
      (norm_mul_le _ _).trans (mul_le_mul hn (g2.trans n2) (norm_nonneg _) (by norm_num))
    have g5 : u * ((normL 1 padeQ : ℚ) : ℝ) ≤ 1e-3 * (165 / 100) :=
      mul_le_mul hu n1 (by exact_mod_cast normL_nonneg (by norm_num) _) (by norm_num)
    have g6 : evalR M (q.map ev) - 1 = (evalR M (q.map ev) - evalL M padeQ) + M * evalL M padeQ.tail := by
      rw [g3]; abel
    rw [g6]
    refine (norm_add_le _ _).trans_lt ?_
    norm_num at g1 g4 g5 ⊢
    linarith
  have hM0 : (evalR (0 : Matrix (Fin n) (Fin n) ℝ) (q.map now))ᵀ = ((q.map now).head?.getD 0) • (1 : Matrix (Fin n) (Fin n) ℝ) := by
    cases q <;> simp [evalR]
  rw [hM0] at w2
  have hhead : (q.map now).head?.getD 0 ≠ 0 := by
    have e : padeQ = 1.0 :: padeQ.tail := rfl
    rw [e] at hq0
    cases hq0 with
    | @cons a _ l _ hax _ =>
      have hax : |now a - ((1.0 : ℚ) : ℝ)| ≤ u * |((1.0 : ℚ) : ℝ)| := hax
      intro h0
      have h0 : now a = 0 := h0
      rw [h0] at hax
      norm_num at hax hu
      linarith
  obtain ⟨X, Y, h1, h2, h3⟩ := luSolve_later E E0 v1 w2 v2 (fun i j hij => by simp [hij]) (fun i => by simpa using hhead)
    fun k hk => by
      have := Lu.leading_regular near hk
      rw [← Matrix.det_transpose] at this
      exact this
  exact ⟨X, h1, Lu.solution_unique hd h3 ▸ h2⟩

/-- C55 is false for larger matrices: `exp()` of a matrix that is `[20]` when it runs is negative, while the exponential
exceeds `4·10⁸`. -/
theorem exp_now_wrong (E : Reals.Abs now abs) {A : Mat α} {M : Matrix (Fin 1) (Fin 1) ℝ} (hA : A.Is now M)
    (h20 : M 0 0 = 20) {u : ℝ} (hu : u ≤ 1e-9) {p q : List α} (hp : Rounded now u p padeP) (hq : Rounded now u q padeQ) :
    ∃ X, ∃ N : Matrix (Fin 1) (Fin 1) ℝ, A.expNow now abs p q = some X ∧ X.Is now N ∧ N 0 0 < -10 ^ 7 ∧
      4 * 10 ^ 8 < NormedSpace.exp M 0 0 :=
  exp_wrong E.toReals (luSolve_solves E) hA h20 hu hp hq

/-! ### Concrete cases -/

/-- Expressions have the operations that the decomposition needs. -/
theorem term_abs (env : ℕ → ℝ) : Reals.Abs (fun t : Term => t.eval env) (.un .abs) where
  toReals := term_reals env
  abs_eq _ := rfl

theorem rounded_lit (env : ℕ → ℝ) (l : List ℚ) : Rounded (fun t : Term => t.eval env) 0 (l.map fun x : ℚ => .lit x) l := by
  rw [Rounded, List.forall₂_map_left_iff]
  exact List.forall₂_same.2 fun x _ => by simp [Term.eval]

/-- A 2 by 2 matrix of variables. -/
def vars2 : Mat Term := ⟨2, 2, (List.range 4).map .var⟩

theorem vars2_is (env : ℕ → ℝ) : vars2.Is (fun t => t.eval env) (Matrix.of fun i j : Fin 2 => env (2 * i + j)) := by
  refine ⟨rfl, rfl, rfl, fun i j => ?_⟩
  refine ⟨.var (2 * i + j), ?_, rfl⟩
  fin_cases i <;> fin_cases j <;> rfl

/-- `exp()` of a 2 by 2 matrix of variables with the values of a rotation by two radians. -/
example : ∃ X N, vars2.expNow (fun t => t.eval fun k => if k = 1 then 2 else if k = 2 then -2 else 0) (.un .abs)
    (padeP.map fun x : ℚ => .lit x) (padeQ.map fun x : ℚ => .lit x) = some X ∧
    X.Is (fun t => t.eval fun k => if k = 1 then 2 else if k = 2 then -2 else 0) N ∧
    ∀ i j, |N i j - NormedSpace.exp (Matrix.of fun i j : Fin 2 =>
      (fun k : ℕ => if k = 1 then (2 : ℝ) else if k = 2 then -2 else 0) (2 * i + j)) i j| ≤ 2e-17 + 4000 * 0 :=
  exp_now_partial (term_abs _) (vars2_is _) le_rfl (by norm_num) (rounded_lit _ _) (rounded_lit _ _) fun i => by
    fin_cases i <;> simp <;> norm_num

/-- `exp()` of a 2 by 2 matrix of new variables, which are zero, evaluated after their values were set. -/
example : ∃ X N, vars2.expNow (fun t => t.eval fun _ => 0) (.un .abs)
    (padeP.map fun x : ℚ => .lit x) (padeQ.map fun x : ℚ => .lit x) = some X ∧
    X.Is (fun t => t.eval fun k => if k = 1 then 1 else if k = 2 then -1 else 0) N ∧
    ∀ i j, |N i j - NormedSpace.exp (Matrix.of fun i j : Fin 2 =>
      (fun k : ℕ => if k = 1 then (1 : ℝ) else if k = 2 then -1 else 0) (2 * i + j)) i j| ≤ 1e-33 + 12 * 0 :=
  exp_later_partial (term_reals _) (term_abs _) (vars2_is _) (vars2_is _) le_rfl (by norm_num) (rounded_lit _ _)
    (rounded_lit _ _) (rounded_lit _ _) fun i => by
    fin_cases i <;> simp

end Slp.VMat
