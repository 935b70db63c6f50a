import Verif.Matrix.QrLemmas
import Verif.Matrix.SolveLemmas
import Mathlib.LinearAlgebra.Matrix.Block

/-!
C75: `solve(A, B)` for matrices that are not square or larger than 4 by 4.

`now` gives the values of expressions while `solve()` runs, `ev` those at which the result is evaluated.
-/

namespace Slp.VMat

variable {α : Type} [Zero α] [Add α] [Sub α] [Mul α] [Div α] [Neg α] {ev now : α → ℝ} {one : α} {sqrt : α → α}

namespace Qr

omit [Add α] [Sub α] [Mul α] [Div α] [Neg α] in
theorem mat_toEigen {m n : ℕ} {A : Mat α} {M : Matrix (Fin m) (Fin n) ℝ} (hA : A.Is ev M) : mat ev m n A.toEigen = M := by
  ext i j
  obtain ⟨a, ha, e⟩ := get_of_is hA i j
  show ev ((A.get (i : ℕ) (j : ℕ)).getD 0) = _
  rw [ha]; exact e

theorem qr_core (E : Reals.Sqrt ev one sqrt) {m n p r : ℕ} (hr : r = Nat.min m n) {A B : Mat α}
    {M : Matrix (Fin m) (Fin n) ℝ} {N : Matrix (Fin m) (Fin p) ℝ} (hA : A.Is ev M) (hB : B.Is ev N)
    (ok : ∀ k < r, StepOk now ev sqrt m k (upTo now one sqrt m k A.toEigen).1) :
    ∃ Q : Matrix (Fin m) (Fin m) ℝ, Q.transpose * Q = 1 ∧
      (∀ (i : Fin m) (j : Fin n), j.val < r → j.val < i.val → (Q * M) i j = 0) ∧
      ((∀ (i : Fin m) (j : Fin n), i.val < r → i.val = j.val → (Q * M) i j ≠ 0) →
        ∃ X, ∃ Y : Matrix (Fin n) (Fin p) ℝ, qrSolve now one sqrt A B = some X ∧ X.Is ev Y ∧
          (∀ (i : Fin m) (j : Fin p), i.val < r → (Q * M * Y) i j = (Q * N) i j) ∧
          ∀ (i : Fin n) (j : Fin p), r ≤ i.val → Y i j = 0) := by
  have a1 : A.rows = m := hA.2.1
  have a2 : A.cols = n := hA.2.2.1
  have b2 : B.cols = p := hB.2.2.1
  have rm : r ≤ m := hr ▸ Nat.min_le_left m n
  have rn : r ≤ n := hr ▸ Nat.min_le_right m n
  obtain ⟨Q, hQ, hM, hc⟩ := upTo_spec E A.toEigen rm rn ok
  rw [mat_toEigen hA] at hM
  set s := upTo now one sqrt m r A.toEigen with hs
  refine ⟨Q, hQ, fun i j h1 h2 => by rw [hM, if_pos ⟨h1, h2⟩], fun hd => ?_⟩
  set c := applyAll now one m s.2 B.toEigen with hcdef
  have hdiag : ∀ i < r, ev (s.1 i i) ≠ 0 := fun i hi => by
    have := hd ⟨i, by omega⟩ ⟨i, by omega⟩ hi rfl
    rwa [hM, if_neg (by simp)] at this
  have hx := backSubstitute_spec E.toReals s.1 c hdiag
  set x := backSubstitute r s.1 c with hxdef
  have hsolve : qrSolve now one sqrt A B = Mat.ofFnM n p fun i j => some (if i < r then x i j else 0) := by
    unfold qrSolve
    rw [a1, a2, b2, ← hr]
    show Mat.ofFnM n p _ = _
    unfold householderQr
    rw [← hr]
    rfl
  obtain ⟨X, hX, hXI⟩ := ofFnM_is (ev := ev) (m := n) (n := p) (f := fun i j => some (if i < r then x i j else 0))
    (M := Matrix.of fun i j => if i.val < r then ev (x i j) else 0) fun i j => ⟨_, rfl, by
      simp only [Matrix.of_apply]; split_ifs <;> simp [E.zero]⟩
  refine ⟨X, _, hsolve.trans hX, hXI, fun i j hi => ?_, fun i j hi => by simp [Nat.not_lt.mpr hi]⟩
  have hcv : (Q * N) i j = ev (c i j) := by
    rw [← mat_toEigen hB, ← hc p]; rfl
  rw [hcv, ← hx j i hi, Matrix.mul_apply]
  have e1 : ∀ t : Fin n, (Q * M) i t * (Matrix.of fun (i : Fin n) (j : Fin p) => if i.val < r then ev (x i j) else 0) t j =
      (fun t : ℕ => if i.val ≤ t ∧ t < r then ev (s.1 i t) * ev (x t j) else 0) t := by
    intro t
    simp only [Matrix.of_apply]
    by_cases h1 : t.val < r
    · rw [if_pos h1, hM]
      by_cases h2 : t.val < i.val
      · rw [if_pos ⟨h1, h2⟩, if_neg (by omega), zero_mul]
      · rw [if_neg (by omega), if_pos (by omega)]
    · rw [if_neg h1, mul_zero, if_neg (by omega)]
  rw [Finset.sum_congr rfl fun t _ => e1 t,
    Fin.sum_univ_eq_sum_range (fun t : ℕ => if i.val ≤ t ∧ t < r then ev (s.1 i t) * ev (x t j) else 0),
    ← Finset.sum_filter]
  refine Finset.sum_congr ?_ fun _ _ => rfl
  ext t
  simp only [Finset.mem_filter, Finset.mem_range, Finset.mem_Ico]
  omega

theorem square_core (E : Reals.Sqrt ev one sqrt) {m n p : ℕ} (hmn : m ≤ n) {A B : Mat α}
    {M : Matrix (Fin m) (Fin n) ℝ} {N : Matrix (Fin m) (Fin p) ℝ} (hA : A.Is ev M) (hB : B.Is ev N)
    (ok : ∀ k < m, StepOk now ev sqrt m k (upTo now one sqrt m k A.toEigen).1)
    (hdet : (M.submatrix id (Fin.castLE hmn)).det ≠ 0) :
    ∃ X, ∃ Y : Matrix (Fin n) (Fin p) ℝ, qrSolve now one sqrt A B = some X ∧ X.Is ev Y ∧ M * Y = N ∧
      ∀ (i : Fin n) (j : Fin p), m ≤ i.val → Y i j = 0 := by
  obtain ⟨Q, hQ, hlow, hs⟩ := qr_core (now := now) E (r := m) (Nat.min_eq_left hmn).symm hA hB ok
  have hdQ : Q.det ≠ 0 := by
    intro h
    have := congrArg Matrix.det hQ
    simp [h] at this
  have hT : (Q * M.submatrix id (Fin.castLE hmn)).BlockTriangular id := by
    intro i j hij
    exact hlow i (Fin.castLE hmn j) j.2 hij
  have hprod := Matrix.det_of_isUpperTriangular hT
  rw [Matrix.det_mul] at hprod
  have hd : ∀ i : Fin m, (Q * M) i (Fin.castLE hmn i) ≠ 0 := fun i => by
    have := Finset.prod_ne_zero_iff.mp (hprod ▸ mul_ne_zero hdQ hdet) i (Finset.mem_univ i)
    exact this
  obtain ⟨X, Y, h1, h2, h3, h4⟩ := hs fun i j _ e => by
    have : j = Fin.castLE hmn i := Fin.ext e.symm
    rw [this]; exact hd i
  refine ⟨X, Y, h1, h2, ?_, h4⟩
  have : Q * (M * Y) = Q * N := by
    ext i j
    rw [← Matrix.mul_assoc]; exact h3 i j i.2
  calc M * Y = Q.transpose * (Q * (M * Y)) := by rw [← Matrix.mul_assoc, hQ, Matrix.one_mul]
    _ = N := by rw [this, ← Matrix.mul_assoc, hQ, Matrix.one_mul]

theorem tall_core (E : Reals.Sqrt ev one sqrt) {m n p : ℕ} (hmn : n ≤ m) {A B : Mat α}
    {M : Matrix (Fin m) (Fin n) ℝ} {N : Matrix (Fin m) (Fin p) ℝ} (hA : A.Is ev M) (hB : B.Is ev N)
    (ok : ∀ k < n, StepOk now ev sqrt m k (upTo now one sqrt m k A.toEigen).1)
    (hdet : (M.transpose * M).det ≠ 0) :
    ∃ X, ∃ Y : Matrix (Fin n) (Fin p) ℝ, qrSolve now one sqrt A B = some X ∧ X.Is ev Y ∧
      M.transpose * M * Y = M.transpose * N := by
  obtain ⟨Q, hQ, hlow, hs⟩ := qr_core (now := now) E (r := n) (Nat.min_eq_right hmn).symm hA hB ok
  set R := Q * M with hR
  have hRR : R.transpose * R = M.transpose * M := by
    rw [hR, Matrix.transpose_mul, Matrix.mul_assoc, ← Matrix.mul_assoc _ Q M, hQ, Matrix.one_mul]
  set U := R.submatrix (Fin.castLE hmn) id with hU
  have split : ∀ (f : Fin m → ℝ), (∀ i : Fin m, n ≤ i.val → f i = 0) →
      ∑ i, f i = ∑ i : Fin n, f (Fin.castLE hmn i) := by
    intro f hf
    rw [← Finset.sum_image (s := Finset.univ) (g := Fin.castLE hmn) (f := f)
      (fun a _ b _ e => (Fin.castLE_injective hmn) e)]
    symm
    apply Finset.sum_subset (Finset.subset_univ _)
    intro i _ hi
    apply hf
    by_contra hlt
    exact hi (Finset.mem_image.mpr ⟨⟨i, by omega⟩, Finset.mem_univ _, rfl⟩)
  have hUU : U.transpose * U = M.transpose * M := by
    rw [← hRR]
    ext a b
    rw [Matrix.mul_apply, Matrix.mul_apply]
    rw [split (fun i => R.transpose a i * R i b) fun i hi => by
      rw [Matrix.transpose_apply, hlow i a a.2 (by omega), zero_mul]]
    rfl
  have hdU : U.det ≠ 0 := by
    intro h
    apply hdet
    rw [← hUU, Matrix.det_mul, h, mul_zero]
  have hT : U.BlockTriangular id := by
    intro i j hij
    exact hlow (Fin.castLE hmn i) j j.2 hij
  have hprod := Matrix.det_of_isUpperTriangular hT
  have hd : ∀ i : Fin n, R (Fin.castLE hmn i) i ≠ 0 := fun i => by
    have := Finset.prod_ne_zero_iff.mp (hprod ▸ hdU) i (Finset.mem_univ i)
    exact this
  obtain ⟨X, Y, h1, h2, h3, -⟩ := hs fun i j hi e => by
    have : i = Fin.castLE hmn j := Fin.ext e
    rw [this]; exact hd j
  refine ⟨X, Y, h1, h2, ?_⟩
  have hMN : M.transpose * N = R.transpose * (Q * N) := by
    rw [hR, Matrix.transpose_mul, Matrix.mul_assoc, ← Matrix.mul_assoc _ Q N, hQ, Matrix.one_mul]
  rw [hMN, ← hRR, Matrix.mul_assoc]
  ext a b
  rw [Matrix.mul_apply, Matrix.mul_apply]
  refine Finset.sum_congr rfl fun i _ => ?_
  by_cases hi : i.val < n
  · rw [h3 i b hi]
  · rw [Matrix.transpose_apply, hlow i a a.2 (by omega), zero_mul, zero_mul]

/-- Solutions of the normal equations minimise the sum of squares. -/
theorem normal_minimises {m n p : ℕ} {M : Matrix (Fin m) (Fin n) ℝ} {N : Matrix (Fin m) (Fin p) ℝ}
    {Y : Matrix (Fin n) (Fin p) ℝ} (h : M.transpose * M * Y = M.transpose * N) (Z : Matrix (Fin n) (Fin p) ℝ) (j : Fin p) :
    ∑ i, ((M * Y - N) i j) ^ 2 ≤ ∑ i, ((M * Z - N) i j) ^ 2 := by
  have h0 : M.transpose * (M * Y - N) = 0 := by
    rw [Matrix.mul_sub, ← Matrix.mul_assoc, h, sub_self]
  have h1 : ∑ i, (M * Y - N) i j * (M * (Z - Y)) i j = 0 := by
    have : ((Z - Y).transpose * (M.transpose * (M * Y - N))) j j = 0 := by rw [h0, Matrix.mul_zero]; rfl
    rw [← Matrix.mul_assoc, ← Matrix.transpose_mul, Matrix.mul_apply] at this
    rw [← this]
    exact Finset.sum_congr rfl fun i _ => by rw [Matrix.transpose_apply]; ring
  have h2 : ∀ i, (M * Z - N) i j = (M * Y - N) i j + (M * (Z - Y)) i j := fun i => by
    rw [Matrix.mul_sub]
    simp only [Matrix.sub_apply]; ring
  have h3 : ∑ i, ((M * Z - N) i j) ^ 2 = ∑ i, ((M * Y - N) i j) ^ 2 + ∑ i, ((M * (Z - Y)) i j) ^ 2 := by
    have : ∀ i, ((M * Z - N) i j) ^ 2 =
        ((M * Y - N) i j) ^ 2 + ((M * (Z - Y)) i j) ^ 2 + 2 * ((M * Y - N) i j * (M * (Z - Y)) i j) := fun i => by
      rw [h2]; ring
    rw [Finset.sum_congr rfl fun i _ => this i, Finset.sum_add_distrib, Finset.sum_add_distrib, ← Finset.mul_sum, h1]
    ring
  rw [h3]
  have := Finset.sum_nonneg fun (i : Fin m) (_ : i ∈ Finset.univ) => sq_nonneg ((M * (Z - Y)) i j)
  linarith

theorem apply_trivial (E : Reals.Sqrt ev one sqrt) (hn : now 0 = 0) (m k : ℕ) (b : α) (a : ℕ → ℕ → α) (i j : ℕ) :
    ev (Reflector.apply now one m k ⟨fun _ => 0, 0, b⟩ a i j) = ev (a i j) := by
  unfold Reflector.apply
  split_ifs with h1 h2
  · simp only
    split_ifs
    · rw [E.mul, E.sub, E.one_eq, E.zero]; ring
    · rfl
  · exact absurd hn h2
  · rfl

/-- If nothing is below the diagonal while `solve()` runs, it is never looked at. -/
theorem upTo_skips (N : Reals.Sqrt now one sqrt) {m : ℕ} (a : ℕ → ℕ → α) {K : ℕ} (hK : K ≤ m)
    (h0 : ∀ i j, j < K → j < i → i < m → now (a i j) = 0) :
    ∀ e : α → ℝ, Reals.Sqrt e one sqrt →
      (∀ i j, i < m → e ((upTo now one sqrt m K a).1 i j) = if j < K ∧ j < i then 0 else e (a i j)) ∧
      ∀ c i j, e (applyAll now one m (upTo now one sqrt m K a).2 c i j) = e (c i j) := by
  induction K with
  | zero => exact fun e E => ⟨fun i j _ => by simp [upTo], fun c i j => rfl⟩
  | succ K ih =>
    have ih := ih (by omega) fun i j hj => h0 i j (by omega)
    have hskip : makeHouseholder now sqrt m K (upTo now one sqrt m K a).1 =
        ⟨fun _ => 0, 0, (upTo now one sqrt m K a).1 K K⟩ := by
      simp only [makeHouseholder]
      rw [if_pos]
      rw [sum_ev N.toReals]
      simp only [N.mul]
      refine (Finset.sum_eq_zero fun i hi => ?_).le
      rw [Finset.mem_Ico] at hi
      rw [(ih now N).1 i K hi.2, if_neg (by omega), h0 i K (by omega) (by omega) hi.2, mul_zero]
    intro e E
    obtain ⟨i1, i2⟩ := ih e E
    rw [upTo_succ]
    refine ⟨fun i j hi => ?_, fun c i j => ?_⟩
    · simp only [qrColumn, hskip]
      rcases Nat.lt_trichotomy j K with hj | hj | hj
      · rw [if_pos hj, i1 i j hi]
        simp only [hj, true_and, show j < K + 1 by omega]
      · subst hj
        rw [if_neg (by omega), if_pos rfl]
        split_ifs with c1 c2 c3 c4
        · omega
        · rw [i1 i j hi, if_neg (by omega)]
        · omega
        · rw [c3, i1 j j (by omega), if_neg (by omega)]
        · exact E.zero
        · omega
      · rw [if_neg (by omega), if_neg (by omega), apply_trivial E N.zero, i1 i j hi, if_neg (by omega), if_neg (by omega)]
    · simp only [qrColumn, hskip]
      rw [applyAll_concat, apply_trivial E N.zero, i2]

end Qr

/-- C75, square matrices larger than 4 by 4. At the values that the expressions have while `solve()` runs, the result
satisfies `A X = B`. Missing from the property: other values, for which it is false, see `solve_ignores_lower`. -/
theorem solve_square_partial (E : Reals.Sqrt now one sqrt) {n p : ℕ} (hn : 5 ≤ n) {A B : Mat α}
    {M : Matrix (Fin n) (Fin n) ℝ} {N : Matrix (Fin n) (Fin p) ℝ} (hA : A.Is now M) (hB : B.Is now N)
    (hdet : M.det ≠ 0) :
    ∃ X, ∃ Y : Matrix (Fin n) (Fin p) ℝ, solveNow now one sqrt A B = some X ∧ X.Is now Y ∧ M * Y = N := by
  have a1 : A.rows = n := hA.2.1
  have a2 : A.cols = n := hA.2.2.1
  have b1 : B.rows = n := hB.2.1
  obtain ⟨X, Y, h1, h2, h3, -⟩ := Qr.square_core E le_rfl hA hB (fun k _ => Qr.stepOk_now E n k _) (by simpa using hdet)
  refine ⟨X, Y, ?_, h2, h3⟩
  unfold solveNow solve
  rw [if_pos (by omega), if_neg (by omega), if_neg (by omega), if_neg (by omega), if_neg (by omega), h1]

/-- C75, values that are set later: `A X = B` still holds at the values `ev` if a call of `solve()` at these values would
return the same expressions. -/
theorem solve_later_partial (E : Reals.Sqrt ev one sqrt) {n p : ℕ} (hn : 5 ≤ n) {A B X : Mat α}
    {M : Matrix (Fin n) (Fin n) ℝ} {N : Matrix (Fin n) (Fin p) ℝ} (hA : A.Is ev M) (hB : B.Is ev N) (hdet : M.det ≠ 0)
    (hX : solveNow now one sqrt A B = some X) (same : solveNow ev one sqrt A B = solveNow now one sqrt A B) :
    ∃ Y : Matrix (Fin n) (Fin p) ℝ, X.Is ev Y ∧ M * Y = N := by
  obtain ⟨X', Y, h1, h2, h3⟩ := solve_square_partial E hn hA hB hdet
  rw [same, hX] at h1
  cases h1
  exact ⟨Y, h2, h3⟩

/-- C75, more rows than columns: at the values that the expressions have while `solve()` runs, the result minimises the
sum of squares of each column of `A X - B`. -/
theorem solve_tall_partial (E : Reals.Sqrt now one sqrt) {m n p : ℕ} (hmn : n < m) {A B : Mat α}
    {M : Matrix (Fin m) (Fin n) ℝ} {N : Matrix (Fin m) (Fin p) ℝ} (hA : A.Is now M) (hB : B.Is now N)
    (hdet : (M.transpose * M).det ≠ 0) :
    ∃ X, ∃ Y : Matrix (Fin n) (Fin p) ℝ, solveNow now one sqrt A B = some X ∧ X.Is now Y ∧
      ∀ (Z : Matrix (Fin n) (Fin p) ℝ) (j : Fin p), ∑ i, ((M * Y - N) i j) ^ 2 ≤ ∑ i, ((M * Z - N) i j) ^ 2 := by
  have a1 : A.rows = m := hA.2.1
  have a2 : A.cols = n := hA.2.2.1
  have b1 : B.rows = m := hB.2.1
  obtain ⟨X, Y, h1, h2, h3⟩ := Qr.tall_core E hmn.le hA hB (fun k _ => Qr.stepOk_now E m k _) hdet
  refine ⟨X, Y, ?_, h2, Qr.normal_minimises h3⟩
  unfold solveNow solve
  rw [if_pos (by omega), if_neg (by omega), if_neg (by omega), if_neg (by omega), if_neg (by omega), h1]

/-- C75, more columns than rows: if the leading square block is invertible, then at the values that the expressions have
while `solve()` runs the result satisfies `A X = B`, with zeros for the unknowns beyond the block. -/
theorem solve_wide_partial (E : Reals.Sqrt now one sqrt) {m n p : ℕ} (hmn : m < n) {A B : Mat α}
    {M : Matrix (Fin m) (Fin n) ℝ} {N : Matrix (Fin m) (Fin p) ℝ} (hA : A.Is now M) (hB : B.Is now N)
    (hdet : (M.submatrix id (Fin.castLE hmn.le)).det ≠ 0) :
    ∃ X, ∃ Y : Matrix (Fin n) (Fin p) ℝ, solveNow now one sqrt A B = some X ∧ X.Is now Y ∧ M * Y = N ∧
      ∀ (i : Fin n) (j : Fin p), m ≤ i.val → Y i j = 0 := by
  have a1 : A.rows = m := hA.2.1
  have a2 : A.cols = n := hA.2.2.1
  have b1 : B.rows = m := hB.2.1
  obtain ⟨X, Y, h1, h2, h3, h4⟩ := Qr.square_core E hmn.le hA hB (fun k _ => Qr.stepOk_now E m k _) hdet
  refine ⟨X, Y, ?_, h2, h3, h4⟩
  unfold solveNow solve
  rw [if_pos (by omega), if_neg (by omega), if_neg (by omega), if_neg (by omega), if_neg (by omega), h1]

/-- If the elements of `A` below the diagonal are zero while `solve()` runs, as those of new decision variables are, the
result solves the system with the upper triangle of `A` at all other values, too. -/
theorem solve_ignores_lower (E : Reals.Sqrt ev one sqrt) (E0 : Reals.Sqrt now one sqrt) {n p : ℕ} (hn : 5 ≤ n)
    {A B : Mat α} {M M0 : Matrix (Fin n) (Fin n) ℝ} {N : Matrix (Fin n) (Fin p) ℝ} (hA : A.Is ev M) (hA0 : A.Is now M0)
    (hB : B.Is ev N) (h0 : ∀ i j, j < i → M0 i j = 0) (hd : ∀ i, M i i ≠ 0) :
    ∃ X, ∃ Y : Matrix (Fin n) (Fin p) ℝ, solveNow now one sqrt A B = some X ∧ X.Is ev Y ∧
      (Matrix.of fun i j => if j < i then 0 else M i j) * Y = N := by
  have a1 : A.rows = n := hA.2.1
  have a2 : A.cols = n := hA.2.2.1
  have b1 : B.rows = n := hB.2.1
  have b2 : B.cols = p := hB.2.2.1
  have z : ∀ i j, j < n → j < i → i < n → now (A.toEigen i j) = 0 := fun i j hj hij hi => by
    have := congrFun (congrFun (Qr.mat_toEigen hA0) ⟨i, hi⟩) ⟨j, hj⟩
    exact this.trans (h0 _ _ hij)
  obtain ⟨u1, u2⟩ := Qr.upTo_skips E0 A.toEigen le_rfl z ev E
  set s := Qr.upTo now one sqrt n n A.toEigen with hs
  set c := applyAll now one n s.2 B.toEigen with hcdef
  have hM : ∀ i j : Fin n, ev (A.toEigen i j) = M i j := fun i j => congrFun (congrFun (Qr.mat_toEigen hA) i) j
  have hx := Qr.backSubstitute_spec E.toReals s.1 c (fun i hi => by
    rw [u1 i i hi, if_neg (by omega)]
    exact (hM ⟨i, hi⟩ ⟨i, hi⟩).trans_ne (hd _))
  set x := backSubstitute n s.1 c with hxdef
  have hsolve : qrSolve now one sqrt A B = Mat.ofFnM n p fun i j => some (if i < n then x i j else 0) := by
    unfold qrSolve householderQr
    rw [a1, a2, b2, show Nat.min n n = n from Nat.min_self n]
    rfl
  obtain ⟨X, hX, hXI⟩ := ofFnM_is (ev := ev) (m := n) (n := p) (f := fun i j => some (if i < n then x i j else 0))
    (M := Matrix.of fun i j => ev (x i j)) fun i j => ⟨_, rfl, by rw [if_pos i.2]; rfl⟩
  refine ⟨X, _, ?_, hXI, ?_⟩
  · unfold solveNow solve
    rw [if_pos (by omega), if_neg (by omega), if_neg (by omega), if_neg (by omega), if_neg (by omega), hsolve, hX]
  · ext i j
    have hcv : ev (c i j) = N i j := (u2 _ _ _).trans (congrFun (congrFun (Qr.mat_toEigen hB) i) j)
    rw [← hcv, ← hx j i i.2, Matrix.mul_apply]
    have e1 : ∀ t : Fin n, (Matrix.of fun i j => if j < i then 0 else M i j) i t *
        (Matrix.of fun (i : Fin n) (j : Fin p) => ev (x i j)) t j =
        (fun t : ℕ => if i.val ≤ t ∧ t < n then ev (s.1 i t) * ev (x t j) else 0) t := by
      intro t
      simp only [Matrix.of_apply]
      rw [u1 i t i.2, hM i t]
      by_cases h : t < i
      · rw [if_pos h, zero_mul, if_neg (by omega)]
      · rw [if_neg h, if_pos (by omega), if_neg (by omega)]
    rw [Finset.sum_congr rfl fun t _ => e1 t,
      Fin.sum_univ_eq_sum_range (fun t : ℕ => if i.val ≤ t ∧ t < n then ev (s.1 i t) * ev (x t j) else 0),
      ← Finset.sum_filter]
    refine Finset.sum_congr ?_ fun _ _ => rfl
    ext t
    simp only [Finset.mem_filter, Finset.mem_range, Finset.mem_Ico]
    omega

/-! ### Concrete cases -/

/-- Expressions have the operations that the decomposition needs. -/
theorem term_sqrt (env : ℕ → ℝ) : Reals.Sqrt (fun t : Term => t.eval env) (.lit 1) (.un .sqrt) where
  toReals := term_reals env
  one_eq := rfl
  sqrt_eq _ _ := rfl

/-- A 5 by 5 matrix of variables. -/
def vars5 : Mat Term := ⟨5, 5, (List.range 25).map .var⟩

/-- The right-hand side `(1, 0, 0, 0, 0)`. -/
def unit5 : Mat Term := ⟨5, 1, [.lit 1, .lit 0, .lit 0, .lit 0, .lit 0]⟩

theorem vars5_is (env : ℕ → ℝ) : vars5.Is (fun t => t.eval env) (Matrix.of fun i j : Fin 5 => env (5 * i + j)) := by
  refine ⟨rfl, rfl, rfl, fun i j => ?_⟩
  refine ⟨.var (5 * i + j), ?_, rfl⟩
  fin_cases i <;> fin_cases j <;> rfl

theorem unit5_is (env : ℕ → ℝ) : unit5.Is (fun t => t.eval env) (Matrix.of fun (i : Fin 5) (_ : Fin 1) => if i = 0 then 1 else 0) := by
  refine ⟨rfl, rfl, rfl, fun i j => ?_⟩
  fin_cases i <;> fin_cases j
  · exact ⟨.lit 1, rfl, rfl⟩
  all_goals exact ⟨.lit 0, rfl, rfl⟩

/-- The values set later: the identity with another 1 below the diagonal. -/
def later5 (k : ℕ) : ℝ := if k = 5 ∨ k % 6 = 0 then 1 else 0

/-- `solve()` of a 5 by 5 matrix of new decision variables, which are zero, does not solve the system that these variables
describe later, although that system is regular. -/
theorem solve_stale :
    (Matrix.of fun i j : Fin 5 => later5 (5 * i + j)).det ≠ 0 ∧
    ∃ X, ∃ Y : Matrix (Fin 5) (Fin 1) ℝ,
      solveNow (fun t : Term => t.eval fun _ => 0) (.lit 1) (.un .sqrt) vars5 unit5 = some X ∧
      X.Is (fun t => t.eval later5) Y ∧
      (Matrix.of fun i j : Fin 5 => later5 (5 * i + j)) * Y ≠ Matrix.of fun (i : Fin 5) (_ : Fin 1) => if i = 0 then 1 else 0 := by
  have hT : (Matrix.of fun i j : Fin 5 => later5 (5 * i + j)).BlockTriangular OrderDual.toDual := by
    intro i j hij
    have hij : i < j := hij
    fin_cases i <;> fin_cases j <;> simp [later5] at hij ⊢
  refine ⟨?_, ?_⟩
  · rw [Matrix.det_of_isLowerTriangular _ hT]
    refine Finset.prod_ne_zero_iff.mpr fun i _ => ?_
    fin_cases i <;> simp [later5]
  · obtain ⟨X, Y, h1, h2, h3⟩ := solve_ignores_lower (term_sqrt later5) (term_sqrt fun _ => 0) (n := 5) le_rfl
      (vars5_is later5) (vars5_is _) (unit5_is later5) (fun i j _ => rfl)
      (fun i => by fin_cases i <;> simp [later5])
    refine ⟨X, Y, h1, h2, fun h => ?_⟩
    have hU : (Matrix.of fun i j : Fin 5 => if j < i then 0 else
        (Matrix.of fun i j : Fin 5 => later5 (5 * i + j)) i j) = 1 := by
      ext i j
      fin_cases i <;> fin_cases j <;> simp [later5]
    rw [hU, Matrix.one_mul] at h3
    rw [h3] at h
    have := congrFun (congrFun h 1) 0
    simp [Matrix.mul_apply, later5] at this

/-- A regular 5 by 5 matrix and a right-hand side meet the hypotheses of `solve_square_partial`. -/
example : ∃ X, ∃ Y : Matrix (Fin 5) (Fin 1) ℝ,
    solveNow (fun t : Term => t.eval later5) (.lit 1) (.un .sqrt) vars5 unit5 = some X ∧
      X.Is (fun t => t.eval later5) Y ∧
      (Matrix.of fun i j : Fin 5 => later5 (5 * i + j)) * Y = Matrix.of fun (i : Fin 5) (_ : Fin 1) => if i = 0 then 1 else 0 :=
  solve_square_partial (term_sqrt later5) le_rfl (vars5_is _) (unit5_is _) solve_stale.1

end Slp.VMat
