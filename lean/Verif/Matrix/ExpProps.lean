import Verif.Matrix.MakeProps
import Verif.Matrix.PadeLemmas
import Mathlib.Analysis.Normed.Algebra.MatrixExponential
import Mathlib.LinearAlgebra.Matrix.NonsingularInverse

/-! C55: the matrix exponential. -/

namespace Slp.VMat

open Matrix Slp.Pade
open scoped Matrix.Norms.Operator

variable {α : Type} {ev : α → ℝ} {n : ℕ}

/-- The constants `c` are the numbers `l`, rounded with relative error at most `u`. -/
def Rounded (ev : α → ℝ) (u : ℝ) (c : List α) (l : List ℚ) : Prop :=
  List.Forall₂ (fun a (x : ℚ) => |ev a - x| ≤ u * |(x : ℝ)|) c l

/-- `lu` solves systems of linear equations with a nonsingular matrix. -/
def LuSolves (ev : α → ℝ) (lu : Mat α → Mat α → Option (Mat α)) : Prop :=
  ∀ (n : ℕ) (A B : Mat α) (M N : Matrix (Fin n) (Fin n) ℝ), A.Is ev M → B.Is ev N → M.det ≠ 0 →
    ∃ X, lu A B = some X ∧ X.Is ev (M⁻¹ * N)

/-- The value of a polynomial with the given coefficients. -/
noncomputable def evalR (A : Matrix (Fin n) (Fin n) ℝ) : List ℝ → Matrix (Fin n) (Fin n) ℝ
  | [] => 0
  | a :: l => a • (1 : Matrix (Fin n) (Fin n) ℝ) + A * evalR A l

theorem norm_evalR_sub {A : Matrix (Fin n) (Fin n) ℝ} (h1 : ‖(1 : Matrix (Fin n) (Fin n) ℝ)‖ ≤ 1) {r : ℚ}
    (hA : ‖A‖ ≤ r) {u : ℝ} {c : List α} {l : List ℚ} (h : Rounded ev u c l) :
    ‖evalR A (c.map ev) - evalL A l‖ ≤ u * (normL r l : ℚ) := by
  have hr : (0 : ℝ) ≤ r := (norm_nonneg _).trans hA
  induction h with
  | nil => simp [evalR, evalL, normL]
  | @cons a x c l hax _ ih =>
    have e : evalR A ((a :: c).map ev) - evalL A (x :: l) =
        (ev a - (x : ℝ)) • (1 : Matrix (Fin n) (Fin n) ℝ) + A * (evalR A (c.map ev) - evalL A l) := by
      simp only [List.map_cons, evalR, evalL, sub_smul, mul_sub]
      abel
    rw [e, normL, Rat.cast_add, Rat.cast_mul, Rat.cast_abs, mul_add]
    refine (norm_add_le _ _).trans (add_le_add ?_ ?_)
    · rw [norm_smul, Real.norm_eq_abs]
      exact (mul_le_of_le_one_right (abs_nonneg _) h1).trans hax
    · refine (norm_mul_le _ _).trans ((mul_le_mul hA ih (norm_nonneg _) hr).trans (le_of_eq ?_))
      ring

theorem norm_one_le : ‖(1 : Matrix (Fin n) (Fin n) ℝ)‖ ≤ 1 := by
  rw [← diagonal_one, linfty_opNorm_diagonal]
  exact (pi_norm_le_iff_of_nonneg zero_le_one).2 fun i => by simp

theorem norm_le_of_rows {A : Matrix (Fin n) (Fin n) ℝ} {r : ℝ} (hr : 0 ≤ r) (h : ∀ i, ∑ j, |A i j| ≤ r) : ‖A‖ ≤ r := by
  rw [linfty_opNorm_def]
  have : (Finset.univ.sup fun i => ∑ j, ‖A i j‖₊) ≤ (⟨r, hr⟩ : NNReal) := Finset.sup_le fun i _ => by
    refine NNReal.coe_le_coe.1 ?_
    push_cast
    exact h i
  exact_mod_cast this

theorem entry_le_norm (A : Matrix (Fin n) (Fin n) ℝ) (i j : Fin n) : |A i j| ≤ ‖A‖ := by
  rw [linfty_opNorm_def]
  have h1 : ‖A i j‖₊ ≤ ∑ j, ‖A i j‖₊ := Finset.single_le_sum (f := fun j => ‖A i j‖₊) (fun _ _ => zero_le) (Finset.mem_univ j)
  have h2 := h1.trans (Finset.le_sup (f := fun i => ∑ j, ‖A i j‖₊) (Finset.mem_univ i))
  exact_mod_cast h2

section Loop

variable [Zero α] [Add α] [Sub α] [Mul α] [Div α] [Neg α]

omit [Zero α] [Add α] [Sub α] [Mul α] [Div α] [Neg α] in
theorem Mat.Is.some {A : Mat α} {m : ℕ} {M : Matrix (Fin m) (Fin n) ℝ} (h : A.Is ev M) :
    ∀ i j : ℕ, i < A.view.rows → j < A.view.cols → (A.view.get i j).isSome := fun i j hi hj => by
  obtain ⟨a, ha, -⟩ := h.2.2.2 ⟨i, by rw [← h.2.1]; exact hi⟩ ⟨j, by rw [← h.2.2.1]; exact hj⟩
  rw [show A.view.get i j = _ from ha]; rfl

theorem compound_add_is (hev : Reals ev) {A B : Mat α} {m : ℕ} {M N : Matrix (Fin m) (Fin n) ℝ} (hA : A.Is ev M)
    (hB : B.Is ev N) : ∃ C, A.compound (· + ·) B.view = some C ∧ C.Is ev (M + N) := by
  obtain ⟨C, h1, h2⟩ := (compound_correct (· + ·) (A := A) hA.1 B.view hB.some).1
    ⟨hA.2.1.trans hB.2.1.symm, hA.2.2.1.trans hB.2.2.1.symm⟩
  have hr : A.rows = m := hA.2.1
  have hc : A.cols = n := hA.2.2.1
  refine ⟨C, h1, by rw [h2.size, h2.rows, h2.cols], h2.rows.trans hr, h2.cols.trans hc, fun i j => ?_⟩
  obtain ⟨a, ha, ea⟩ := hA.2.2.2 i j
  obtain ⟨b, hb, eb⟩ := hB.2.2.2 i j
  obtain ⟨v, hv, hg⟩ := h2.get i j (by rw [hr]; exact i.2) (by rw [hc]; exact j.2)
  have ha' : A.get (i : ℕ) (j : ℕ) = some a := ha
  rw [ha', hb] at hv
  obtain rfl : a + b = v := Option.some_injective _ hv
  exact ⟨_, hg, by rw [hev.add, ea, eb]; rfl⟩

theorem ofDiagonal_is (hev : Reals ev) (n : ℕ) (c : α) :
    ∃ C, Mat.ofDiagonal 0 (List.replicate n c) = some C ∧ C.Is ev (ev c • (1 : Matrix (Fin n) (Fin n) ℝ)) := by
  obtain ⟨C, h1, h2⟩ := ofDiagonal_correct 0 (List.replicate n c)
  rw [List.length_replicate] at h2
  refine ⟨C, h1, by rw [h2.size, h2.rows, h2.cols], h2.rows, h2.cols, fun i j => ?_⟩
  obtain ⟨v, hv, hg⟩ := h2.get i j i.2 j.2
  refine ⟨v, hg, ?_⟩
  by_cases hij : i = j
  · subst hij
    rw [if_pos rfl, List.getElem?_replicate, if_pos i.2] at hv
    obtain rfl : c = v := Option.some_injective _ hv
    simp
  · rw [if_neg fun h => hij (Fin.ext h)] at hv
    obtain rfl : (0 : α) = v := Option.some_injective _ hv
    simp [hev.zero, hij]

/-- The values of the transposed polynomials that `exp()` computes. -/
theorem expParts_is (hev : Reals ev) {A : Mat α} {M : Matrix (Fin n) (Fin n) ℝ} (hA : A.Is ev M) {p q : List α}
    (hp : p ≠ []) (hl : p.length = q.length) :
    ∃ Qt Pt, A.expParts p q = some (Qt, Pt) ∧ Qt.Is ev (evalR M (q.map ev))ᵀ ∧ Pt.Is ev (evalR M (p.map ev))ᵀ := by
  match p, q, hp, hl with
  | p0 :: p, q0 :: q, _, hl =>
    have hr : A.rows = n := hA.2.1
    have hc : A.cols = n := hA.2.2.1
    obtain ⟨P0, eP, vP⟩ := ofDiagonal_is hev n p0
    obtain ⟨Q0, eQ, vQ⟩ := ofDiagonal_is hev n q0
    have loop : ∀ (p q : List α), p.length = q.length → ∀ (P Q pow : Mat α) (MP MQ MA : Matrix (Fin n) (Fin n) ℝ),
        P.Is ev MP → Q.Is ev MQ → pow.Is ev MA →
        ∃ P' Q' pow', (p.zip q).foldlM (fun (st : Mat α × Mat α × Mat α) c => do
          let pA ← map (· * c.1) st.2.2.view
          let P ← st.1.compound (· + ·) pA.view
          let qA ← map (· * c.2) st.2.2.view
          let Q ← st.2.1.compound (· + ·) qA.view
          let pow ← mulAssign st.2.2 A.rows A.cols fun _ => A.get
          some (P, Q, pow)) (P, Q, pow) = some (P', Q', pow') ∧
        P'.Is ev (MP + MA * evalR M (p.map ev)) ∧ Q'.Is ev (MQ + MA * evalR M (q.map ev)) := by
      intro p
      induction p with
      | nil =>
        intro q hl P Q pow MP MQ MA h1 h2 h3
        obtain rfl : q = [] := List.eq_nil_of_length_eq_zero hl.symm
        exact ⟨P, Q, pow, rfl, by simpa [evalR] using h1, by simpa [evalR] using h2⟩
      | cons a p ih =>
        intro q hl P Q pow MP MQ MA h1 h2 h3
        match q, hl with
        | b :: q, hl =>
          obtain ⟨pA, e1, v1⟩ := smul_correct hev h3.2 a
          obtain ⟨P2, e2, v2⟩ := compound_add_is hev h1 v1
          obtain ⟨qA, e3, v3⟩ := smul_correct hev h3.2 b
          obtain ⟨Q2, e4, v4⟩ := compound_add_is hev h2 v3
          obtain ⟨pow2, e5, v5⟩ := mulAssign_correct hev h3 (B := A.view) hA.2
          obtain ⟨P', Q', pow', e6, v6, v7⟩ := ih q (by simpa using hl) P2 Q2 pow2 _ _ _ v2 v4 v5
          refine ⟨P', Q', pow', ?_, ?_, ?_⟩
          · rw [List.zip_cons_cons, List.foldlM_cons]
            simp only [e1, e2, e3, e4, Option.bind_eq_bind, Option.bind_some]
            rw [show mulAssign pow A.rows A.cols (fun _ => A.get) = some pow2 from e5]
            exact e6
          · have e : MP + ev a • MA + MA * M * evalR M (p.map ev) = MP + MA * evalR M ((a :: p).map ev) := by
              simp only [List.map_cons, evalR, mul_add, Matrix.mul_smul, Matrix.mul_one, Matrix.mul_assoc, add_assoc]
            rwa [e] at v6
          · have e : MQ + ev b • MA + MA * M * evalR M (q.map ev) = MQ + MA * evalR M ((b :: q).map ev) := by
              simp only [List.map_cons, evalR, mul_add, Matrix.mul_smul, Matrix.mul_one, Matrix.mul_assoc, add_assoc]
            rwa [e] at v7
    obtain ⟨P', Q', pow', e1, v1, v2⟩ := loop p q (by simpa using hl) P0 Q0 A _ _ _ vP vQ hA
    change P'.Is ev (evalR M ((p0 :: p).map ev)) at v1
    change Q'.Is ev (evalR M ((q0 :: q).map ev)) at v2
    obtain ⟨Qt, e2, v3⟩ := transpose_correct v2.2
    obtain ⟨Pt, e3, v4⟩ := transpose_correct v1.2
    refine ⟨Qt, Pt, ?_, v3, v4⟩
    unfold Mat.expParts
    rw [if_pos (hr.trans hc.symm)]
    simp only
    rw [hr, eP, eQ]
    simp only [Option.bind_eq_bind, Option.bind_some]
    rw [hr] at e1
    simp only [Option.bind_eq_bind] at e1
    rw [e1]
    simp only [Option.bind_some]
    rw [e2, e3]
    rfl

/-- `lu` solves the system of `exp()` of `A` at the values `ev`. -/
def LuSolvesFor (ev : α → ℝ) (lu : Mat α → Mat α → Option (Mat α)) (n : ℕ) (p q : List α) (A : Mat α) : Prop :=
  ∀ (Qt Pt : Mat α) (M N : Matrix (Fin n) (Fin n) ℝ), A.expParts p q = some (Qt, Pt) → Qt.Is ev M → Pt.Is ev N →
    M.det ≠ 0 → ∃ X, lu Qt Pt = some X ∧ X.Is ev (M⁻¹ * N)

omit [Sub α] [Div α] [Neg α] in
theorem LuSolves.for {lu : Mat α → Mat α → Option (Mat α)} (h : LuSolves ev lu) (p q : List α) (A : Mat α) :
    LuSolvesFor ev lu n p q A := fun Qt Pt M N _ h1 h2 h3 => h n Qt Pt M N h1 h2 h3

/-- The values of the matrices built by `exp()`, given that linear systems are solved: the transpose of the solution of
`Qᵀ Y = Pᵀ` for the polynomials `P` and `Q`. -/
theorem exp_quotient (hev : Reals ev) {lu : Mat α → Mat α → Option (Mat α)} {A : Mat α} {p q : List α}
    (hlu : LuSolvesFor ev lu n p q A)
    {M : Matrix (Fin n) (Fin n) ℝ} (hA : A.Is ev M) (hp : p ≠ []) (hl : p.length = q.length)
    (hQ : (evalR M (q.map ev)).det ≠ 0) :
    ∃ X, A.exp lu p q = some X ∧ ∃ N, X.Is ev N ∧ N * evalR M (q.map ev) = evalR M (p.map ev) := by
  obtain ⟨Qt, Pt, e1, v3, v4⟩ := expParts_is hev hA hp hl
  obtain ⟨X, e4, v5⟩ := hlu Qt Pt _ _ e1 v3 v4 (by rwa [det_transpose])
  obtain ⟨Y, e5, v6⟩ := transpose_correct v5.2
  refine ⟨Y, ?_, _, v6, ?_⟩
  · unfold Mat.exp
    rw [e1]
    show (lu Qt Pt).bind _ = _
    rw [e4]
    exact e5
  · have hu : IsUnit (evalR M (q.map ev)).det := isUnit_iff_ne_zero.2 hQ
    rw [transpose_mul, transpose_nonsing_inv, transpose_transpose, transpose_transpose, Matrix.mul_assoc,
      nonsing_inv_mul _ hu, Matrix.mul_one]

end Loop

/-! ### Accuracy -/

/-- How far the computed exponential may be from the exponential, for matrices whose rows have an absolute sum of at
most `r` and coefficients rounded with relative error `u`; `k` terms of series are used in the estimate. -/
theorem exp_close [Zero α] [Add α] [Sub α] [Mul α] [Div α] [Neg α] (hev : Reals ev)
    {lu : Mat α → Mat α → Option (Mat α)} {A : Mat α} {p q : List α} (hlu : LuSolvesFor ev lu n p q A)
    {M : Matrix (Fin n) (Fin n) ℝ} (hA : A.Is ev M) {u : ℝ} (hp : Rounded ev u p padeP) (hq : Rounded ev u q padeQ)
    {r : ℚ} (hr : 0 ≤ r) (hM : ∀ i, ∑ j, |M i j| ≤ r) {k : ℕ} (hk : r / (k + 1) ≤ 1 / 2)
    (hg : skew r k padeQ + u * normL r padeQ * expBound (1 / 2) r k < 1) :
    ∃ X N, A.exp lu p q = some X ∧ X.Is ev N ∧ ∀ i j, |N i j - NormedSpace.exp M i j| ≤
      (defect r k padeP padeQ + expBound 1 r k * (u * normL r padeQ) + u * normL r padeP) * expBound (1 / 2) r k /
        (1 - (skew r k padeQ + u * normL r padeQ * expBound (1 / 2) r k)) := by
  have hn := norm_le_of_rows (by exact_mod_cast hr) hM
  have e1 := norm_evalR_sub norm_one_le hn hp
  have e2 := norm_evalR_sub norm_one_le hn hq
  have hu := isUnit_denominator norm_one_le hn hk e2 hg
  have hlen := hp.length_eq.trans (show padeP.length = padeQ.length from rfl) |>.trans hq.length_eq.symm
  obtain ⟨X, h1, N, h2, h3⟩ := exp_quotient hev hlu hA (p := p) (q := q)
    (fun h => by have := hp.length_eq; rw [h] at this; simp [padeP] at this) hlen
    (isUnit_iff_ne_zero.1 ((isUnit_iff_isUnit_det _).1 hu))
  refine ⟨X, N, h1, h2, fun i j => ?_⟩
  rw [le_div_iff₀ (by linarith)]
  refine le_trans ?_ (norm_quotient norm_one_le hn hk e1 e2 h3)
  exact mul_le_mul_of_nonneg_right (entry_le_norm (N - NormedSpace.exp M) i j) (by linarith)

/-- C55: `exp()` of a matrix whose rows have absolute sums of at most 4, with coefficients rounded with a relative error
`u`, has elements within `2·10⁻¹⁷ + 4000u` of those of the exponential. -/
theorem matrix_exp_partial [Zero α] [Add α] [Sub α] [Mul α] [Div α] [Neg α] (hev : Reals ev)
    {lu : Mat α → Mat α → Option (Mat α)} {A : Mat α} {p q : List α} (hlu : LuSolvesFor ev lu n p q A)
    {M : Matrix (Fin n) (Fin n) ℝ} (hA : A.Is ev M) {u : ℝ} (hu0 : 0 ≤ u) (hu : u ≤ 1e-3) (hp : Rounded ev u p padeP)
    (hq : Rounded ev u q padeQ) (hM : ∀ i, ∑ j, |M i j| ≤ 4) :
    ∃ X N, A.exp lu p q = some X ∧ X.Is ev N ∧ ∀ i j, |N i j - NormedSpace.exp M i j| ≤ 2e-17 + 4000 * u := by
  have n1 : ((skew 4 60 padeQ : ℚ) : ℝ) ≤ ((84 / 1000 : ℚ) : ℝ) := by
    exact_mod_cast (by decide +kernel : skew 4 60 padeQ ≤ 84 / 1000)
  have n2 : ((normL 4 padeQ : ℚ) : ℝ) ≤ ((683 / 100 : ℚ) : ℝ) := by
    exact_mod_cast (by decide +kernel : normL 4 padeQ ≤ 683 / 100)
  have n3 : ((normL 4 padeP : ℚ) : ℝ) ≤ ((683 / 100 : ℚ) : ℝ) := by
    exact_mod_cast (by decide +kernel : normL 4 padeP ≤ 683 / 100)
  have n4 : ((expBound (1 / 2) 4 60 : ℚ) : ℝ) ≤ ((74 / 10 : ℚ) : ℝ) := by
    exact_mod_cast (by decide +kernel : expBound (1 / 2) 4 60 ≤ 74 / 10)
  have n5 : ((expBound 1 4 60 : ℚ) : ℝ) ≤ ((547 / 10 : ℚ) : ℝ) := by
    exact_mod_cast (by decide +kernel : expBound 1 4 60 ≤ 547 / 10)
  have n6 : ((defect 4 60 padeP padeQ : ℚ) : ℝ) ≤ ((13 / 10 ^ 19 : ℚ) : ℝ) := by
    exact_mod_cast (by decide +kernel : defect 4 60 padeP padeQ ≤ 13 / 10 ^ 19)
  have p2 : (0 : ℝ) ≤ ((normL 4 padeQ : ℚ) : ℝ) := by exact_mod_cast normL_nonneg (by norm_num) _
  have p4 : (0 : ℝ) ≤ ((expBound (1 / 2) 4 60 : ℚ) : ℝ) := by
    exact_mod_cast (by decide +kernel : 0 ≤ expBound (1 / 2) 4 60)
  push_cast at n1 n2 n3 n4 n5 n6
  have m1 : u * ((normL 4 padeQ : ℚ) : ℝ) ≤ u * (683 / 100) := mul_le_mul_of_nonneg_left n2 hu0
  have m2 : u * ((normL 4 padeQ : ℚ) : ℝ) * ((expBound (1 / 2) 4 60 : ℚ) : ℝ) ≤ u * (683 / 100) * (74 / 10) :=
    mul_le_mul m1 n4 p4 (by positivity)
  have m3 : u * ((normL 4 padeP : ℚ) : ℝ) ≤ u * (683 / 100) := mul_le_mul_of_nonneg_left n3 hu0
  have m4 : ((expBound 1 4 60 : ℚ) : ℝ) * (u * ((normL 4 padeQ : ℚ) : ℝ)) ≤ 547 / 10 * (u * (683 / 100)) :=
    mul_le_mul n5 m1 (mul_nonneg hu0 p2) (by norm_num)
  have hg : ((skew 4 60 padeQ : ℚ) : ℝ) + u * ((normL 4 padeQ : ℚ) : ℝ) * ((expBound (1 / 2) 4 60 : ℚ) : ℝ) ≤ 0.14 := by
    norm_num at hu ⊢
    linarith
  obtain ⟨X, N, h1, h2, h3⟩ := exp_close hev hlu hA hp hq (r := 4) (by norm_num) (by exact_mod_cast hM) (k := 60)
    (by norm_num) (lt_of_le_of_lt hg (by norm_num))
  refine ⟨X, N, h1, h2, fun i j => (h3 i j).trans ?_⟩
  rw [div_le_iff₀ (by linarith)]
  have m5 : (((defect 4 60 padeP padeQ : ℚ) : ℝ) + ((expBound 1 4 60 : ℚ) : ℝ) * (u * ((normL 4 padeQ : ℚ) : ℝ)) +
      u * ((normL 4 padeP : ℚ) : ℝ)) * ((expBound (1 / 2) 4 60 : ℚ) : ℝ) ≤
      (13 / 10 ^ 19 + 547 / 10 * (u * (683 / 100)) + u * (683 / 100)) * (74 / 10) :=
    mul_le_mul (by linarith) n4 p4 (by positivity)
  refine m5.trans ?_
  have m6 : (2e-17 + 4000 * u) * 0.86 ≤ (2e-17 + 4000 * u) * (1 - (((skew 4 60 padeQ : ℚ) : ℝ) +
      u * ((normL 4 padeQ : ℚ) : ℝ) * ((expBound (1 / 2) 4 60 : ℚ) : ℝ))) :=
    mul_le_mul_of_nonneg_left (by norm_num at hg ⊢; linarith) (by positivity)
  refine le_trans ?_ m6
  norm_num
  linarith

/-- C55: with rows of absolute sums of at most 1 the elements are within `10⁻³³ + 12u`. -/
theorem matrix_exp_small_partial [Zero α] [Add α] [Sub α] [Mul α] [Div α] [Neg α] (hev : Reals ev)
    {lu : Mat α → Mat α → Option (Mat α)} {A : Mat α} {p q : List α} (hlu : LuSolvesFor ev lu n p q A)
    {M : Matrix (Fin n) (Fin n) ℝ} (hA : A.Is ev M) {u : ℝ} (hu0 : 0 ≤ u) (hu : u ≤ 1e-3) (hp : Rounded ev u p padeP)
    (hq : Rounded ev u q padeQ) (hM : ∀ i, ∑ j, |M i j| ≤ 1) :
    ∃ X N, A.exp lu p q = some X ∧ X.Is ev N ∧ ∀ i j, |N i j - NormedSpace.exp M i j| ≤ 1e-33 + 12 * u := by
  have n1 : ((skew 1 60 padeQ : ℚ) : ℝ) ≤ ((51 / 10000 : ℚ) : ℝ) := by
    exact_mod_cast (by decide +kernel : skew 1 60 padeQ ≤ 51 / 10000)
  have n2 : ((normL 1 padeQ : ℚ) : ℝ) ≤ ((165 / 100 : ℚ) : ℝ) := by
    exact_mod_cast (by decide +kernel : normL 1 padeQ ≤ 165 / 100)
  have n3 : ((normL 1 padeP : ℚ) : ℝ) ≤ ((165 / 100 : ℚ) : ℝ) := by
    exact_mod_cast (by decide +kernel : normL 1 padeP ≤ 165 / 100)
  have n4 : ((expBound (1 / 2) 1 60 : ℚ) : ℝ) ≤ ((165 / 100 : ℚ) : ℝ) := by
    exact_mod_cast (by decide +kernel : expBound (1 / 2) 1 60 ≤ 165 / 100)
  have n5 : ((expBound 1 1 60 : ℚ) : ℝ) ≤ ((272 / 100 : ℚ) : ℝ) := by
    exact_mod_cast (by decide +kernel : expBound 1 1 60 ≤ 272 / 100)
  have n6 : ((defect 1 60 padeP padeQ : ℚ) : ℝ) ≤ ((13 / 10 ^ 35 : ℚ) : ℝ) := by
    exact_mod_cast (by decide +kernel : defect 1 60 padeP padeQ ≤ 13 / 10 ^ 35)
  have p2 : (0 : ℝ) ≤ ((normL 1 padeQ : ℚ) : ℝ) := by exact_mod_cast normL_nonneg (by norm_num) _
  have p4 : (0 : ℝ) ≤ ((expBound (1 / 2) 1 60 : ℚ) : ℝ) := by
    exact_mod_cast (by decide +kernel : 0 ≤ expBound (1 / 2) 1 60)
  push_cast at n1 n2 n3 n4 n5 n6
  have m1 : u * ((normL 1 padeQ : ℚ) : ℝ) ≤ u * (165 / 100) := mul_le_mul_of_nonneg_left n2 hu0
  have m2 : u * ((normL 1 padeQ : ℚ) : ℝ) * ((expBound (1 / 2) 1 60 : ℚ) : ℝ) ≤ u * (165 / 100) * (165 / 100) :=
    mul_le_mul m1 n4 p4 (by positivity)
  have m3 : u * ((normL 1 padeP : ℚ) : ℝ) ≤ u * (165 / 100) := mul_le_mul_of_nonneg_left n3 hu0
  have m4 : ((expBound 1 1 60 : ℚ) : ℝ) * (u * ((normL 1 padeQ : ℚ) : ℝ)) ≤ 272 / 100 * (u * (165 / 100)) :=
    mul_le_mul n5 m1 (mul_nonneg hu0 p2) (by norm_num)
  have hg : ((skew 1 60 padeQ : ℚ) : ℝ) + u * ((normL 1 padeQ : ℚ) : ℝ) * ((expBound (1 / 2) 1 60 : ℚ) : ℝ) ≤ 0.01 := by
    norm_num at hu ⊢
    linarith
  obtain ⟨X, N, h1, h2, h3⟩ := exp_close hev hlu hA hp hq (r := 1) (by norm_num) (by exact_mod_cast hM) (k := 60)
    (by norm_num) (lt_of_le_of_lt hg (by norm_num))
  refine ⟨X, N, h1, h2, fun i j => (h3 i j).trans ?_⟩
  rw [div_le_iff₀ (by linarith)]
  have m5 : (((defect 1 60 padeP padeQ : ℚ) : ℝ) + ((expBound 1 1 60 : ℚ) : ℝ) * (u * ((normL 1 padeQ : ℚ) : ℝ)) +
      u * ((normL 1 padeP : ℚ) : ℝ)) * ((expBound (1 / 2) 1 60 : ℚ) : ℝ) ≤
      (13 / 10 ^ 35 + 272 / 100 * (u * (165 / 100)) + u * (165 / 100)) * (165 / 100) :=
    mul_le_mul (by linarith) n4 p4 (by positivity)
  refine m5.trans ?_
  have m6 : (1e-33 + 12 * u) * 0.99 ≤ (1e-33 + 12 * u) * (1 - (((skew 1 60 padeQ : ℚ) : ℝ) +
      u * ((normL 1 padeQ : ℚ) : ℝ) * ((expBound (1 / 2) 1 60 : ℚ) : ℝ))) :=
    mul_le_mul_of_nonneg_left (by norm_num at hg ⊢; linarith) (by positivity)
  refine le_trans ?_ m6
  norm_num
  linarith

/-- C55: `exp()` of a block is as accurate, and is the exponential of the elements the block names. -/
theorem block_exp_partial [Zero α] [Add α] [Sub α] [Mul α] [Div α] [Neg α] (hev : Reals ev)
    {lu : Mat α → Mat α → Option (Mat α)} (hlu : LuSolves ev lu) {A : Mat α} {b : Block}
    {M : Matrix (Fin n) (Fin n) ℝ} (hb : (b.view A).Is ev M) {u : ℝ} (hu0 : 0 ≤ u) (hu : u ≤ 1e-3) {p q : List α}
    (hp : Rounded ev u p padeP) (hq : Rounded ev u q padeQ) (hM : ∀ i, ∑ j, |M i j| ≤ 4) :
    ∃ X N, b.exp lu p q A = some X ∧ X.Is ev N ∧ ∀ i j, |N i j - NormedSpace.exp M i j| ≤ 2e-17 + 4000 * u := by
  obtain ⟨r, c, g⟩ := hb
  obtain ⟨B, e1, h1⟩ := ofView_correct (b.view A) fun i j hi hj => by
    obtain ⟨a, ha, -⟩ := g ⟨i, by rw [← r]; exact hi⟩ ⟨j, by rw [← c]; exact hj⟩
    rw [show (b.view A).get i j = _ from ha]; rfl
  have hB : B.Is ev M := by
    refine ⟨by rw [h1.size, h1.rows, h1.cols], h1.rows.trans r, h1.cols.trans c, fun i j => ?_⟩
    obtain ⟨a, ha, ea⟩ := g i j
    obtain ⟨v, hv, hg⟩ := h1.get i j (by rw [r]; exact i.2) (by rw [c]; exact j.2)
    rw [ha] at hv
    exact ⟨v, hg, by rw [← Option.some_injective _ hv]; exact ea⟩
  obtain ⟨X, N, h2, h3⟩ := matrix_exp_partial hev (hlu.for p q B) hB hu0 hu hp hq hM
  exact ⟨X, N, by rw [Block.exp, e1]; exact h2, h3⟩

/-- The value of a polynomial at a number. -/
def hornerL (x : ℚ) : List ℚ → ℚ
  | [] => 0
  | a :: l => a + x * hornerL x l

theorem evalL_scalar {x : ℚ} {M : Matrix (Fin 1) (Fin 1) ℝ} (hM : M 0 0 = x) (l : List ℚ) :
    evalL M l 0 0 = (hornerL x l : ℚ) := by
  induction l with
  | nil => simp [evalL, hornerL]
  | cons a l ih =>
    rw [evalL, hornerL, Matrix.add_apply, Matrix.mul_apply, Fin.sum_univ_one, ih, hM, Matrix.smul_apply]
    push_cast
    simp

/-- C55 is false for larger matrices: `exp()` of the matrix `[20]` is negative, while the exponential exceeds
`4·10⁸`. -/
theorem exp_wrong [Zero α] [Add α] [Sub α] [Mul α] [Div α] [Neg α] (hev : Reals ev)
    {lu : Mat α → Mat α → Option (Mat α)} (hlu : LuSolves ev lu) {A : Mat α}
    {M : Matrix (Fin 1) (Fin 1) ℝ} (hA : A.Is ev M) (h20 : M 0 0 = 20) {u : ℝ} (hu : u ≤ 1e-9)
    {p q : List α} (hp : Rounded ev u p padeP) (hq : Rounded ev u q padeQ) :
    ∃ X, ∃ N : Matrix (Fin 1) (Fin 1) ℝ, A.exp lu p q = some X ∧ X.Is ev N ∧ N 0 0 < -10 ^ 7 ∧
      4 * 10 ^ 8 < NormedSpace.exp M 0 0 := by
  have hM : ‖M‖ ≤ (20 : ℚ) := by
    refine norm_le_of_rows (by norm_num) fun i => ?_
    rw [Fin.sum_univ_one, Subsingleton.elim i 0, h20]
    norm_num
  have hM' : M 0 0 = ((20 : ℚ) : ℝ) := by rw [h20]; norm_num
  have e1 := (entry_le_norm _ 0 0).trans (norm_evalR_sub norm_one_le hM hp)
  have e2 := (entry_le_norm _ 0 0).trans (norm_evalR_sub norm_one_le hM hq)
  rw [Matrix.sub_apply, evalL_scalar hM'] at e1 e2
  have n1 : ((normL 20 padeP : ℚ) : ℝ) ≤ ((3434 : ℚ) : ℝ) := by
    exact_mod_cast (by decide +kernel : normL 20 padeP ≤ 3434)
  have n2 : ((normL 20 padeQ : ℚ) : ℝ) ≤ ((3434 : ℚ) : ℝ) := by
    exact_mod_cast (by decide +kernel : normL 20 padeQ ≤ 3434)
  have n3 : ((3433 : ℚ) : ℝ) ≤ ((hornerL 20 padeP : ℚ) : ℝ) := by
    exact_mod_cast (by decide +kernel : 3433 ≤ hornerL 20 padeP)
  have n4 : ((hornerL 20 padeQ : ℚ) : ℝ) ≤ ((-27 / 10 ^ 5 : ℚ) : ℝ) := by
    exact_mod_cast (by decide +kernel : hornerL 20 padeQ ≤ -27 / 10 ^ 5)
  have n5 : ((-28 / 10 ^ 5 : ℚ) : ℝ) ≤ ((hornerL 20 padeQ : ℚ) : ℝ) := by
    exact_mod_cast (by decide +kernel : -28 / 10 ^ 5 ≤ hornerL 20 padeQ)
  push_cast at n1 n2 n3 n4 n5
  have p1 : (0 : ℝ) ≤ ((normL 20 padeP : ℚ) : ℝ) := by exact_mod_cast normL_nonneg (by norm_num) _
  have p2 : (0 : ℝ) ≤ ((normL 20 padeQ : ℚ) : ℝ) := by exact_mod_cast normL_nonneg (by norm_num) _
  have m1 : u * ((normL 20 padeP : ℚ) : ℝ) ≤ 1e-9 * 3434 := mul_le_mul hu n1 p1 (by norm_num)
  have m2 : u * ((normL 20 padeQ : ℚ) : ℝ) ≤ 1e-9 * 3434 := mul_le_mul hu n2 p2 (by norm_num)
  obtain ⟨a1, a2⟩ := abs_le.1 (e1.trans m1)
  obtain ⟨b1, b2⟩ := abs_le.1 (e2.trans m2)
  have q1 : evalR M (q.map ev) 0 0 < -26 / 10 ^ 5 := by
    norm_num at *
    linarith
  have q2 : -29 / 10 ^ 5 < evalR M (q.map ev) 0 0 := by
    norm_num at *
    linarith
  have p3 : 3432 < evalR M (p.map ev) 0 0 := by
    norm_num at *
    linarith
  obtain ⟨X, h1, N, h2, h3⟩ := exp_quotient hev (hlu.for p q A) hA (p := p) (q := q)
    (fun h => by have := hp.length_eq; rw [h] at this; simp [padeP] at this)
    (hp.length_eq.trans (show padeP.length = padeQ.length from rfl) |>.trans hq.length_eq.symm)
    (by rw [det_fin_one]; norm_num at q1; intro h; linarith)
  refine ⟨X, N, h1, h2, ?_, ?_⟩
  · have h4 := congrFun (congrFun h3 0) 0
    rw [Matrix.mul_apply, Fin.sum_univ_one] at h4
    by_contra h5
    push Not at h5
    norm_num at q1 q2 h5
    nlinarith
  · have hd : M = diagonal fun _ => 20 := by
      ext i j
      rw [Subsingleton.elim i 0, Subsingleton.elim j 0, diagonal_apply_eq, h20]
    rw [hd, Matrix.exp_diagonal, diagonal_apply_eq, Pi.coe_exp, ← Real.exp_eq_exp_ℝ]
    have h5 : (2.7 : ℝ) ^ 20 < Real.exp 1 ^ 20 :=
      pow_lt_pow_left₀ (lt_trans (by norm_num) Real.exp_one_gt_d9) (by norm_num) (by norm_num)
    rw [← Real.exp_nat_mul] at h5
    norm_num at h5 ⊢
    linarith

/-! ### Examples -/

/-- An element type: the real numbers with an exact linear solver. -/
noncomputable def realLu (A B : Mat ℝ) : Option (Mat ℝ) :=
  Mat.ofFnM A.rows B.cols fun i j =>
    if h : i < A.rows ∧ j < A.rows then
      some (((Matrix.of fun a b : Fin A.rows => (A.get (a : ℕ) (b : ℕ)).getD 0)⁻¹ *
        Matrix.of fun a b : Fin A.rows => (B.get (a : ℕ) (b : ℕ)).getD 0) ⟨i, h.1⟩ ⟨j, h.2⟩)
    else none

theorem realLu_solves : LuSolves id realLu := by
  intro n A B M N hA hB _
  obtain ⟨-, a1, a2, a3⟩ := hA
  obtain ⟨-, b1, b2, b3⟩ := hB
  have a1 : A.rows = n := a1
  subst a1
  have b2 : B.cols = A.rows := b2
  unfold realLu
  rw [b2]
  refine ofFnM_is fun i j => ⟨_, dif_pos ⟨i.2, j.2⟩, ?_⟩
  have e1 : (Matrix.of fun a b : Fin A.rows => (A.get (a : ℕ) (b : ℕ)).getD 0) = M := by
    funext a b
    obtain ⟨x, hx, e⟩ := a3 a b
    rw [Matrix.of_apply, show A.get (a : ℕ) (b : ℕ) = some x from hx]; exact e
  have e2 : (Matrix.of fun a b : Fin A.rows => (B.get (a : ℕ) (b : ℕ)).getD 0) = N := by
    funext a b
    obtain ⟨x, hx, e⟩ := b3 a b
    rw [Matrix.of_apply, show B.get (a : ℕ) (b : ℕ) = some x from hx]; exact e
  show id (_ : ℝ) = _
  rw [e1, e2, id]

theorem rounded_exact (l : List ℚ) : Rounded id 0 (l.map fun x : ℚ => (x : ℝ)) l := by
  rw [Rounded, List.forall₂_map_left_iff]
  exact List.forall₂_same.2 fun x _ => by simp

theorem reals_id : Reals (id : ℝ → ℝ) := ⟨rfl, fun _ _ => rfl, fun _ _ => rfl, fun _ _ => rfl, fun _ => rfl, fun _ _ _ => rfl⟩

example : ∃ X N, (⟨2, 2, [0, 1, -1, 0]⟩ : Mat ℝ).exp realLu (padeP.map fun x : ℚ => (x : ℝ)) (padeQ.map fun x : ℚ => (x : ℝ)) =
    some X ∧ X.Is id N ∧ ∀ i j, |N i j - NormedSpace.exp !![0, 1; -1, (0 : ℝ)] i j| ≤ 2e-17 + 4000 * 0 := by
  refine matrix_exp_partial reals_id (realLu_solves.for _ _ _) (M := !![0, 1; -1, (0 : ℝ)]) ⟨rfl, rfl, rfl, fun i j => ?_⟩ le_rfl (by norm_num) (rounded_exact _)
    (rounded_exact _) fun i => ?_
  · fin_cases i <;> fin_cases j <;> exact ⟨_, rfl, rfl⟩
  · fin_cases i <;> simp

example : ∃ b, Block.ofSlices 2 2 ⟨1, 2, 1⟩ ⟨0, 1, 1⟩ = some b ∧ ∃ X N,
    b.exp realLu (padeP.map fun x : ℚ => (x : ℝ)) (padeQ.map fun x : ℚ => (x : ℝ)) ⟨2, 2, [0, 1, -1, 0]⟩ = some X ∧
      X.Is id N ∧ ∀ i j, |N i j - NormedSpace.exp !![(-1 : ℝ)] i j| ≤ 2e-17 + 4000 * 0 := by
  refine ⟨_, rfl, block_exp_partial reals_id realLu_solves (M := !![(-1 : ℝ)]) ⟨rfl, rfl, fun i j => ?_⟩ le_rfl
    (by norm_num) (rounded_exact _) (rounded_exact _) fun i => ?_⟩
  · fin_cases i; fin_cases j; exact ⟨_, rfl, rfl⟩
  · fin_cases i; simp

example : ∃ X, ∃ N : Matrix (Fin 1) (Fin 1) ℝ,
    (⟨1, 1, [20]⟩ : Mat ℝ).exp realLu (padeP.map fun x : ℚ => (x : ℝ)) (padeQ.map fun x : ℚ => (x : ℝ)) = some X ∧
      X.Is id N ∧ N 0 0 < -10 ^ 7 ∧ 4 * 10 ^ 8 < NormedSpace.exp !![(20 : ℝ)] 0 0 :=
  exp_wrong reals_id realLu_solves (M := !![(20 : ℝ)])
    ⟨rfl, rfl, rfl, fun i j => ⟨20, by rw [Subsingleton.elim i 0, Subsingleton.elim j 0]; rfl,
      by rw [Subsingleton.elim i 0, Subsingleton.elim j 0]; rfl⟩⟩ rfl (by norm_num) (rounded_exact _) (rounded_exact _)

end Slp.VMat
