import Mathlib.Analysis.Normed.Algebra.Exponential
import Mathlib.Analysis.SpecialFunctions.Exponential
import Mathlib.Analysis.Complex.ExponentialBounds
import Mathlib.Tactic.NormNum
import Mathlib.Tactic.Linarith
import Mathlib.Tactic.NoncommRing

/-! Polynomials with rational coefficients in a normed algebra, and how close a quotient of two of them is to the
exponential, for C55. -/

namespace Slp.Pade

/-- The sum of two polynomials. -/
def addL : List ℚ → List ℚ → List ℚ
  | [], m => m
  | l, [] => l
  | a :: l, b :: m => (a + b) :: addL l m

/-- A multiple of a polynomial. -/
def smulL (a : ℚ) (l : List ℚ) : List ℚ := l.map (a * ·)

/-- The product of two polynomials. -/
def mulL : List ℚ → List ℚ → List ℚ
  | [], _ => []
  | a :: l, m => addL (smulL a m) (0 :: mulL l m)

/-- `Σ |cₖ| rᵏ`. -/
def normL (r : ℚ) : List ℚ → ℚ
  | [] => 0
  | a :: l => |a| + r * normL r l

/-- The Taylor polynomial of `exp(s z)` with `n` terms after `k` terms, the first of them `c`. -/
def taylorL (s : ℚ) : ℕ → ℕ → ℚ → List ℚ
  | 0, _, _ => []
  | n + 1, k, c => c :: taylorL s n (k + 1) (c * s / (k + 1))

variable {𝔸 : Type*} [NormedRing 𝔸] [NormedAlgebra ℝ 𝔸]

/-- The value of a polynomial. -/
noncomputable def evalL (A : 𝔸) : List ℚ → 𝔸
  | [] => 0
  | a :: l => (a : ℝ) • (1 : 𝔸) + A * evalL A l

theorem evalL_add (A : 𝔸) (l m : List ℚ) : evalL A (addL l m) = evalL A l + evalL A m := by
  induction l generalizing m with
  | nil => simp [addL, evalL]
  | cons a l ih =>
    cases m with
    | nil => simp [addL, evalL]
    | cons b m =>
      simp only [addL, evalL, ih, mul_add, Rat.cast_add, add_smul]
      abel

theorem evalL_smul (A : 𝔸) (a : ℚ) (l : List ℚ) : evalL A (smulL a l) = (a : ℝ) • evalL A l := by
  induction l with
  | nil => simp [smulL, evalL]
  | cons b l ih =>
    have : evalL A (l.map (a * ·)) = (a : ℝ) • evalL A l := ih
    simp only [smulL, List.map_cons, evalL, this, smul_add, mul_smul_comm, Rat.cast_mul, mul_smul]

theorem evalL_mul (A : 𝔸) (l m : List ℚ) : evalL A (mulL l m) = evalL A l * evalL A m := by
  induction l with
  | nil => simp [mulL, evalL]
  | cons a l ih =>
    simp only [mulL, evalL_add, evalL_smul, evalL, ih, add_mul, mul_assoc]
    simp

theorem commute_evalL {A B : 𝔸} (h : Commute A B) (l : List ℚ) : Commute (evalL A l) B := by
  induction l with
  | nil => exact Commute.zero_left _
  | cons a l ih => exact ((Commute.one_left B).smul_left _).add_left (h.mul_left ih)

theorem normL_nonneg {r : ℚ} (hr : 0 ≤ r) (l : List ℚ) : 0 ≤ normL r l := by
  induction l with
  | nil => exact le_rfl
  | cons a l ih => exact add_nonneg (abs_nonneg _) (mul_nonneg hr ih)

/-- The norm of the value of a polynomial. -/
theorem norm_evalL (h1 : ‖(1 : 𝔸)‖ ≤ 1) {A : 𝔸} {r : ℚ} (hA : ‖A‖ ≤ r) (l : List ℚ) :
    ‖evalL A l‖ ≤ (normL r l : ℚ) := by
  have hr : (0 : ℝ) ≤ r := (norm_nonneg _).trans hA
  induction l with
  | nil => simp [evalL, normL]
  | cons a l ih =>
    simp only [evalL, normL, Rat.cast_add, Rat.cast_mul, Rat.cast_abs]
    refine (norm_add_le _ _).trans (add_le_add ?_ ?_)
    · rw [norm_smul, Real.norm_eq_abs]
      exact mul_le_of_le_one_right (abs_nonneg _) h1
    · exact (norm_mul_le _ _).trans (mul_le_mul hA ih (norm_nonneg _) hr)

theorem evalL_taylor (A : 𝔸) (s : ℚ) (n k : ℕ) (c : ℚ) :
    evalL A (taylorL s n k c) =
      ∑ i ∈ Finset.range n, ((c : ℝ) * s ^ i * k.factorial / (k + i).factorial) • A ^ i := by
  induction n generalizing k c with
  | zero => simp [taylorL, evalL]
  | succ n ih =>
    rw [taylorL, evalL, ih, Finset.sum_range_succ', add_comm, Finset.mul_sum]
    congr 1
    · refine Finset.sum_congr rfl fun i _ => ?_
      rw [mul_smul_comm, ← pow_succ']
      congr 1
      have e : k + 1 + i = k + (i + 1) := by ring
      have h1 : ((k : ℝ) + 1) ≠ 0 := by positivity
      rw [e, Nat.factorial_succ k]
      push_cast
      field_simp
      ring
    · have : (k.factorial : ℝ) ≠ 0 := by positivity
      simp [this]

variable [CompleteSpace 𝔸]

/-- The remainder of the exponential series. -/
theorem norm_exp_sub_taylor (h1 : ‖(1 : 𝔸)‖ ≤ 1) {A : 𝔸} {r s : ℚ} (hs : 0 ≤ s) (hA : ‖A‖ ≤ r) {n : ℕ}
    (hn : s * r / (n + 1) ≤ 1 / 2) :
    ‖NormedSpace.exp ((s : ℝ) • A) - evalL A (taylorL s n 0 1)‖ ≤ ((s * r) ^ n / n.factorial * 2 : ℚ) := by
  have hr : (0 : ℝ) ≤ r := (norm_nonneg _).trans hA
  have hs' : (0 : ℝ) ≤ s := by exact_mod_cast hs
  have hterm : ∀ k, ‖((k.factorial : ℝ)⁻¹) • ((s : ℝ) • A) ^ k‖ ≤ ((s : ℝ) * r) ^ k / k.factorial := by
    intro k
    have hpow : ‖((s : ℝ) • A) ^ k‖ ≤ ((s : ℝ) * r) ^ k := by
      have hb : ‖(s : ℝ) • A‖ ≤ (s : ℝ) * r := by
        rw [norm_smul, Real.norm_eq_abs, abs_of_nonneg hs']
        exact mul_le_mul_of_nonneg_left hA hs'
      cases k with
      | zero => simpa using h1
      | succ k => exact (norm_pow_le' _ k.succ_pos).trans (pow_le_pow_left₀ (norm_nonneg _) hb _)
    rw [norm_smul, norm_inv, Real.norm_natCast, div_eq_inv_mul]
    exact mul_le_mul_of_nonneg_left hpow (by positivity)
  have hsum := NormedSpace.exp_series_hasSum_exp' (𝕂 := ℝ) ((s : ℝ) • A)
  have hreal : HasSum (fun k : ℕ => ((s : ℝ) * r) ^ k / k.factorial) (Real.exp (s * r)) := by
    have := NormedSpace.expSeries_div_hasSum_exp (𝔸 := ℝ) ((s : ℝ) * r)
    rwa [← Real.exp_eq_exp_ℝ] at this
  have e1 : evalL A (taylorL s n 0 1) = ∑ k ∈ Finset.range n, ((k.factorial : ℝ)⁻¹) • ((s : ℝ) • A) ^ k := by
    rw [evalL_taylor]
    refine Finset.sum_congr rfl fun i _ => ?_
    rw [smul_pow, smul_smul]
    congr 1
    simp [div_eq_inv_mul]
  have h2 := (hasSum_nat_add_iff' n).2 hsum
  have h3 := (hasSum_nat_add_iff' n).2 hreal
  rw [e1, ← h2.tsum_eq]
  refine (tsum_of_norm_bounded h3 fun k => hterm (k + n)).trans ?_
  have hx : ‖((s * r : ℝ) : ℂ)‖ / n.succ ≤ 1 / 2 := by
    rw [Complex.norm_real, Real.norm_eq_abs, abs_of_nonneg (mul_nonneg hs' hr)]
    have : ((s * r / (n + 1) : ℚ) : ℝ) ≤ ((1 / 2 : ℚ) : ℝ) := by exact_mod_cast hn
    push_cast at this
    simpa using this
  have h4 := Complex.exp_bound' hx
  rw [Complex.norm_real, Real.norm_eq_abs, abs_of_nonneg (mul_nonneg hs' hr)] at h4
  refine le_trans (le_abs_self _) ?_
  rw [← Real.norm_eq_abs, ← Complex.norm_real]
  push_cast at h4 ⊢
  exact h4

/-- The bound of `norm_exp_sub_taylor`. -/
def tail (s r : ℚ) (n : ℕ) : ℚ := (s * r) ^ n / n.factorial * 2

/-- A bound for the norm of `exp(s A)`. -/
def expBound (s r : ℚ) (n : ℕ) : ℚ := normL r (taylorL s n 0 1) + tail s r n

/-- A bound for `exp(A) Q - P`. -/
def defect (r : ℚ) (n : ℕ) (p q : List ℚ) : ℚ :=
  normL r (addL (mulL (taylorL 1 n 0 1) q) (smulL (-1) p)) + tail 1 r n * normL r q

/-- A bound for `Q exp(A/2) - 1`. -/
def skew (r : ℚ) (n : ℕ) (q : List ℚ) : ℚ :=
  normL r (addL (mulL q (taylorL (1 / 2) n 0 1)) [-1]) + normL r q * tail (1 / 2) r n

theorem norm_exp_le (h1 : ‖(1 : 𝔸)‖ ≤ 1) {A : 𝔸} {r s : ℚ} (hs : 0 ≤ s) (hA : ‖A‖ ≤ r) {n : ℕ}
    (hn : s * r / (n + 1) ≤ 1 / 2) : ‖NormedSpace.exp ((s : ℝ) • A)‖ ≤ (expBound s r n : ℚ) := by
  have h := norm_exp_sub_taylor h1 hs hA hn
  have h2 := norm_evalL h1 hA (taylorL s n 0 1)
  have := norm_add_le (NormedSpace.exp ((s : ℝ) • A) - evalL A (taylorL s n 0 1)) (evalL A (taylorL s n 0 1))
  rw [sub_add_cancel] at this
  rw [expBound, tail, Rat.cast_add]
  linarith

section Quotient

variable {A P Q : 𝔸} {p q : List ℚ} {r : ℚ} {n : ℕ} {δp δq : ℝ}

/-- How far `exp(A) Q` is from `P`. -/
theorem norm_defect (h1 : ‖(1 : 𝔸)‖ ≤ 1) (hA : ‖A‖ ≤ r) (hn : r / (n + 1) ≤ 1 / 2)
    (hP : ‖P - evalL A p‖ ≤ δp) (hQ : ‖Q - evalL A q‖ ≤ δq) :
    ‖NormedSpace.exp A * Q - P‖ ≤ defect r n p q + expBound 1 r n * δq + δp := by
  have hT := norm_exp_sub_taylor (s := 1) (n := n) h1 zero_le_one hA (by simpa using hn)
  have hE := norm_exp_le (s := 1) (n := n) h1 zero_le_one hA (by simpa using hn)
  rw [Rat.cast_one, one_smul] at hT hE
  have hq := norm_evalL h1 hA q
  have hd := norm_evalL h1 hA (addL (mulL (taylorL 1 n 0 1) q) (smulL (-1) p))
  rw [evalL_add, evalL_mul, evalL_smul] at hd
  have hτ : (0 : ℝ) ≤ (tail 1 r n : ℚ) := le_trans (norm_nonneg _) hT
  have e : NormedSpace.exp A * Q - P = (evalL A (taylorL 1 n 0 1) * evalL A q + ((-1 : ℚ) : ℝ) • evalL A p)
      + (NormedSpace.exp A - evalL A (taylorL 1 n 0 1)) * evalL A q + NormedSpace.exp A * (Q - evalL A q)
      - (P - evalL A p) := by
    push_cast
    rw [neg_one_smul]
    noncomm_ring
  rw [e, defect, Rat.cast_add, Rat.cast_mul]
  refine (norm_sub_le _ _).trans (add_le_add ((norm_add_le _ _).trans (add_le_add ((norm_add_le _ _).trans
    (add_le_add hd ?_)) ?_)) hP)
  · exact (norm_mul_le _ _).trans (mul_le_mul hT hq (norm_nonneg _) hτ)
  · exact (norm_mul_le _ _).trans (mul_le_mul hE hQ (norm_nonneg _) ((norm_nonneg _).trans hE))

/-- How far `Q exp(A/2)` is from one. -/
theorem norm_skew (h1 : ‖(1 : 𝔸)‖ ≤ 1) (hA : ‖A‖ ≤ r) (hn : r / (n + 1) ≤ 1 / 2) (hQ : ‖Q - evalL A q‖ ≤ δq) :
    ‖Q * NormedSpace.exp (((1 / 2 : ℚ) : ℝ) • A) - 1‖ ≤ skew r n q + δq * expBound (1 / 2) r n := by
  have hr : (0 : ℚ) ≤ r := by exact_mod_cast (norm_nonneg _).trans hA
  have hn' : 1 / 2 * r / ((n : ℚ) + 1) ≤ 1 / 2 := by
    refine le_trans ?_ hn
    gcongr
    linarith
  have hT := norm_exp_sub_taylor (s := 1 / 2) (n := n) h1 (by norm_num) hA hn'
  have hE := norm_exp_le (s := 1 / 2) (n := n) h1 (by norm_num) hA hn'
  have hq := norm_evalL h1 hA q
  have hd := norm_evalL h1 hA (addL (mulL q (taylorL (1 / 2) n 0 1)) [-1])
  rw [evalL_add, evalL_mul] at hd
  have e1 : evalL A [-1] = -1 := by simp [evalL]
  rw [e1] at hd
  have e : Q * NormedSpace.exp (((1 / 2 : ℚ) : ℝ) • A) - 1 = (evalL A q * evalL A (taylorL (1 / 2) n 0 1) + -1)
      + evalL A q * (NormedSpace.exp (((1 / 2 : ℚ) : ℝ) • A) - evalL A (taylorL (1 / 2) n 0 1))
      + (Q - evalL A q) * NormedSpace.exp (((1 / 2 : ℚ) : ℝ) • A) := by
    noncomm_ring
  rw [e, skew, Rat.cast_add, Rat.cast_mul]
  refine (norm_add_le _ _).trans (add_le_add ((norm_add_le _ _).trans (add_le_add hd ?_)) ?_)
  · exact (norm_mul_le _ _).trans (mul_le_mul hq hT (norm_nonneg _) ((norm_nonneg _).trans hq))
  · exact (norm_mul_le _ _).trans (mul_le_mul hQ hE (norm_nonneg _) ((norm_nonneg _).trans hQ))

/-- The distance of a quotient of polynomials from the exponential. -/
theorem norm_quotient (h1 : ‖(1 : 𝔸)‖ ≤ 1) (hA : ‖A‖ ≤ r) (hn : r / (n + 1) ≤ 1 / 2)
    (hP : ‖P - evalL A p‖ ≤ δp) (hQ : ‖Q - evalL A q‖ ≤ δq) {X : 𝔸} (hX : X * Q = P) :
    ‖X - NormedSpace.exp A‖ * (1 - (skew r n q + δq * expBound (1 / 2) r n)) ≤
      (defect r n p q + expBound 1 r n * δq + δp) * expBound (1 / 2) r n := by
  have hr : (0 : ℚ) ≤ r := by exact_mod_cast (norm_nonneg _).trans hA
  have hn' : 1 / 2 * r / ((n : ℚ) + 1) ≤ 1 / 2 := by
    refine le_trans ?_ hn
    gcongr
    linarith
  have hE := norm_exp_le (s := 1 / 2) (n := n) h1 (by norm_num) hA hn'
  have hd := norm_defect h1 hA hn hP hQ
  have hs := norm_skew h1 hA hn hQ
  set E := NormedSpace.exp A
  set H := NormedSpace.exp (((1 / 2 : ℚ) : ℝ) • A)
  have e : X - E = (P - E * Q) * H - (X - E) * (Q * H - 1) := by
    rw [← hX]; noncomm_ring
  have h2 : ‖X - E‖ ≤ (defect r n p q + expBound 1 r n * δq + δp) * expBound (1 / 2) r n +
      ‖X - E‖ * (skew r n q + δq * expBound (1 / 2) r n) := by
    conv_lhs => rw [e]
    refine (norm_sub_le _ _).trans (add_le_add ?_ ?_)
    · rw [norm_sub_rev] at hd
      exact (norm_mul_le _ _).trans (mul_le_mul hd hE (norm_nonneg _) ((norm_nonneg _).trans hd))
    · exact (norm_mul_le _ _).trans (mul_le_mul_of_nonneg_left hs (norm_nonneg _))
  linarith

/-- The denominator is invertible. -/
theorem isUnit_denominator (h1 : ‖(1 : 𝔸)‖ ≤ 1) (hA : ‖A‖ ≤ r) (hn : r / (n + 1) ≤ 1 / 2)
    (hQ : ‖Q - evalL A q‖ ≤ δq) (h : skew r n q + δq * expBound (1 / 2) r n < 1) : IsUnit Q := by
  have hs := (norm_skew h1 hA hn hQ).trans_lt h
  set H := NormedSpace.exp (((1 / 2 : ℚ) : ℝ) • A) with hH
  have hu : IsUnit (Q * H) := by
    have := isUnit_one_sub_of_norm_lt_one (x := 1 - Q * H) (by rwa [norm_sub_rev])
    rwa [sub_sub_cancel] at this
  have hHu : IsUnit H := by
    let _ : NormedAlgebra ℚ 𝔸 := NormedAlgebra.restrictScalars ℚ ℝ 𝔸
    exact NormedSpace.isUnit_exp _
  obtain ⟨u, hu⟩ := hu
  obtain ⟨v, hv⟩ := hHu
  refine ⟨u * v⁻¹, ?_⟩
  rw [Units.val_mul, hu, ← hv, Units.mul_inv_cancel_right]

end Quotient

end Slp.Pade
