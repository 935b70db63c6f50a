import Verif.Matrix.QrModel
import Verif.Matrix.ArithProps
import Mathlib.Analysis.SpecialFunctions.Pow.NNReal
import Mathlib.LinearAlgebra.Matrix.NonsingularInverse
import Mathlib.Tactic.FieldSimp
import Mathlib.Tactic.LinearCombination

/-! Lemmas on Householder's QR decomposition of matrices of expressions. -/

namespace Slp.VMat

variable {α : Type} [Zero α] [Add α] [Sub α] [Mul α] [Div α] [Neg α]

/-- The operations that the QR decomposition needs beside those in `Reals`. -/
structure Reals.Sqrt (ev : α → ℝ) (one : α) (sqrt : α → α) : Prop extends Reals ev where
  one_eq : ev one = 1
  sqrt_eq : ∀ a, 0 ≤ ev a → ev (sqrt a) = √(ev a)

variable {ev now : α → ℝ} {one : α} {sqrt : α → α}

namespace Qr

theorem sum_ev (E : Reals ev) (f : ℕ → α) {a b : ℕ} :
    ev (sumFromTo f a b) = ∑ i ∈ Finset.Ico a b, ev (f i) := by
  rcases Nat.le_total b a with h | h
  · simp [sumFromTo, Nat.sub_eq_zero_of_le h, Finset.Ico_eq_empty_of_le h, E.zero]
  obtain ⟨n, rfl⟩ := Nat.exists_eq_add_of_le h
  rw [sumFromTo, Nat.add_sub_cancel_left]
  induction n with
  | zero => simp [E.zero]
  | succ n ih =>
    rw [List.range'_1_concat, List.foldl_append]
    simp only [List.foldl_cons, List.foldl_nil]
    rw [E.add, ih (Nat.le_add_right _ _), ← Nat.add_assoc, Finset.sum_Ico_succ_top (Nat.le_add_right _ _)]

/-- The vector of a reflector. -/
def vec (ev : α → ℝ) (k : ℕ) (h : Reflector α) (i : ℕ) : ℝ :=
  if i < k then 0 else if i = k then 1 else ev (h.essential i)

omit [Zero α] [Add α] [Sub α] [Mul α] [Div α] [Neg α] in
theorem sum_vec (k m : ℕ) (hk : k < m) (h : Reflector α) (g : ℕ → ℝ) :
    ∑ s ∈ Finset.range m, vec ev k h s * g s = g k + ∑ s ∈ Finset.Ico (k + 1) m, ev (h.essential s) * g s := by
  rw [Finset.range_eq_Ico, ← Finset.sum_Ico_consecutive _ (Nat.zero_le k) hk.le, Finset.sum_eq_zero, zero_add,
    Finset.sum_eq_sum_Ico_succ_bot hk]
  · congr 1
    · simp [vec]
    · apply Finset.sum_congr rfl
      intro s hs
      rw [Finset.mem_Ico] at hs
      rw [vec, if_neg (by omega), if_neg (by omega)]
  · intro s hs
    rw [Finset.mem_Ico] at hs
    rw [vec, if_pos hs.2, zero_mul]

theorem apply_real (E : Reals.Sqrt ev one sqrt) {m k : ℕ} (hk : k < m) {h : Reflector α}
    (h1 : m = k + 1 → ev h.tau = 0) (h2 : now h.tau = 0 → ev h.tau = 0) (a : ℕ → ℕ → α) (i j : ℕ) :
    ev (h.apply now one m k a i j) =
      ev (a i j) - ev h.tau * vec ev k h i * ∑ s ∈ Finset.range m, vec ev k h s * ev (a s j) := by
  unfold Reflector.apply
  split_ifs with hm ht
  · rw [h1 hm]
    simp only
    split_ifs
    · rw [E.mul, E.sub, E.one_eq, h1 hm]; ring
    · ring
  · rw [sum_vec k m hk]
    simp only
    split_ifs with c1 c2
    · simp [vec, c1]
    · rw [E.sub, E.mul, E.add, sum_ev E.toReals]
      simp only [E.mul]
      rw [vec, if_neg c1, if_pos c2]; ring
    · rw [E.sub, E.mul, E.mul, E.add, sum_ev E.toReals]
      simp only [E.mul]
      rw [vec, if_neg c1, if_neg c2]; ring
  · rw [h2 (by simpa using ht)]; ring

/-- What makes one step meaningful at the values `ev`: a column that was found finished still is, and the divisors of
a reflection are not zero. -/
def StepOk (now ev : α → ℝ) (sqrt : α → α) (m k : ℕ) (a : ℕ → ℕ → α) : Prop :=
  let h := makeHouseholder now sqrt m k a
  (now (sumFromTo (fun i => a i k * a i k) (k + 1) m) ≤ 0 → ∀ i, k < i → i < m → ev (a i k) = 0) ∧
    (¬ now (sumFromTo (fun i => a i k * a i k) (k + 1) m) ≤ 0 →
      ev h.beta ≠ 0 ∧ ev (a k k) ≠ ev h.beta ∧ now h.tau ≠ 0 ∧ m ≠ k + 1)

theorem reflector_real (E : Reals.Sqrt ev one sqrt) {m k : ℕ} (hk : k < m) (a : ℕ → ℕ → α)
    (ok : StepOk now ev sqrt m k a) :
    let h := makeHouseholder now sqrt m k a
    (m = k + 1 → ev h.tau = 0) ∧ (now h.tau = 0 → ev h.tau = 0) ∧
      ev h.tau * (ev h.tau * (∑ s ∈ Finset.range m, vec ev k h s * vec ev k h s) - 2) = 0 ∧
      ∀ i, i < m → ev (a i k) - ev h.tau * vec ev k h i * ∑ s ∈ Finset.range m, vec ev k h s * ev (a s k) =
        if i < k then ev (a i k) else if i = k then ev h.beta else 0 := by
  intro h
  by_cases hs : now (sumFromTo (fun i => a i k * a i k) (k + 1) m) ≤ 0
  · have e : h = ⟨fun _ => 0, 0, a k k⟩ := by
      show makeHouseholder now sqrt m k a = _
      simp only [makeHouseholder]
      rw [if_pos hs]
    have ht : ev h.tau = 0 := by rw [e]; exact E.zero
    refine ⟨fun _ => ht, fun _ => ht, by rw [ht]; ring, fun i hi => ?_⟩
    rw [ht, zero_mul, zero_mul, sub_zero]
    split_ifs with c1 c2
    · rfl
    · rw [e, c2]
    · exact ok.1 hs i (by omega) hi
  · obtain ⟨hb, hc, ht, hm⟩ := ok.2 hs
    change ev h.beta ≠ 0 at hb
    change ev (a k k) ≠ ev h.beta at hc
    change now h.tau ≠ 0 at ht
    set T : ℝ := ∑ s ∈ Finset.Ico (k + 1) m, ev (a s k) * ev (a s k) with hT
    have hT0 : 0 ≤ T := Finset.sum_nonneg fun _ _ => mul_self_nonneg _
    have eT : ev (sumFromTo (fun i => a i k * a i k) (k + 1) m) = T := by
      rw [sum_ev E.toReals]; simp only [E.mul]; rfl
    have hcb : ev (a k k - h.beta) ≠ 0 := by rw [E.sub]; exact sub_ne_zero.mpr hc
    have e1 : ev h.tau = (ev h.beta - ev (a k k)) / ev h.beta := by
      have : h.tau = (h.beta - a k k) / h.beta := by
        show (makeHouseholder now sqrt m k a).tau = ((makeHouseholder now sqrt m k a).beta - _) / (makeHouseholder now sqrt m k a).beta
        simp only [makeHouseholder]
        rw [if_neg hs]
      rw [this, E.div _ _ hb, E.sub]
    have e2 : ∀ i, ev (h.essential i) = ev (a i k) / (ev (a k k) - ev h.beta) := by
      intro i
      have : h.essential i = a i k / (a k k - h.beta) := by
        show (makeHouseholder now sqrt m k a).essential i = _ / (_ - (makeHouseholder now sqrt m k a).beta)
        simp only [makeHouseholder]
        rw [if_neg hs]
      rw [this, E.div _ _ hcb, E.sub]
    have e3 : ev h.beta * ev h.beta = ev (a k k) * ev (a k k) + T := by
      have hn : ev (sqrt (a k k * a k k + sumFromTo (fun i => a i k * a i k) (k + 1) m)) =
          √(ev (a k k) * ev (a k k) + T) := by
        rw [E.sqrt_eq, E.add, E.mul, eT]
        rw [E.add, E.mul, eT]
        have := mul_self_nonneg (ev (a k k))
        linarith
      have h0 : 0 ≤ ev (a k k) * ev (a k k) + T := by
        have := mul_self_nonneg (ev (a k k))
        linarith
      have : h.beta = if 0 ≤ now (a k k) then -sqrt (a k k * a k k + sumFromTo (fun i => a i k * a i k) (k + 1) m)
          else sqrt (a k k * a k k + sumFromTo (fun i => a i k * a i k) (k + 1) m) := by
        show (makeHouseholder now sqrt m k a).beta = _
        simp only [makeHouseholder]
        rw [if_neg hs]
      rw [this]
      split_ifs
      · rw [E.neg, hn, neg_mul_neg, Real.mul_self_sqrt h0]
      · rw [hn, Real.mul_self_sqrt h0]
    have hd : ev (a k k) - ev h.beta ≠ 0 := sub_ne_zero.mpr hc
    have s1 : ∑ s ∈ Finset.Ico (k + 1) m, ev (h.essential s) * ev (a s k) = T / (ev (a k k) - ev h.beta) := by
      rw [hT, Finset.sum_div]
      refine Finset.sum_congr rfl fun s _ => ?_
      rw [e2]; ring
    have s2 : ∑ s ∈ Finset.Ico (k + 1) m, ev (h.essential s) * vec ev k h s = T / (ev (a k k) - ev h.beta) ^ 2 := by
      rw [hT, Finset.sum_div]
      refine Finset.sum_congr rfl fun s hs => ?_
      rw [Finset.mem_Ico] at hs
      rw [vec, if_neg (by omega), if_neg (by omega), e2]
      field_simp
    refine ⟨fun h => absurd h hm, fun h => absurd h ht, ?_, fun i hi => ?_⟩
    · rw [sum_vec k m hk, s2, e1]
      have : vec ev k h k = 1 := by simp [vec]
      rw [this, show T = ev h.beta * ev h.beta - ev (a k k) * ev (a k k) by linarith]
      field_simp
      ring
    · rw [sum_vec k m hk, s1, e1]
      have hT' : T = ev h.beta * ev h.beta - ev (a k k) * ev (a k k) := by linarith
      split_ifs with c1 c2
      · simp [vec, c1]
      · subst c2
        have : vec ev i h i = 1 := by simp [vec]
        rw [this, hT']
        field_simp
        ring
      · rw [vec, if_neg c1, if_neg c2, e2, hT']
        field_simp
        ring

/-- The values of the first `m` rows and `n` columns. -/
def mat (ev : α → ℝ) (m n : ℕ) (a : ℕ → ℕ → α) : Matrix (Fin m) (Fin n) ℝ := Matrix.of fun i j => ev (a i j)

/-- The matrix of a reflection. -/
noncomputable def refl (t : ℝ) (m : ℕ) (v : ℕ → ℝ) : Matrix (Fin m) (Fin m) ℝ :=
  1 - Matrix.of fun i j : Fin m => t * v i * v j

theorem refl_mul (t : ℝ) (m n : ℕ) (v : ℕ → ℝ) (A : Matrix (Fin m) (Fin n) ℝ) (i : Fin m) (j : Fin n) :
    (refl t m v * A) i j = A i j - t * v i * ∑ s : Fin m, v s * A s j := by
  rw [refl, Matrix.sub_mul, Matrix.one_mul, Matrix.sub_apply, Matrix.mul_apply, Finset.mul_sum]
  congr 1
  refine Finset.sum_congr rfl fun s _ => ?_
  simp only [Matrix.of_apply]; ring

theorem refl_orthogonal {t : ℝ} {m : ℕ} {v : ℕ → ℝ}
    (h : t * (t * (∑ s ∈ Finset.range m, v s * v s) - 2) = 0) : (refl t m v).transpose * refl t m v = 1 := by
  have ht : (refl t m v).transpose = refl t m v := by
    rw [refl, Matrix.transpose_sub, Matrix.transpose_one]
    congr 1
    ext i j
    simp only [Matrix.transpose_apply, Matrix.of_apply]; ring
  rw [ht]
  ext i j
  rw [refl_mul]
  have e : ∀ s : Fin m, refl t m v s j = (1 : Matrix (Fin m) (Fin m) ℝ) s j - t * v s * v j := fun s => rfl
  simp only [e]
  have e2 : ∑ s : Fin m, v s * ((1 : Matrix (Fin m) (Fin m) ℝ) s j - t * v s * v j) =
      v j - t * v j * ∑ s ∈ Finset.range m, v s * v s := by
    simp only [mul_sub, Finset.sum_sub_distrib]
    congr 1
    · simp [Matrix.one_apply]
    · rw [← Fin.sum_univ_eq_sum_range (fun s => v s * v s), Finset.mul_sum]
      exact Finset.sum_congr rfl fun s _ => by ring
  rw [e2]
  linear_combination (v i * v j) * h

theorem apply_mat (E : Reals.Sqrt ev one sqrt) {m k : ℕ} (hk : k < m) {h : Reflector α}
    (h1 : m = k + 1 → ev h.tau = 0) (h2 : now h.tau = 0 → ev h.tau = 0) (p : ℕ) (a : ℕ → ℕ → α) :
    mat ev m p (h.apply now one m k a) = refl (ev h.tau) m (vec ev k h) * mat ev m p a := by
  ext i j
  rw [refl_mul]
  show ev (h.apply now one m k a i j) = _
  rw [apply_real E hk h1 h2 a i j, ← Fin.sum_univ_eq_sum_range (fun s => vec ev k h s * ev (a s j))]
  rfl

omit [Div α] [Neg α] in
theorem applyAll_concat (m : ℕ) (hs : List (Reflector α)) (h : Reflector α) (c : ℕ → ℕ → α) :
    applyAll now one m (hs ++ [h]) c = h.apply now one m hs.length (applyAll now one m hs c) := by
  simp [applyAll, List.zipIdx_append]

/-- The state after the first `K` columns. -/
noncomputable def upTo (now : α → ℝ) (one : α) (sqrt : α → α) (m K : ℕ) (a : ℕ → ℕ → α) :
    (ℕ → ℕ → α) × List (Reflector α) := (List.range K).foldl (qrColumn now one sqrt m) (a, [])

theorem upTo_succ (m K : ℕ) (a : ℕ → ℕ → α) :
    upTo now one sqrt m (K + 1) a = qrColumn now one sqrt m (upTo now one sqrt m K a) K := by
  simp [upTo, List.range_succ]

theorem upTo_length (m K : ℕ) (a : ℕ → ℕ → α) : (upTo now one sqrt m K a).2.length = K := by
  induction K with
  | zero => rfl
  | succ K ih => rw [upTo_succ]; simp [qrColumn, ih]

/-- The decomposition multiplies by an orthogonal matrix, and its reflectors do the same to right-hand sides. -/
theorem upTo_spec (E : Reals.Sqrt ev one sqrt) {m n : ℕ} (a : ℕ → ℕ → α) {K : ℕ} (hKm : K ≤ m) (hKn : K ≤ n)
    (ok : ∀ k < K, StepOk now ev sqrt m k (upTo now one sqrt m k a).1) :
    ∃ Q : Matrix (Fin m) (Fin m) ℝ, Q.transpose * Q = 1 ∧
      (∀ (i : Fin m) (j : Fin n), (Q * mat ev m n a) i j =
        if (j : ℕ) < K ∧ j.val < i.val then 0 else ev ((upTo now one sqrt m K a).1 i j)) ∧
      ∀ (p : ℕ) (c : ℕ → ℕ → α),
        mat ev m p (applyAll now one m (upTo now one sqrt m K a).2 c) = Q * mat ev m p c := by
  induction K with
  | zero =>
    refine ⟨1, by simp, fun i j => by simp [upTo, mat], fun p c => ?_⟩
    rw [Matrix.one_mul]; rfl
  | succ K ih =>
    obtain ⟨Q, hQ, hA, hc⟩ := ih (by omega) (by omega) fun k hk => ok k (by omega)
    have hkm : K < m := by omega
    obtain ⟨t1, t2, t3, t4⟩ := reflector_real E hkm _ (ok K (by omega))
    set s := upTo now one sqrt m K a with hs
    set h := makeHouseholder now sqrt m K s.1 with hh
    refine ⟨refl (ev h.tau) m (vec ev K h) * Q, ?_, fun i j => ?_, fun p c => ?_⟩
    · rw [Matrix.transpose_mul, Matrix.mul_assoc, ← Matrix.mul_assoc _ _ Q, refl_orthogonal t3, Matrix.one_mul, hQ]
    · rw [Matrix.mul_assoc, refl_mul, upTo_succ]
      -- the sum over rows only sees the rows from `K` on
      rcases Nat.lt_trichotomy j.val K with hj | hj | hj
      · have z : ∑ s_1 : Fin m, vec ev K h s_1 * (Q * mat ev m n a) s_1 j = 0 := by
          refine Finset.sum_eq_zero fun t _ => ?_
          rw [hA]
          by_cases ht : t.val < K
          · rw [vec, if_pos ht, zero_mul]
          · rw [if_pos ⟨hj, by omega⟩, mul_zero]
        rw [z, mul_zero, sub_zero, hA]
        simp only [qrColumn]
        rw [if_pos hj]
        simp only [hj, true_and, show (j : ℕ) < K + 1 by omega]
        rfl
      · have e : ∀ t : Fin m, (Q * mat ev m n a) t j = ev (s.1 t j) := fun t => by
          rw [hA, if_neg (by omega)]
        simp only [e]
        rw [Fin.sum_univ_eq_sum_range (fun t => vec ev K h t * ev (s.1 t j)), hj, t4 i i.2]
        simp only [qrColumn, lt_irrefl, if_false, if_true]
        rcases Nat.lt_trichotomy i.val K with hi | hi | hi
        · rw [if_pos hi, if_neg (by omega), if_pos hi]
        · rw [if_neg (by omega), if_pos hi, if_neg (by omega), if_neg (by omega), if_pos hi]
        · rw [if_neg (by omega), if_neg (by omega), if_pos (by omega)]
      · have e : ∀ t : Fin m, (Q * mat ev m n a) t j = ev (s.1 t j) := fun t => by
          rw [hA, if_neg (by omega)]
        simp only [e]
        rw [Fin.sum_univ_eq_sum_range (fun t => vec ev K h t * ev (s.1 t j)), ← apply_real E hkm t1 t2 s.1 i j,
          if_neg (by omega)]
        simp only [qrColumn]
        rw [if_neg (by omega), if_neg (by omega)]
    · rw [upTo_succ]
      simp only [qrColumn]
      rw [applyAll_concat, upTo_length, apply_mat E hkm t1 t2, hc, Matrix.mul_assoc]

/-- At the values that are looked at, all steps are meaningful. -/
theorem stepOk_now (E : Reals.Sqrt ev one sqrt) (m k : ℕ) (a : ℕ → ℕ → α) : StepOk ev ev sqrt m k a := by
  have eT : ev (sumFromTo (fun i => a i k * a i k) (k + 1) m) =
      ∑ s ∈ Finset.Ico (k + 1) m, ev (a s k) * ev (a s k) := by
    rw [sum_ev E.toReals]; simp only [E.mul]
  refine ⟨fun hs i hi hm => ?_, fun hs => ?_⟩
  · rw [eT] at hs
    have h0 := (Finset.sum_eq_zero_iff_of_nonneg fun s _ => mul_self_nonneg (ev (a s k))).mp
      (le_antisymm hs (Finset.sum_nonneg fun s _ => mul_self_nonneg _)) i (Finset.mem_Ico.mpr ⟨hi, hm⟩)
    exact mul_self_eq_zero.mp h0
  · set T := ev (sumFromTo (fun i => a i k * a i k) (k + 1) m) with hT
    have hT0 : 0 < T := lt_of_not_ge hs
    have h0 : 0 < ev (a k k) * ev (a k k) + T := by
      have := mul_self_nonneg (ev (a k k))
      linarith
    have hn : ev (sqrt (a k k * a k k + sumFromTo (fun i => a i k * a i k) (k + 1) m)) =
        √(ev (a k k) * ev (a k k) + T) := by
      have e : ev (a k k * a k k + sumFromTo (fun i => a i k * a i k) (k + 1) m) = ev (a k k) * ev (a k k) + T := by
        rw [E.add, E.mul]
      rw [E.sqrt_eq _ (by rw [e]; exact h0.le), e]
    have hr : |ev (a k k)| < √(ev (a k k) * ev (a k k) + T) := by
      rw [← Real.sqrt_sq_eq_abs]
      exact Real.sqrt_lt_sqrt (sq_nonneg _) (by rw [sq]; linarith)
    have hb : ev (makeHouseholder ev sqrt m k a).beta =
        if 0 ≤ ev (a k k) then -√(ev (a k k) * ev (a k k) + T) else √(ev (a k k) * ev (a k k) + T) := by
      simp only [makeHouseholder]
      rw [if_neg hs]
      split_ifs
      · rw [E.neg, hn]
      · rw [hn]
    have hp : 0 < √(ev (a k k) * ev (a k k) + T) := Real.sqrt_pos.mpr h0
    have hb0 : ev (makeHouseholder ev sqrt m k a).beta ≠ 0 := by
      rw [hb]; split_ifs <;> linarith
    have hbc : ev (a k k) ≠ ev (makeHouseholder ev sqrt m k a).beta := by
      rw [hb]
      split_ifs with c
      · intro e; linarith
      · intro e
        have := le_abs_self (ev (a k k))
        rw [← e] at hr
        linarith
    refine ⟨hb0, hbc, ?_, ?_⟩
    · have : (makeHouseholder ev sqrt m k a).tau =
          ((makeHouseholder ev sqrt m k a).beta - a k k) / (makeHouseholder ev sqrt m k a).beta := by
        simp only [makeHouseholder]
        rw [if_neg hs]
      rw [this, E.div _ _ hb0, E.sub]
      exact div_ne_zero (sub_ne_zero.mpr hbc.symm) hb0
    · rintro rfl
      rw [eT] at hT
      simp at hT
      linarith

/-- Back substitution solves the triangular system. -/
theorem backSubstitute_spec (E : Reals ev) {r : ℕ} (R c : ℕ → ℕ → α) (hR : ∀ i < r, ev (R i i) ≠ 0) (j : ℕ) :
    ∀ i < r, ∑ t ∈ Finset.Ico i r, ev (R i t) * ev (backSubstitute r R c t j) = ev (c i j) := by
  have key : ∀ d ≤ r, ∀ x : ℕ → ℕ → α, x = ((List.range' (r - d) d).reverse.foldl
      (fun x i i' j => if i' = i then (x i j - sumFromTo (fun t => R i t * x t j) (i + 1) r) / R i i else x i' j) c) →
      (∀ i < r - d, x i j = c i j) ∧
        ∀ i, r - d ≤ i → i < r → ∑ t ∈ Finset.Ico i r, ev (R i t) * ev (x t j) = ev (c i j) := by
    intro d
    induction d with
    | zero =>
      rintro - x rfl
      exact ⟨fun i _ => rfl, fun i h1 h2 => by omega⟩
    | succ d ih =>
      intro hd x hx
      have e : List.range' (r - (d + 1)) (d + 1) = (r - (d + 1)) :: List.range' (r - d) d := by
        rw [List.range'_succ]; congr 2; omega
      rw [e, List.reverse_cons, List.foldl_append] at hx
      obtain ⟨p1, p2⟩ := ih (by omega) _ rfl
      set y := (List.range' (r - d) d).reverse.foldl
        (fun x i i' j => if i' = i then (x i j - sumFromTo (fun t => R i t * x t j) (i + 1) r) / R i i else x i' j) c
      simp only [List.foldl_cons, List.foldl_nil] at hx
      set k := r - (d + 1) with hk
      have xk : x k j = (y k j - sumFromTo (fun t => R k t * y t j) (k + 1) r) / R k k := by rw [hx]; simp
      have xo : ∀ i, i ≠ k → x i j = y i j := fun i hi => by rw [hx]; simp [hi]
      refine ⟨fun i hi => by rw [xo i (by omega), p1 i (by omega)], fun i h1 h2 => ?_⟩
      rcases Nat.eq_or_lt_of_le h1 with rfl | h3
      · rw [Finset.sum_eq_sum_Ico_succ_bot h2, xk, E.div _ _ (hR _ h2), E.sub, sum_ev E, p1 _ (by omega)]
        simp only [E.mul]
        have : ∑ t ∈ Finset.Ico (k + 1) r, ev (R k t) * ev (x t j) = ∑ t ∈ Finset.Ico (k + 1) r, ev (R k t) * ev (y t j) :=
          Finset.sum_congr rfl fun t ht => by
            rw [Finset.mem_Ico] at ht
            rw [xo t (by omega)]
        rw [this]
        have := hR _ h2
        field_simp
        ring
      · rw [← p2 i (by omega) h2]
        refine Finset.sum_congr rfl fun t ht => ?_
        rw [Finset.mem_Ico] at ht
        rw [xo t (by omega)]
  have := (key r le_rfl (backSubstitute r R c) (by
    rw [Nat.sub_self, ← List.range_eq_range']; rfl)).2
  exact fun i hi => this i (by omega) hi

end Qr

end Slp.VMat
