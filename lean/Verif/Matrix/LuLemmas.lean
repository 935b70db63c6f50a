import Verif.Matrix.LuModel
import Verif.Matrix.QrProps

/-! Lemmas on the LU decomposition of matrices of expressions with partial pivoting. -/

namespace Slp.VMat

set_option linter.unusedSectionVars false

variable {α : Type} [Zero α] [Add α] [Sub α] [Mul α] [Div α] [Neg α]

/-- `abs` computes absolute values. -/
structure Reals.Abs (ev : α → ℝ) (abs : α → α) : Prop extends Reals ev where
  abs_eq : ∀ a, ev (abs a) = |ev a|

namespace Lu

variable {ev now : α → ℝ} {abs : α → α}

/-! ### The row of the largest element -/

theorem pivotRow_spec (E : Reals.Abs now abs) {n k : ℕ} (hk : k < n) (a : ℕ → ℕ → α) :
    (k ≤ pivotRow now abs n k a ∧ pivotRow now abs n k a < n) ∧
      ∀ i, k ≤ i → i < n → |now (a i k)| ≤ |now (a (pivotRow now abs n k a) k)| := by
  classical
  have key : ∀ d, k + d < n → ∀ b, b = (List.range' (k + 1) d).foldl
      (fun b i => if 0 ≤ now (abs (a i k) - abs (a b k)) then i else b) k →
      (k ≤ b ∧ b ≤ k + d) ∧ ∀ i, k ≤ i → i ≤ k + d → |now (a i k)| ≤ |now (a b k)| := by
    intro d
    induction d with
    | zero =>
      intro _ b hb
      have hb : b = k := hb
      rw [hb]
      exact ⟨⟨le_rfl, le_rfl⟩, fun i h1 h2 => by rw [show i = k by omega]⟩
    | succ d ih =>
      intro hd b hb
      obtain ⟨⟨h1, h2⟩, h3⟩ := ih (by omega) _ rfl
      rw [List.range'_concat, List.foldl_append] at hb
      set c := (List.range' (k + 1) d).foldl (fun b i => if 0 ≤ now (abs (a i k) - abs (a b k)) then i else b) k
      simp only [List.foldl_cons, List.foldl_nil, E.sub, E.abs_eq, sub_nonneg, one_mul] at hb
      split_ifs at hb with hc
      · subst hb
        refine ⟨⟨by omega, by omega⟩, fun i i1 i2 => ?_⟩
        rcases Nat.lt_or_ge i (k + d + 1) with h | h
        · exact (h3 i i1 (by omega)).trans hc
        · rw [show i = k + 1 + d by omega]
      · subst hb
        refine ⟨⟨by omega, by omega⟩, fun i i1 i2 => ?_⟩
        rcases Nat.lt_or_ge i (k + d + 1) with h | h
        · exact h3 i i1 (by omega)
        · rw [show i = k + 1 + d by omega]
          exact (not_le.1 hc).le
  obtain ⟨⟨h1, h2⟩, h3⟩ := key (n - (k + 1)) (by omega) _ rfl
  exact ⟨⟨h1, by unfold pivotRow; omega⟩, fun i i1 i2 => h3 i i1 (by omega)⟩

/-! ### Factors -/

/-- The product of the factors after `K` columns. -/
noncomputable def prod (ev : α → ℝ) (K : ℕ) (a : ℕ → ℕ → α) (i j : ℕ) : ℝ :=
  ∑ t ∈ Finset.range (Nat.min i K), ev (a i t) * (if t ≤ j then ev (a t j) else 0) +
    (if Nat.min i K ≤ j then ev (a i j) else 0)

theorem prod_lt {K i : ℕ} (h : i ≤ K) (a : ℕ → ℕ → α) (j : ℕ) : prod ev K a i j =
    ∑ t ∈ Finset.range i, ev (a i t) * (if t ≤ j then ev (a t j) else 0) + (if i ≤ j then ev (a i j) else 0) := by
  rw [prod, show Nat.min i K = i from Nat.min_eq_left h]

theorem prod_ge {K i : ℕ} (h : K ≤ i) (a : ℕ → ℕ → α) (j : ℕ) : prod ev K a i j =
    ∑ t ∈ Finset.range K, ev (a i t) * (if t ≤ j then ev (a t j) else 0) + (if K ≤ j then ev (a i j) else 0) := by
  rw [prod, show Nat.min i K = K from Nat.min_eq_right h]

theorem prod_swap {K b : ℕ} (hb : K ≤ b) (a : ℕ → ℕ → α) (i j : ℕ) :
    prod ev K (swapRows K b a) i j = if i = K then prod ev K a b j else if i = b then prod ev K a K j else prod ev K a i j := by
  have top : ∀ t, t < K → ∀ j, swapRows K b a t j = a t j := fun t ht j => by
    rw [swapRows, if_neg (by omega), if_neg (by omega)]
  rcases Nat.lt_or_ge i K with h | h
  · rw [if_neg (by omega), if_neg (by omega), prod_lt h.le, prod_lt h.le]
    simp only [top i h]
    congr 1
    refine Finset.sum_congr rfl fun t ht => ?_
    rw [Finset.mem_range] at ht
    rw [top t (by omega)]
  · rw [prod_ge h, prod_ge hb, prod_ge le_rfl, prod_ge h]
    have e : ∀ t ∈ Finset.range K, ev (swapRows K b a i t) * (if t ≤ j then ev (swapRows K b a t j) else 0) =
        ev (swapRows K b a i t) * (if t ≤ j then ev (a t j) else 0) := fun t ht => by
      rw [Finset.mem_range] at ht
      rw [top t ht]
    rw [Finset.sum_congr rfl e]
    simp only [swapRows]
    split_ifs <;> rfl

/-- What the elimination of column `k` needs at the values `ev`: the row that was chosen has an element that is not
zero. -/
def StepOk (now ev : α → ℝ) (abs : α → α) (n k : ℕ) (a : ℕ → ℕ → α) : Prop :=
  now (abs (a (pivotRow now abs n k a) k)) ≠ 0 ∧ ev (a (pivotRow now abs n k a) k) ≠ 0

theorem prod_step (E : Reals ev) {n k : ℕ} (s : (ℕ → ℕ → α) × List ℕ) (ok : StepOk now ev abs n k s.1) (i j : ℕ) :
    prod ev (k + 1) (luColumn now abs n s k).1 i j = prod ev k (swapRows k (pivotRow now abs n k s.1) s.1) i j := by
  obtain ⟨ok1, ok2⟩ := ok
  set b := pivotRow now abs n k s.1 with hb
  set a := swapRows k b s.1 with ha
  have hp : ev (a k k) ≠ 0 := by rw [ha, swapRows, if_pos rfl]; exact ok2
  have hs : (luColumn now abs n s k).1 = fun i j => if k < i ∧ k < j then a i j - a i k / a k k * a k j else
      if j = k ∧ k < i then a i k / a k k else a i j := by
    funext i j
    simp only [luColumn]
    rw [← hb, if_pos ok1]
    simp only [← ha]
    split_ifs <;> first | rfl | omega | (exfalso; simp_all)
  rw [hs]
  set c : ℕ → ℕ → α := fun i j => if k < i ∧ k < j then a i j - a i k / a k k * a k j else
      if j = k ∧ k < i then a i k / a k k else a i j with hc
  have top : ∀ t, t ≤ k → ∀ j, c t j = a t j := fun t ht j => by
    simp only [hc]
    rw [if_neg (by omega), if_neg (by omega)]
  have left : ∀ i t, t < k → c i t = a i t := fun i t ht => by
    simp only [hc]
    rw [if_neg (by omega), if_neg (by omega)]
  rcases Nat.lt_or_ge k i with h | h
  · rw [prod_ge h, prod_ge h.le, Finset.sum_range_succ, top k le_rfl]
    have e : ∀ t ∈ Finset.range k, ev (c i t) * (if t ≤ j then ev (c t j) else 0) =
        ev (a i t) * (if t ≤ j then ev (a t j) else 0) := fun t ht => by
      rw [Finset.mem_range] at ht
      rw [left i t ht, top t ht.le]
    rw [Finset.sum_congr rfl e, add_assoc]
    congr 1
    have ck : ev (c i k) = ev (a i k) / ev (a k k) := by
      simp only [hc]
      rw [if_neg (by omega), if_pos (by simpa using h), E.div _ _ hp]
    rw [ck]
    rcases Nat.lt_trichotomy j k with hj | hj | hj
    · rw [if_neg (by omega), if_neg (by omega), if_neg (by omega)]; ring
    · subst hj
      rw [if_pos le_rfl, if_neg (by omega), if_pos le_rfl]
      field_simp
      ring
    · rw [if_pos (by omega), if_pos (by omega), if_pos (by omega)]
      have : ev (c i j) = ev (a i j) - ev (a i k) / ev (a k k) * ev (a k j) := by
        simp only [hc]
        rw [if_pos ⟨h, hj⟩, E.sub, E.mul, E.div _ _ hp]
      rw [this]; ring
  · rw [prod_lt (by omega), prod_lt h]
    simp only [top i h]
    congr 1
    refine Finset.sum_congr rfl fun t ht => ?_
    rw [Finset.mem_range] at ht
    rw [top t (by omega)]

/-- The state after the first `K` columns. -/
noncomputable def upTo (now : α → ℝ) (abs : α → α) (n K : ℕ) (a : ℕ → ℕ → α) : (ℕ → ℕ → α) × List ℕ :=
  (List.range K).foldl (luColumn now abs n) (a, [])

theorem upTo_succ (n K : ℕ) (a : ℕ → ℕ → α) :
    upTo now abs n (K + 1) a = luColumn now abs n (upTo now abs n K a) K := by
  simp [upTo, List.range_succ]

theorem upTo_length (n K : ℕ) (a : ℕ → ℕ → α) : (upTo now abs n K a).2.length = K := by
  induction K with
  | zero => rfl
  | succ K ih => rw [upTo_succ]; simp [luColumn, ih]

omit [Zero α] [Add α] [Sub α] [Mul α] [Div α] [Neg α] in
theorem permuteRows_concat (bs : List ℕ) (b : ℕ) (c : ℕ → ℕ → α) :
    permuteRows (bs ++ [b]) c = swapRows bs.length b (permuteRows bs c) := by
  simp [permuteRows, List.zipIdx_append]

theorem upTo_swaps (n K : ℕ) (a c : ℕ → ℕ → α) : permuteRows (upTo now abs n (K + 1) a).2 c =
    swapRows K (pivotRow now abs n K (upTo now abs n K a).1) (permuteRows (upTo now abs n K a).2 c) := by
  rw [upTo_succ]
  simp only [luColumn]
  rw [permuteRows_concat, upTo_length]

/-- The factors after `K` columns multiply to the matrix with rows swapped. -/
theorem upTo_prod (E : Reals ev) (N : Reals.Abs now abs) {n : ℕ} (a : ℕ → ℕ → α) {K : ℕ} (hK : K ≤ n)
    (ok : ∀ k < K, StepOk now ev abs n k (upTo now abs n k a).1) (i j : ℕ) :
    ev (permuteRows (upTo now abs n K a).2 a i j) = prod ev K (upTo now abs n K a).1 i j := by
  induction K generalizing i j with
  | zero => simp [prod, upTo, permuteRows]
  | succ K ih =>
    have ih := ih (by omega) fun k hk => ok k (by omega)
    obtain ⟨⟨h1, h2⟩, -⟩ := pivotRow_spec N (show K < n by omega) (upTo now abs n K a).1
    rw [upTo_swaps, upTo_succ, prod_step E _ (ok K (by omega)), prod_swap h1]
    simp only [swapRows]
    split_ifs <;> exact ih _ _

/-- Equations for swapped rows are equations for all rows. -/
theorem of_permuted (N : Reals.Abs now abs) {n : ℕ} (a c d : ℕ → ℕ → α) {P : (ℕ → α) → (ℕ → α) → Prop} {K : ℕ} (hK : K ≤ n)
    (h : ∀ i < n, P (permuteRows (upTo now abs n K a).2 c i) (permuteRows (upTo now abs n K a).2 d i)) :
    ∀ i < n, P (c i) (d i) := by
  induction K with
  | zero => exact h
  | succ K ih =>
    refine ih (by omega) fun i hi => ?_
    obtain ⟨⟨h1, h2⟩, -⟩ := pivotRow_spec N (show K < n by omega) (upTo now abs n K a).1
    simp only [upTo_swaps] at h
    have e : ∀ (k b : ℕ) (c : ℕ → ℕ → α) (i : ℕ), swapRows k b c i = if i = k then c b else if i = b then c k else c i :=
      fun k b c i => by funext j; simp only [swapRows]; split_ifs <;> rfl
    simp only [e] at h
    by_cases hiK : i = K
    · subst hiK
      have := h _ h2
      rw [if_pos (rfl : pivotRow now abs n i (upTo now abs n i a).1 = _),
        if_pos (rfl : pivotRow now abs n i (upTo now abs n i a).1 = _)] at this
      split_ifs at this with c1
      · rwa [c1] at this
      · exact this
    · by_cases hib : i = pivotRow now abs n K (upTo now abs n K a).1
      · have := h K (by omega)
        rw [if_pos rfl, if_pos rfl, ← hib] at this
        exact this
      · have := h i hi
        rwa [if_neg hiK, if_neg hib, if_neg hiK, if_neg hib] at this

theorem mat_swap {n k b : ℕ} (hk : k < n) (hb : b < n) (c : ℕ → ℕ → α) :
    Qr.mat ev n n (swapRows k b c) = (Qr.mat ev n n c).submatrix (Equiv.swap ⟨k, hk⟩ ⟨b, hb⟩) id := by
  ext i j
  simp only [Qr.mat, Matrix.of_apply, Matrix.submatrix_apply, swapRows, Equiv.swap_apply_def, id, Fin.ext_iff]
  split_ifs <;> rfl

theorem det_permuted (N : Reals.Abs now abs) {n : ℕ} (a : ℕ → ℕ → α) {K : ℕ} (hK : K ≤ n)
    (h : (Qr.mat ev n n a).det ≠ 0) : (Qr.mat ev n n (permuteRows (upTo now abs n K a).2 a)).det ≠ 0 := by
  induction K with
  | zero => exact h
  | succ K ih =>
    obtain ⟨⟨h1, h2⟩, -⟩ := pivotRow_spec N (show K < n by omega) (upTo now abs n K a).1
    rw [upTo_swaps, mat_swap (show K < n by omega) h2, Matrix.det_permute]
    refine mul_ne_zero ?_ (ih (by omega))
    rcases Int.units_eq_one_or (Equiv.Perm.sign (Equiv.swap (⟨K, by omega⟩ : Fin n)
      ⟨pivotRow now abs n K (upTo now abs n K a).1, h2⟩)) with e | e <;> rw [e] <;> simp

theorem min_cases (x K : ℕ) : Nat.min x K = x ∧ x ≤ K ∨ Nat.min x K = K ∧ K ≤ x := by
  rcases Nat.le_total x K with h | h
  · exact .inl ⟨Nat.min_eq_left h, h⟩
  · exact .inr ⟨Nat.min_eq_right h, h⟩

/-- The lower factor after `K` columns. -/
noncomputable def lower (ev : α → ℝ) (n K : ℕ) (a : ℕ → ℕ → α) : Matrix (Fin n) (Fin n) ℝ :=
  Matrix.of fun i t => if t.val < i.val ∧ t.val < K then ev (a i t) else if i = t then 1 else 0

/-- The upper factor after `K` columns. -/
noncomputable def upper (ev : α → ℝ) (n K : ℕ) (a : ℕ → ℕ → α) : Matrix (Fin n) (Fin n) ℝ :=
  Matrix.of fun i j => if Nat.min i K ≤ j.val then ev (a i j) else 0

theorem lower_mul_upper (n K : ℕ) (a : ℕ → ℕ → α) (i j : Fin n) :
    (lower ev n K a * upper ev n K a) i j = prod ev K a i j := by
  rw [Matrix.mul_apply, prod]
  have e : ∀ t : Fin n, lower ev n K a i t * upper ev n K a t j =
      (fun t : ℕ => (if t < Nat.min i K then ev (a i t) * (if t ≤ j.val then ev (a t j) else 0) else 0) +
        (if t = i.val then (if Nat.min i K ≤ j.val then ev (a i j) else 0) else 0)) t := by
    intro t
    simp only [lower, upper, Matrix.of_apply, Fin.ext_iff]
    have m1 := min_cases i.val K
    have m2 := min_cases t.val K
    by_cases h1 : t.val < i.val ∧ t.val < K
    · rw [if_pos h1, if_neg (show ¬ t.val = i.val by omega), add_zero, if_pos (show t.val < Nat.min i K by omega),
        show Nat.min t.val K = t.val by omega]
    · rw [if_neg h1, if_neg (show ¬ t.val < Nat.min i K by omega), zero_add]
      by_cases h2 : i.val = t.val
      · rw [if_pos h2, if_pos h2.symm, one_mul, h2]
      · rw [if_neg h2, if_neg (show ¬ t.val = i.val by omega), zero_mul]
  rw [Finset.sum_congr rfl fun t _ => e t, Fin.sum_univ_eq_sum_range (fun t : ℕ =>
    (if t < Nat.min i K then ev (a i t) * (if t ≤ j.val then ev (a t j) else 0) else 0) +
        (if t = i.val then (if Nat.min i K ≤ j.val then ev (a i j) else 0) else 0)), Finset.sum_add_distrib]
  congr 1
  · rw [← Finset.sum_filter]
    refine Finset.sum_congr ?_ fun _ _ => rfl
    ext t
    simp only [Finset.mem_filter, Finset.mem_range]
    have := min_cases i.val K
    have := i.2
    exact ⟨fun h => h.2, fun h => ⟨by omega, h⟩⟩
  · rw [Finset.sum_ite_eq' (Finset.range n), if_pos (Finset.mem_range.2 i.2)]

theorem det_lower (n K : ℕ) (a : ℕ → ℕ → α) : (lower ev n K a).det = 1 := by
  have hT : (lower ev n K a).BlockTriangular OrderDual.toDual := by
    intro i j hij
    have hij : i < j := hij
    simp only [lower, Matrix.of_apply]
    rw [if_neg (by omega), if_neg (by omega)]
  rw [Matrix.det_of_isLowerTriangular _ hT]
  exact Finset.prod_eq_one fun i _ => by simp [lower]

/-- The pivots up to column `K` are not zero if the leading blocks are not singular. -/
theorem upper_triangular (n K : ℕ) (a : ℕ → ℕ → α) (hK : n ≤ K + 1) : (upper ev n K a).BlockTriangular id := by
  intro i j hij
  have hij : j < i := hij
  simp only [upper, Matrix.of_apply]
  rw [if_neg]
  have hm : Nat.min i.val K = if i.val ≤ K then i.val else K := Nat.min_def
  rw [hm]
  have := i.2
  split_ifs <;> omega

/-- If a whole column has no pivot, the matrix is singular. -/
theorem det_upper_zero {n K : ℕ} (hK : K < n) (a : ℕ → ℕ → α) (h : ∀ i, K ≤ i → i < n → ev (a i K) = 0) :
    (upper ev n K a).det = 0 := by
  have hm : ∀ x : ℕ, Nat.min x K = if x ≤ K then x else K := fun x => Nat.min_def
  have hT : (upper ev n K a).BlockTriangular fun i : Fin n => Nat.min i.val K := by
    intro i j hij
    simp only [hm] at hij
    simp only [upper, Matrix.of_apply, hm]
    rw [if_neg]
    split_ifs at hij ⊢ <;> omega
  classical
  rw [hT.det]
  refine Finset.prod_eq_zero (i := K) ?_ ?_
  · exact Finset.mem_image.2 ⟨⟨K, hK⟩, Finset.mem_univ _, by simp only [hm]; rw [if_pos le_rfl]⟩
  · refine Matrix.det_eq_zero_of_column_eq_zero ⟨⟨K, hK⟩, by simp only [hm]; rw [if_pos le_rfl]⟩ fun i => ?_
    have hi : K ≤ i.val.val := by
      have := i.2
      simp only [hm] at this
      split_ifs at this <;> omega
    show upper ev n K a i.val ⟨K, hK⟩ = 0
    simp only [Matrix.of_apply, upper]
    split_ifs
    · exact h _ hi i.val.2
    · rfl

theorem mat_permuted (E : Reals ev) (N : Reals.Abs now abs) {n : ℕ} (a : ℕ → ℕ → α) {K : ℕ} (hK : K ≤ n)
    (ok : ∀ k < K, StepOk now ev abs n k (upTo now abs n k a).1) :
    Qr.mat ev n n (permuteRows (upTo now abs n K a).2 a) =
      lower ev n K (upTo now abs n K a).1 * upper ev n K (upTo now abs n K a).1 := by
  ext i j
  rw [lower_mul_upper, ← upTo_prod E N a hK ok]
  rfl

/-- At the values for which the rows were chosen, all pivots of a regular matrix are different from zero. -/
theorem stepOk_now (N : Reals.Abs now abs) {n : ℕ} (a : ℕ → ℕ → α) (h : (Qr.mat now n n a).det ≠ 0) :
    ∀ k < n, StepOk now now abs n k (upTo now abs n k a).1 := by
  intro k
  induction k using Nat.strong_induction_on with
  | _ k ih =>
    intro hk
    have hd := det_permuted (ev := now) N a hk.le h
    rw [mat_permuted N.toReals N a hk.le fun j hj => ih j hj (by omega), Matrix.det_mul, det_lower, one_mul] at hd
    obtain ⟨-, hmax⟩ := pivotRow_spec N hk (upTo now abs n k a).1
    have hp : now ((upTo now abs n k a).1 (pivotRow now abs n k (upTo now abs n k a).1) k) ≠ 0 := fun h0 => by
      refine hd (det_upper_zero hk _ fun i h1 h2 => ?_)
      have := hmax i h1 h2
      rw [h0, abs_zero] at this
      exact abs_nonpos_iff.1 this
    exact ⟨by rw [N.abs_eq]; exact abs_ne_zero.2 hp, hp⟩

/-! ### Solving with the factors -/

theorem forwardSubstitute_spec (E : Reals ev) {n : ℕ} (L c : ℕ → ℕ → α) (j : ℕ) :
    ∀ i < n, ∑ t ∈ Finset.range i, ev (L i t) * ev (forwardSubstitute n L c t j) + ev (forwardSubstitute n L c i j) =
      ev (c i j) := by
  have key : ∀ d, ∀ x : ℕ → ℕ → α, x = (List.range d).foldl
      (fun x i i' j => if i' = i then x i j - sumFromTo (fun t => L i t * x t j) 0 i else x i' j) c →
      (∀ i, d ≤ i → x i j = c i j) ∧
        ∀ i < d, ∑ t ∈ Finset.range i, ev (L i t) * ev (x t j) + ev (x i j) = ev (c i j) := by
    intro d
    induction d with
    | zero =>
      rintro x rfl
      exact ⟨fun i _ => rfl, fun i h => by omega⟩
    | succ d ih =>
      intro x hx
      obtain ⟨p1, p2⟩ := ih _ rfl
      rw [List.range_succ, List.foldl_append] at hx
      set y := (List.range d).foldl
        (fun x i i' j => if i' = i then x i j - sumFromTo (fun t => L i t * x t j) 0 i else x i' j) c
      simp only [List.foldl_cons, List.foldl_nil] at hx
      have xk : x d j = y d j - sumFromTo (fun t => L d t * y t j) 0 d := by rw [hx]; simp
      have xo : ∀ i, i ≠ d → x i j = y i j := fun i hi => by rw [hx]; simp [hi]
      refine ⟨fun i hi => by rw [xo i (by omega), p1 i (by omega)], fun i hi => ?_⟩
      have es : ∑ t ∈ Finset.range i, ev (L i t) * ev (x t j) = ∑ t ∈ Finset.range i, ev (L i t) * ev (y t j) :=
        Finset.sum_congr rfl fun t ht => by
          rw [Finset.mem_range] at ht
          rw [xo t (by omega)]
      rw [es]
      rcases Nat.lt_succ_iff_lt_or_eq.1 hi with h | h
      · rw [xo i (by omega)]; exact p2 i h
      · subst h
        rw [xk, E.sub, Qr.sum_ev E, p1 i le_rfl, ← Finset.range_eq_Ico]
        simp only [E.mul]
        ring
  exact (key n _ rfl).2

/-- The solution, given the pivots. -/
theorem luSolve_core (E : Reals ev) (N : Reals.Abs now abs) {n p : ℕ} {A B : Mat α} {M : Matrix (Fin n) (Fin n) ℝ}
    {R : Matrix (Fin n) (Fin p) ℝ} (hA : A.Is ev M) (hB : B.Is ev R)
    (ok : ∀ k < n, StepOk now ev abs n k (upTo now abs n k A.toEigen).1) (hdet : M.det ≠ 0) :
    ∃ X, ∃ Y : Matrix (Fin n) (Fin p) ℝ, luSolve now abs A B = some X ∧ X.Is ev Y ∧ M * Y = R := by
  have a1 : A.rows = n := hA.2.1
  have b2 : B.cols = p := hB.2.2.1
  have hM : ∀ i j : Fin n, ev (A.toEigen i j) = M i j := fun i j => congrFun (congrFun (Qr.mat_toEigen hA) i) j
  have hR : ∀ (i : Fin n) (j : Fin p), ev (B.toEigen i j) = R i j := fun i j => congrFun (congrFun (Qr.mat_toEigen hB) i) j
  have hprod := fun i j => upTo_prod E N A.toEigen le_rfl ok i j
  have hd := det_permuted (ev := ev) N A.toEigen le_rfl (by rwa [Qr.mat_toEigen hA])
  rw [mat_permuted E N _ le_rfl ok, Matrix.det_mul, det_lower, one_mul,
    Matrix.det_of_isUpperTriangular (upper_triangular n n _ (by omega))] at hd
  set s := upTo now abs n n A.toEigen with hs
  have hdiag : ∀ i < n, ev (s.1 i i) ≠ 0 := fun i hi => by
    have := Finset.prod_ne_zero_iff.1 hd ⟨i, hi⟩ (Finset.mem_univ _)
    simpa only [upper, Matrix.of_apply, show Nat.min i n = i from Nat.min_eq_left hi.le, le_refl, if_true] using this
  set c := permuteRows s.2 B.toEigen with hc
  set y := forwardSubstitute n s.1 c with hy
  set x := backSubstitute n s.1 y with hx
  have fw := fun j => forwardSubstitute_spec (n := n) E s.1 c j
  have bw := fun j => Qr.backSubstitute_spec E s.1 y hdiag j
  rw [← hy] at fw
  rw [← hx] at bw
  have hsolve : luSolve now abs A B = Mat.ofFnM n p fun i j => some (x i j) := by
    unfold luSolve
    simp only
    rw [a1, b2]
    rfl
  obtain ⟨X, hX, hXI⟩ := ofFnM_is (ev := ev) (m := n) (n := p) (f := fun i j => some (x i j))
    (M := Matrix.of fun i j => ev (x i j)) fun i j => ⟨_, rfl, rfl⟩
  refine ⟨X, _, hsolve.trans hX, hXI, ?_⟩
  have rows : ∀ i < n, ∀ j < p, ∑ t ∈ Finset.range n, ev (permuteRows s.2 A.toEigen i t) * ev (x t j) = ev (c i j) := by
    intro i hi j hj
    have e : ∀ r < n, ∑ t ∈ Finset.range n, (if r ≤ t then ev (s.1 r t) else 0) * ev (x t j) = ev (y r j) := by
      intro r hr
      rw [← bw j r hr]
      simp only [ite_mul, zero_mul]
      rw [← Finset.sum_filter]
      refine Finset.sum_congr ?_ fun _ _ => rfl
      ext t
      simp only [Finset.mem_filter, Finset.mem_range, Finset.mem_Ico]
      omega
    rw [← fw j i hi]
    have pl := prod_lt (ev := ev) hi.le s.1
    simp only [hprod, pl, add_mul, Finset.sum_add_distrib]
    rw [e i hi]
    congr 1
    simp only [Finset.sum_mul]
    rw [Finset.sum_comm]
    refine Finset.sum_congr rfl fun r hr => ?_
    rw [Finset.mem_range] at hr
    rw [← e r (by omega), Finset.mul_sum]
    exact Finset.sum_congr rfl fun t _ => by ring
  have all := of_permuted N A.toEigen A.toEigen B.toEigen (K := n) le_rfl
    (P := fun u v => ∀ j < p, ∑ t ∈ Finset.range n, ev (u t) * ev (x t j) = ev (v j)) rows
  ext i j
  rw [← hR i j, ← all i i.2 j j.2, Matrix.mul_apply,
    ← Fin.sum_univ_eq_sum_range (fun t : ℕ => ev (A.toEigen i t) * ev (x t j))]
  exact Finset.sum_congr rfl fun t _ => by rw [hM]; rfl

/-! ### Pivots on the diagonal -/

theorem pivotRow_diag (N : Reals.Abs now abs) {n k : ℕ} (hk : k < n) (a : ℕ → ℕ → α)
    (h : ∀ i, k < i → i < n → |now (a i k)| < |now (a k k)|) : pivotRow now abs n k a = k := by
  obtain ⟨⟨h1, h2⟩, h3⟩ := pivotRow_spec N hk a
  by_contra hne
  exact absurd (h3 k le_rfl hk) (not_le.2 (h _ (by omega) h2))

/-- For a diagonal matrix no rows are swapped. -/
theorem upTo_diag (N : Reals.Abs now abs) {n : ℕ} (a : ℕ → ℕ → α) (h0 : ∀ i < n, ∀ j < n, i ≠ j → now (a i j) = 0)
    (h1 : ∀ i < n, now (a i i) ≠ 0) {K : ℕ} (hK : K ≤ n) :
    (∀ i < n, ∀ j < n, now ((upTo now abs n K a).1 i j) = now (a i j)) ∧
      ∀ c : ℕ → ℕ → α, permuteRows (upTo now abs n K a).2 c = c := by
  induction K with
  | zero => exact ⟨fun _ _ _ _ => rfl, fun _ => rfl⟩
  | succ K ih =>
    obtain ⟨i1, i2⟩ := ih (by omega)
    have hp : pivotRow now abs n K (upTo now abs n K a).1 = K := by
      refine pivotRow_diag N (by omega) _ fun i hi hn => ?_
      rw [i1 i hn K (by omega), i1 K (by omega) K (by omega), h0 i hn K (by omega) (by omega), abs_zero, abs_pos]
      exact h1 K (by omega)
    have hswap : ∀ c : ℕ → ℕ → α, swapRows K K c = c := fun c => by
      funext i j
      simp only [swapRows]
      split_ifs with h
      · rw [h]
      · rfl
    refine ⟨fun i hi j hj => ?_, fun c => by rw [upTo_swaps, hp, hswap, i2]⟩
    rw [← i1 i hi j hj, upTo_succ]
    set b := (upTo now abs n K a).1 with hb
    have hbK : now (b K K) ≠ 0 := by rw [i1 K (by omega) K (by omega)]; exact h1 K (by omega)
    simp only [luColumn, ← hb]
    have habs : now (abs (b K K)) ≠ 0 := by rw [N.abs_eq]; exact abs_ne_zero.2 hbK
    simp only [hp, if_pos habs, hswap]
    have z : K < i → now (b i K) = 0 := fun hKi => by
      rw [i1 i hi K (by omega), h0 i hi K (by omega) (by omega)]
    by_cases c1 : K < i ∧ K < j
    · rw [if_pos c1, if_neg (by omega), if_pos (by simpa using c1.1), if_neg (by omega), N.sub, N.mul, N.div _ _ hbK, z c1.1]
      simp
    · rw [if_neg c1]
      by_cases c2 : j = K ∧ K < i
      · rw [if_pos c2, N.div _ _ hbK, c2.1, z c2.2]; simp
      · rw [if_neg c2]

/-- If the rows were chosen while the matrix was diagonal, the pivots are different from zero at all values at which the
leading blocks are regular. -/
theorem stepOk_diag (E : Reals ev) (N : Reals.Abs now abs) {n : ℕ} (a : ℕ → ℕ → α)
    (h0 : ∀ i < n, ∀ j < n, i ≠ j → now (a i j) = 0) (h1 : ∀ i < n, now (a i i) ≠ 0)
    (hm : ∀ k < n, (Qr.mat ev (k + 1) (k + 1) a).det ≠ 0) :
    ∀ k < n, StepOk now ev abs n k (upTo now abs n k a).1 := by
  intro k
  induction k using Nat.strong_induction_on with
  | _ k ih =>
    intro hk
    obtain ⟨i1, i2⟩ := upTo_diag N a h0 h1 hk.le
    have hp : pivotRow now abs n k (upTo now abs n k a).1 = k := by
      refine pivotRow_diag N hk _ fun i hi hn => ?_
      rw [i1 i hn k hk, i1 k hk k hk, h0 i hn k hk (by omega), abs_zero, abs_pos]
      exact h1 k hk
    have hpr := upTo_prod E N a hk.le fun j hj => ih j hj (by omega)
    rw [i2] at hpr
    have hM : Qr.mat ev (k + 1) (k + 1) a =
        lower ev (k + 1) k (upTo now abs n k a).1 * upper ev (k + 1) k (upTo now abs n k a).1 := by
      ext i j
      rw [lower_mul_upper, ← hpr]
      rfl
    have hd := hm k hk
    rw [hM, Matrix.det_mul, det_lower, one_mul, Matrix.det_of_isUpperTriangular (upper_triangular _ _ _ (by omega))] at hd
    have := Finset.prod_ne_zero_iff.1 hd ⟨k, by omega⟩ (Finset.mem_univ _)
    simp only [upper, Matrix.of_apply, show Nat.min k k = k from Nat.min_self k, le_refl, if_true] at this
    refine ⟨?_, by rw [hp]; exact this⟩
    rw [hp, N.abs_eq, i1 k hk k hk]
    exact abs_ne_zero.2 (h1 k hk)

end Lu

end Slp.VMat
