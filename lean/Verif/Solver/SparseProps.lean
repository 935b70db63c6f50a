import Verif.Solver.SparseLemmas

/-! C35 (assembly): stacking blocks as triplets gives exactly the stacked matrix. -/

namespace Slp

/-- C35: the triplets appended are exactly the stored elements of the matrices, each moved down by the rows
of the matrices before it and by the offsets. -/
theorem append_exact {ts : List SpEntry} {ro co : ℕ} {A : Sparse} {As : List Sparse} (t : SpEntry) :
    t ∈ appendAsTriplets ts ro co (A :: As) ↔ t ∈ ts ∨
      ∃ c < A.cols, ∃ (k : ℕ) (hk : k < (A :: As).length), ∃ e ∈ ((A :: As)[k]).col c,
        t = ⟨ro + (((A :: As).take k).map Sparse.rows).sum + e.1, co + c, e.2⟩ := by
  unfold appendAsTriplets
  rw [List.mem_append, List.mem_flatMap]
  simp only [List.head?_cons, Option.elim_some, List.mem_range, mem_appendRow, zero_add]

/-- C35: they are in column-major order without repetition, and lie below and right of the offsets. -/
theorem append_column_major {ro co : ℕ} {A : Sparse} {As : List Sparse} (hm : ∀ B ∈ A :: As, B.WF) :
    (appendAsTriplets [] ro co (A :: As)).Pairwise
      (fun a b => a.col < b.col ∨ a.col = b.col ∧ a.row < b.row) :=
  (appendAsTriplets_sorted hm).1

/-- C35: the matrix built from them is the matrices stacked on top of each other at the offset. -/
theorem append_stacks {ro co r c : ℕ} {A : Sparse} {As : List Sparse} (hm : ∀ B ∈ A :: As, B.WF)
    (hr : ro + ((A :: As).map Sparse.rows).sum ≤ r) (hc : co + A.cols ≤ c) :
    (Sparse.ofSorted r c (appendAsTriplets [] ro co (A :: As))).WF ∧
      ∀ i j, (Sparse.ofSorted r c (appendAsTriplets [] ro co (A :: As))).coeff i j =
        if ro ≤ i ∧ co ≤ j ∧ j < co + A.cols then stackCoeff (A :: As) (i - ro) (j - co) else 0 := by
  obtain ⟨h1, h2⟩ := appendAsTriplets_sorted (ro := ro) (co := co) hm
  refine ⟨Sparse.ofSorted_wf h1 fun t ht => ?_, fun i j => ?_⟩
  · have := h2 t ht
    omega
  · rw [Sparse.ofSorted_coeff, appendAsTriplets_coeff hm, tripletCoeff_nil, zero_add]
    exact if_congr (by omega) rfl rfl

/-- C35: a diagonal is placed with its first element at the offset. -/
theorem append_diagonal_correct {ro co r c : ℕ} (d : List ℝ) (hr : ro + d.length ≤ r)
    (hc : co + d.length ≤ c) :
    (Sparse.ofSorted r c (appendDiagonal [] ro co d)).WF ∧
      ∀ i j, (Sparse.ofSorted r c (appendDiagonal [] ro co d)).coeff (ro + i) (co + j) =
        if i = j then d.getD i 0 else 0 := by
  obtain ⟨h1, h2⟩ := appendDiagonal_sorted (ro := ro) (co := co) (d := d)
  refine ⟨Sparse.ofSorted_wf h1 fun t ht => ?_, fun i j => ?_⟩
  · have := h2 t ht
    omega
  · rw [Sparse.ofSorted_coeff, appendDiagonal_coeff]
    by_cases h : i = j
    · subst h; simp
    · rw [if_neg (by omega), if_neg h]

/-- C32 (row norms): the norm computed for a row bounds every element of it, and is zero or attained. -/
theorem row_norm_correct {A : Sparse} (hA : A.WF) (i : ℕ) :
    (∀ j, |A.coeff i j| ≤ sparseInfNorms A i) ∧
      (sparseInfNorms A i = 0 ∨ ∃ j < A.cols, sparseInfNorms A i = |A.coeff i j|) := by
  have inner : ∀ (l : List (ℕ × ℝ)) (norms : ℕ → ℝ),
      norms i ≤ l.foldl normStep norms i ∧ (∀ v, (i, v) ∈ l → |v| ≤ l.foldl normStep norms i) ∧
      (l.foldl normStep norms i = norms i ∨ ∃ v, (i, v) ∈ l ∧ l.foldl normStep norms i = |v|) := by
    intro l
    induction l with
    | nil => intro norms; simp
    | cons e l ih =>
        intro norms
        obtain ⟨h1, h2, h3⟩ := ih (normStep norms e)
        rw [List.foldl_cons]
        obtain ⟨r, v⟩ := e
        by_cases hr : r = i
        · subst hr
          have hu : normStep norms (r, v) r = max (norms r) |v| := by simp [normStep]
          rw [hu] at h1 h3
          refine ⟨le_trans (le_max_left _ _) h1, ?_, ?_⟩
          · intro w hw
            rcases List.mem_cons.1 hw with hw | hw
            · simp at hw; subst hw; exact le_trans (le_max_right _ _) h1
            · exact h2 w hw
          · rcases h3 with h3 | ⟨w, hw, h3⟩
            · rcases max_choice (norms r) |v| with h | h
              · left; rw [h3, h]
              · right; exact ⟨v, by simp, by rw [h3, h]⟩
            · right; exact ⟨w, by simp [hw], h3⟩
        · have hu : normStep norms (r, v) i = norms i := by simp [normStep, Function.update, Ne.symm hr]
          rw [hu] at h1 h3
          refine ⟨h1, ?_, ?_⟩
          · intro w hw
            rcases List.mem_cons.1 hw with hw | hw
            · simp at hw; exact absurd hw.1.symm hr
            · exact h2 w hw
          · rcases h3 with h3 | ⟨w, hw, h3⟩
            · left; exact h3
            · right; exact ⟨w, by simp [hw], h3⟩
  have outer : ∀ n, 0 ≤ (List.range n).foldl (fun norms j => (A.col j).foldl normStep norms) (fun _ => 0) i ∧
      (∀ j < n, ∀ v, (i, v) ∈ A.col j →
        |v| ≤ (List.range n).foldl (fun norms j => (A.col j).foldl normStep norms) (fun _ => 0) i) ∧
      ((List.range n).foldl (fun norms j => (A.col j).foldl normStep norms) (fun _ => 0) i = 0 ∨
        ∃ j < n, ∃ v, (i, v) ∈ A.col j ∧
          (List.range n).foldl (fun norms j => (A.col j).foldl normStep norms) (fun _ => 0) i = |v|) := by
    intro n
    induction n with
    | zero => simp
    | succ n ih =>
        rw [List.range_succ, List.foldl_append, List.foldl_cons, List.foldl_nil]
        obtain ⟨h1, h2, h3⟩ := inner (A.col n)
          ((List.range n).foldl (fun norms j => (A.col j).foldl normStep norms) (fun _ => 0))
        obtain ⟨g1, g2, g3⟩ := ih
        refine ⟨le_trans g1 h1, ?_, ?_⟩
        · intro j hj v hv
          by_cases hjn : j = n
          · subst hjn; exact h2 v hv
          · exact le_trans (g2 j (by omega) v hv) h1
        · rcases h3 with h3 | ⟨v, hv, h3⟩
          · rcases g3 with g3 | ⟨j, hj, v, hv, g3⟩
            · left; rw [h3, g3]
            · right; exact ⟨j, by omega, v, hv, by rw [h3, g3]⟩
          · right; exact ⟨n, by omega, v, hv, h3⟩
  obtain ⟨h1, h2, h3⟩ := outer A.cols
  constructor
  · intro j
    rcases A.coeff_cases hA i j with h | h
    · by_cases hj : j < A.cols
      · exact h2 j hj _ h
      · rw [A.coeff_col hA (by omega), abs_zero]; exact h1
    · rw [h, abs_zero]; exact h1
  · rcases h3 with h3 | ⟨j, hj, v, hv, h3⟩
    · left; exact h3
    · right; exact ⟨j, hj, by rw [A.coeff_of_mem hA hv]; exact h3⟩

/-- A two-by-two matrix above a one-by-two one. -/
example : ∃ A B : Sparse, A.WF ∧ B.WF ∧ stackCoeff [A, B] 2 1 = 5 ∧ sparseInfNorms A 0 = 3 := by
  refine ⟨Sparse.diagonal [-3, 4], Sparse.ofSorted 1 2 [⟨0, 1, 5⟩], Sparse.diagonal_wf _,
    Sparse.ofSorted_wf (by simp) (by simp), ?_, ?_⟩
  · simp [stackCoeff, Sparse.diagonal, Sparse.ofSorted, Sparse.coeff]
  · simp [sparseInfNorms, Sparse.diagonal, List.range_succ, normStep]

end Slp
