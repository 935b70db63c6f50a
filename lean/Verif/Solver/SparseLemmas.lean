import Verif.Solver.SparseModel
import Mathlib.Tactic.Linarith
import Mathlib.Tactic.Ring
import Mathlib.Algebra.BigOperators.Fin
import Mathlib.Algebra.BigOperators.Ring.Finset
import Mathlib.Algebra.Order.BigOperators.Group.List

/-! Facts about the sparse matrix model. -/

namespace Slp

/-- Column-major order. -/
def SpEntry.Before (a b : SpEntry) : Prop := a.col < b.col ∨ a.col = b.col ∧ a.row < b.row

/-- The element that a list of triplets denotes, repetitions being summed. -/
def tripletCoeff (ts : List SpEntry) (i j : ℕ) : ℝ :=
  ((ts.filter (fun t => t.row = i ∧ t.col = j)).map SpEntry.val).sum

/-- The element in row `i` and column `j` of the matrices stacked on top of each other. -/
def stackCoeff : List Sparse → ℕ → ℕ → ℝ
  | [], _, _ => 0
  | A :: As, i, j => if i < A.rows then A.coeff i j else stackCoeff As (i - A.rows) j

theorem tripletCoeff_nil (i j : ℕ) : tripletCoeff [] i j = 0 := rfl

theorem tripletCoeff_cons (t : SpEntry) (ts : List SpEntry) (i j : ℕ) :
    tripletCoeff (t :: ts) i j = (if t.row = i ∧ t.col = j then t.val else 0) + tripletCoeff ts i j := by
  unfold tripletCoeff
  rw [List.filter_cons]
  by_cases h : t.row = i ∧ t.col = j <;> simp [h]

theorem tripletCoeff_append (a b : List SpEntry) (i j : ℕ) :
    tripletCoeff (a ++ b) i j = tripletCoeff a i j + tripletCoeff b i j := by
  simp [tripletCoeff]

theorem tripletCoeff_flatMap {β : Type*} (l : List β) (f : β → List SpEntry) (i j : ℕ) :
    tripletCoeff (l.flatMap f) i j = (l.map fun b => tripletCoeff (f b) i j).sum := by
  induction l with
  | nil => rfl
  | cons b l ih => rw [List.flatMap_cons, tripletCoeff_append, ih]; simp

theorem tripletCoeff_eq_zero {ts : List SpEntry} {i j : ℕ} (h : ∀ t ∈ ts, ¬ (t.row = i ∧ t.col = j)) :
    tripletCoeff ts i j = 0 := by
  unfold tripletCoeff
  rw [List.filter_eq_nil_iff.2 (by simpa using h)]
  rfl

theorem Sparse.coeff_cons_filter (l : List (ℕ × ℝ)) (e : ℕ × ℝ) (i : ℕ) :
    (((e :: l).filter (fun e => e.1 = i)).map Prod.snd).sum =
      (if e.1 = i then e.2 else 0) + ((l.filter (fun e => e.1 = i)).map Prod.snd).sum := by
  rw [List.filter_cons]
  by_cases h : e.1 = i <;> simp [h]

theorem Sparse.coeff_of_mem {A : Sparse} (hA : A.WF) {i j : ℕ} {v : ℝ} (h : (i, v) ∈ A.col j) :
    A.coeff i j = v := by
  unfold Sparse.coeff
  have hs := hA.sorted j
  generalize A.col j = l at h hs
  induction l with
  | nil => simp at h
  | cons e l ih =>
      rw [Sparse.coeff_cons_filter]
      rw [List.pairwise_cons] at hs
      rcases List.mem_cons.1 h with h | h
      · subst h
        rw [if_pos rfl, List.filter_eq_nil_iff.2]
        · simp
        · intro x hx; have := hs.1 x hx; simp; omega
      · rw [if_neg (by have := hs.1 _ h; simp at this; omega), ih h hs.2, zero_add]

theorem Sparse.coeff_of_not_mem {A : Sparse} {i j : ℕ} (h : ∀ e ∈ A.col j, e.1 ≠ i) : A.coeff i j = 0 := by
  unfold Sparse.coeff
  rw [List.filter_eq_nil_iff.2 (by simpa using h)]
  rfl

theorem Sparse.coeff_row {A : Sparse} (hA : A.WF) {i j : ℕ} (h : A.rows ≤ i) : A.coeff i j = 0 :=
  A.coeff_of_not_mem fun e he hi => by have := hA.rows j e he; omega

theorem Sparse.coeff_col {A : Sparse} (hA : A.WF) {i j : ℕ} (h : A.cols ≤ j) : A.coeff i j = 0 :=
  A.coeff_of_not_mem fun e he => by rw [hA.cols j h] at he; simp at he

/-- A stored element or zero. -/
theorem Sparse.coeff_cases {A : Sparse} (hA : A.WF) (i j : ℕ) :
    (i, A.coeff i j) ∈ A.col j ∨ A.coeff i j = 0 := by
  by_cases h : ∃ e ∈ A.col j, e.1 = i
  · obtain ⟨⟨i', v⟩, he, hi⟩ := h
    simp only at hi
    subst hi
    left
    rw [A.coeff_of_mem hA he]
    exact he
  · right
    push Not at h
    exact A.coeff_of_not_mem h

/-! ### Appending -/

theorem appendColumn_coeff {ro co c off : ℕ} {A : Sparse} (i j : ℕ) :
    tripletCoeff (appendColumn ro co c (A, off)) i j =
      if j = co + c ∧ ro + off ≤ i then A.coeff (i - (ro + off)) c else 0 := by
  unfold appendColumn Sparse.coeff
  generalize A.col c = l
  induction l with
  | nil => simp [tripletCoeff]
  | cons e l ih =>
      rw [List.map_cons, tripletCoeff_cons, ih, Sparse.coeff_cons_filter]
      by_cases hj : j = co + c
      · subst hj
        by_cases hi : ro + off ≤ i
        · by_cases he : e.1 = i - (ro + off)
          · rw [if_pos (by simp; omega), if_pos ⟨rfl, hi⟩, if_pos ⟨rfl, hi⟩, if_pos he]
          · rw [if_neg (by simp; omega), if_pos ⟨rfl, hi⟩, if_pos ⟨rfl, hi⟩, if_neg he]
        · rw [if_neg (by simp; omega), if_neg (by omega), if_neg (by omega), zero_add]
      · rw [if_neg (by simp; omega), if_neg (by omega), if_neg (by omega), zero_add]

theorem appendRow_coeff {ro co c : ℕ} (mats : List Sparse) (hm : ∀ A ∈ mats, A.WF) (off : ℕ) (i j : ℕ) :
    tripletCoeff ((mats.zip (rowOffsets off mats)).flatMap (appendColumn ro co c)) i j =
      if j = co + c ∧ ro + off ≤ i then stackCoeff mats (i - (ro + off)) c else 0 := by
  induction mats generalizing off with
  | nil => simp [stackCoeff, tripletCoeff]
  | cons A As ih =>
      have hA := hm A (by simp)
      rw [rowOffsets, List.zip_cons_cons, List.flatMap_cons, tripletCoeff_append, appendColumn_coeff,
        ih (fun B hB => hm B (by simp [hB]))]
      by_cases hj : j = co + c
      · subst hj
        by_cases h1 : ro + off ≤ i
        · by_cases h2 : i - (ro + off) < A.rows
          · rw [if_pos ⟨rfl, h1⟩, if_neg (by omega), if_pos ⟨rfl, h1⟩, stackCoeff, if_pos h2, add_zero]
          · rw [if_pos ⟨rfl, h1⟩, if_pos ⟨rfl, by omega⟩, if_pos ⟨rfl, h1⟩, stackCoeff, if_neg h2,
              A.coeff_row hA (by omega), zero_add]
            congr 1
            omega
        · rw [if_neg (by omega), if_neg (by omega), if_neg (by omega), zero_add]
      · rw [if_neg (by omega), if_neg (by omega), if_neg (by omega), zero_add]

theorem sum_range_ite (n : ℕ) (k : ℕ) (g : ℕ → ℝ) (f : ℕ → ℝ)
    (hf : ∀ c, f c = if c = k then g c else 0) :
    ((List.range n).map f).sum = if k < n then g k else 0 := by
  induction n with
  | zero => simp
  | succ n ih =>
      rw [List.range_succ, List.map_append, List.sum_append, ih, List.map_singleton, List.sum_singleton, hf]
      by_cases h1 : k < n
      · rw [if_pos h1, if_neg (by omega), if_pos (by omega), add_zero]
      · by_cases h2 : n = k
        · subst h2; simp
        · rw [if_neg h1, if_neg h2, if_neg (by omega), add_zero]

theorem appendAsTriplets_coeff {ts : List SpEntry} {ro co : ℕ} {A : Sparse} {As : List Sparse}
    (hm : ∀ B ∈ A :: As, B.WF) (i j : ℕ) :
    tripletCoeff (appendAsTriplets ts ro co (A :: As)) i j = tripletCoeff ts i j +
      if co ≤ j ∧ j - co < A.cols ∧ ro ≤ i then stackCoeff (A :: As) (i - ro) (j - co) else 0 := by
  unfold appendAsTriplets
  rw [tripletCoeff_append, tripletCoeff_flatMap]
  congr 1
  simp only [List.head?_cons, Option.elim_some]
  by_cases hj : co ≤ j
  · rw [sum_range_ite A.cols (j - co)
      (fun c => if ro ≤ i then stackCoeff (A :: As) (i - ro) c else 0)]
    · by_cases h1 : j - co < A.cols <;> by_cases h2 : ro ≤ i <;> simp [h1, h2, hj]
    · intro c
      rw [appendRow_coeff _ hm]
      by_cases h1 : c = j - co
      · subst h1
        by_cases h2 : ro ≤ i <;> simp [h2, hj]
      · rw [if_neg (by omega), if_neg h1]
  · rw [if_neg (by omega), List.sum_eq_zero]
    intro x hx
    obtain ⟨c, -, rfl⟩ := List.mem_map.1 hx
    rw [appendRow_coeff _ hm, if_neg (by omega)]

theorem mem_appendRow {ro co c : ℕ} (mats : List Sparse) (off : ℕ) (t : SpEntry) :
    t ∈ (mats.zip (rowOffsets off mats)).flatMap (appendColumn ro co c) ↔
      ∃ (k : ℕ) (hk : k < mats.length), ∃ e ∈ (mats[k]).col c,
        t = ⟨ro + (off + ((mats.take k).map Sparse.rows).sum) + e.1, co + c, e.2⟩ := by
  induction mats generalizing off with
  | nil => simp
  | cons A As ih =>
      rw [rowOffsets, List.zip_cons_cons, List.flatMap_cons, List.mem_append, ih]
      constructor
      · rintro (h | ⟨k, hk, e, he, rfl⟩)
        · obtain ⟨e, he, rfl⟩ := List.mem_map.1 h
          exact ⟨0, by simp, e, he, by simp⟩
        · exact ⟨k + 1, by simpa using hk, e, by simpa using he, by simp; omega⟩
      · rintro ⟨k, hk, e, he, rfl⟩
        rcases k with _ | k
        · left
          exact List.mem_map.2 ⟨e, he, by simp⟩
        · right
          exact ⟨k, by simpa using hk, e, by simpa using he, by simp; omega⟩

theorem appendRow_sorted {ro co c : ℕ} (mats : List Sparse) (hm : ∀ A ∈ mats, A.WF) (off : ℕ) :
    ((mats.zip (rowOffsets off mats)).flatMap (appendColumn ro co c)).Pairwise SpEntry.Before ∧
      ∀ t ∈ (mats.zip (rowOffsets off mats)).flatMap (appendColumn ro co c),
        t.col = co + c ∧ ro + off ≤ t.row ∧ t.row < ro + off + (mats.map Sparse.rows).sum := by
  induction mats generalizing off with
  | nil => simp
  | cons A As ih =>
      obtain ⟨h1, h2⟩ := ih (fun B hB => hm B (by simp [hB])) (off + A.rows)
      have hA := hm A (by simp)
      rw [rowOffsets, List.zip_cons_cons, List.flatMap_cons]
      have hcol : ∀ t ∈ appendColumn ro co c (A, off),
          t.col = co + c ∧ ro + off ≤ t.row ∧ t.row < ro + off + A.rows := by
        intro t ht
        obtain ⟨e, he, rfl⟩ := List.mem_map.1 ht
        have := hA.rows c e he
        exact ⟨rfl, by dsimp only; omega, by dsimp only; omega⟩
      refine ⟨List.pairwise_append.2 ⟨?_, h1, ?_⟩, ?_⟩
      · unfold appendColumn
        rw [List.pairwise_map]
        exact (hA.sorted c).imp fun h => Or.inr ⟨rfl, by simp; omega⟩
      · intro a ha b hb
        have h3 := hcol a ha
        have h4 := h2 b hb
        exact Or.inr ⟨by omega, by omega⟩
      · intro t ht
        rcases List.mem_append.1 ht with ht | ht
        · have h3 := hcol t ht
          simp only [List.map_cons, List.sum_cons]
          omega
        · have h3 := h2 t ht
          simp only [List.map_cons, List.sum_cons]
          omega

theorem appendAsTriplets_sorted {ro co : ℕ} {A : Sparse} {As : List Sparse} (hm : ∀ B ∈ A :: As, B.WF) :
    (appendAsTriplets [] ro co (A :: As)).Pairwise SpEntry.Before ∧
      ∀ t ∈ appendAsTriplets [] ro co (A :: As), co ≤ t.col ∧ t.col < co + A.cols ∧ ro ≤ t.row ∧
        t.row < ro + ((A :: As).map Sparse.rows).sum := by
  unfold appendAsTriplets
  rw [List.nil_append]
  simp only [List.head?_cons, Option.elim_some]
  have hrow := fun c => appendRow_sorted (ro := ro) (co := co) (c := c) (A :: As) hm 0
  constructor
  · rw [List.pairwise_flatMap]
    refine ⟨fun c _ => (hrow c).1, ?_⟩
    refine List.pairwise_lt_range.imp ?_
    intro c c' hcc a ha b hb
    have h3 := (hrow c).2 a ha
    have h4 := (hrow c').2 b hb
    exact Or.inl (by omega)
  · intro t ht
    obtain ⟨c, hc, ht⟩ := List.mem_flatMap.1 ht
    have h3 := (hrow c).2 t ht
    have h4 := List.mem_range.1 hc
    omega

theorem appendAsTriplets_eq (ts : List SpEntry) (ro co : ℕ) (mats : List Sparse) :
    appendAsTriplets ts ro co mats = ts ++ appendAsTriplets [] ro co mats := by
  simp [appendAsTriplets]

theorem appendDiagonal_eq (ts : List SpEntry) (ro co : ℕ) (d : List ℝ) :
    appendDiagonal ts ro co d = ts ++ appendDiagonal [] ro co d := by
  simp [appendDiagonal]

theorem appendDiagonal_sorted {ro co : ℕ} {d : List ℝ} :
    (appendDiagonal [] ro co d).Pairwise SpEntry.Before ∧
      ∀ t ∈ appendDiagonal [] ro co d, co ≤ t.col ∧ t.col < co + d.length ∧ ro ≤ t.row ∧
        t.row < ro + d.length ∧ t.row - ro = t.col - co := by
  unfold appendDiagonal
  rw [List.nil_append]
  constructor
  · rw [List.pairwise_map, List.pairwise_iff_getElem]
    intro i j hi hj hij
    left
    simp
    exact hij
  · intro t ht
    obtain ⟨e, he, rfl⟩ := List.mem_map.1 ht
    have := List.mem_zipIdx he
    simp at this ⊢
    omega

theorem appendDiagonal_coeff {ro co : ℕ} (d : List ℝ) (i j : ℕ) :
    tripletCoeff (appendDiagonal [] ro co d) i j =
      if co ≤ j ∧ ro ≤ i ∧ i - ro = j - co then d.getD (j - co) 0 else 0 := by
  induction d using List.reverseRecOn with
  | nil => simp [appendDiagonal, tripletCoeff]
  | append_singleton d x ih =>
      have : appendDiagonal [] ro co (d ++ [x]) =
          appendDiagonal [] ro co d ++ [⟨ro + d.length, co + d.length, x⟩] := by
        simp [appendDiagonal, List.zipIdx_append]
      rw [this, tripletCoeff_append, ih, tripletCoeff_cons, tripletCoeff_nil, add_zero]
      by_cases h : co ≤ j ∧ ro ≤ i ∧ i - ro = j - co
      · rw [if_pos h, if_pos h]
        simp only [List.getD_eq_getElem?_getD]
        by_cases h1 : j - co < d.length
        · rw [if_neg (by simp; omega), add_zero, List.getElem?_append_left h1]
        · by_cases h2 : j - co = d.length
          · rw [if_pos (by constructor <;> omega), h2]; simp
          · rw [if_neg (by simp; omega), add_zero, List.getElem?_eq_none (by omega),
              List.getElem?_eq_none (by simp; omega)]
      · rw [if_neg h, if_neg h, if_neg (by simp; omega), add_zero]

/-! ### Building -/

theorem Sparse.ofSorted_coeff (rows cols : ℕ) (ts : List SpEntry) (i j : ℕ) :
    (Sparse.ofSorted rows cols ts).coeff i j = tripletCoeff ts i j := by
  unfold Sparse.coeff Sparse.ofSorted tripletCoeff
  simp only
  induction ts with
  | nil => rfl
  | cons t ts ih =>
      by_cases hj : t.col = j <;> by_cases hi : t.row = i <;> simp_all

theorem Sparse.ofSorted_wf {rows cols : ℕ} {ts : List SpEntry} (hs : ts.Pairwise SpEntry.Before)
    (h : ∀ t ∈ ts, t.row < rows ∧ t.col < cols) : (Sparse.ofSorted rows cols ts).WF where
  sorted j := by
    unfold Sparse.ofSorted
    simp only
    rw [List.pairwise_map, List.pairwise_filter]
    refine hs.imp ?_
    intro a b hab ha hb
    simp at ha hb
    rcases hab with h | h
    · omega
    · exact h.2
  rows j e he := by
    obtain ⟨t, ht, rfl⟩ := List.mem_map.1 he
    exact (h t (List.mem_of_mem_filter ht)).1
  cols j hj := by
    unfold Sparse.ofSorted
    simp only
    rw [List.filter_eq_nil_iff.2, List.map_nil]
    intro t ht
    have := (h t ht).2
    simp at hj ⊢
    unfold Sparse.ofSorted at hj
    simp at hj
    omega

theorem Sparse.diagonal_wf (d : List ℝ) : (Sparse.diagonal d).WF where
  sorted j := by unfold Sparse.diagonal; simp only; rcases d[j]? <;> simp
  rows j e he := by
    unfold Sparse.diagonal at he ⊢
    simp only at he ⊢
    rcases h : d[j]? with _ | x
    · rw [h] at he; simp at he
    · rw [h] at he
      simp at he
      subst he
      exact (List.getElem?_eq_some_iff.1 h).1
  cols j hj := by
    unfold Sparse.diagonal at hj ⊢
    simp only at hj ⊢
    rw [List.getElem?_eq_none hj]; rfl

theorem Sparse.diagonal_coeff (d : List ℝ) (i j : ℕ) :
    (Sparse.diagonal d).coeff i j = if i = j then d.getD i 0 else 0 := by
  unfold Sparse.coeff Sparse.diagonal
  simp only
  by_cases hij : i = j
  · subst hij
    rcases h : d[i]? with _ | x <;> simp [h]
  · rw [if_neg hij]
    rcases h : d[j]? with _ | x
    · simp
    · simp [Ne.symm hij]

theorem Sparse.empty_wf (r c : ℕ) : (Sparse.empty r c).WF :=
  ⟨fun _ => List.Pairwise.nil, fun _ _ h => by simp [Sparse.empty] at h, fun _ _ => rfl⟩

theorem Sparse.empty_coeff (r c i j : ℕ) : (Sparse.empty r c).coeff i j = 0 := rfl

theorem Sparse.add_coeff {A B : Sparse} (hA : A.WF) (hB : B.WF) (hr : B.rows = A.rows)
    (i j : ℕ) : (A.add B).coeff i j = A.coeff i j + B.coeff i j := by
  unfold Sparse.add
  by_cases hi : i < A.rows
  · by_cases h : (∃ e ∈ A.col j, e.1 = i) ∨ (∃ e ∈ B.col j, e.1 = i)
    · have key : ∀ n, i < n → ((((List.range n).filterMap fun i =>
          if (∃ e ∈ A.col j, e.1 = i) ∨ (∃ e ∈ B.col j, e.1 = i) then some (i, A.coeff i j + B.coeff i j)
          else none).filter (fun e => e.1 = i)).map Prod.snd).sum = A.coeff i j + B.coeff i j := by
        have zero : ∀ n, n ≤ i → (((List.range n).filterMap fun i =>
            if (∃ e ∈ A.col j, e.1 = i) ∨ (∃ e ∈ B.col j, e.1 = i) then
              some (i, A.coeff i j + B.coeff i j) else none).filter (fun e => e.1 = i)) = [] := by
          intro n hn
          rw [List.filter_eq_nil_iff]
          intro e he
          obtain ⟨k, hk, hke⟩ := List.mem_filterMap.1 he
          rw [List.mem_range] at hk
          split_ifs at hke
          simp at hke
          subst hke
          simp
          omega
        intro n hn
        induction n with
        | zero => omega
        | succ n ih =>
            rw [List.range_succ, List.filterMap_append, List.filter_append, List.map_append, List.sum_append]
            by_cases hin : i < n
            · rw [ih hin]
              have : n ≠ i := by omega
              simp only [List.filterMap_cons, List.filterMap_nil]
              split_ifs <;> simp [this]
            · have : n = i := by omega
              subst this
              rw [zero n le_rfl]
              simp only [List.filterMap_cons, List.filterMap_nil, if_pos h]
              simp
      exact key _ hi
    · have h' := h
      push Not at h'
      rw [Sparse.coeff_of_not_mem h'.1, Sparse.coeff_of_not_mem h'.2, add_zero]
      refine Sparse.coeff_of_not_mem ?_
      intro e he hei
      obtain ⟨k, hk, hke⟩ := List.mem_filterMap.1 he
      split_ifs at hke with hc
      simp at hke
      subst hke
      simp only at hei
      subst hei
      exact h hc
  · rw [A.coeff_row hA (by omega), B.coeff_row hB (by omega), add_zero]
    refine Sparse.coeff_of_not_mem ?_
    intro e he hei
    obtain ⟨k, hk, hke⟩ := List.mem_filterMap.1 he
    rw [List.mem_range] at hk
    split_ifs at hke
    simp at hke
    subst hke
    simp only at hei
    omega

end Slp
