import Verif.Matrix.MakeModel
import Verif.Matrix.ArithProps
import Verif.Matrix.ViewProps

/-! C54: what constructors put into a matrix, compound assignments and iteration. -/

namespace Slp.VMat

variable {α : Type}

/-- The matrix has `m` rows, `n` columns and the elements `f i j`, and stores nothing else. -/
structure Mat.Holds (A : Mat α) (m n : ℕ) (f : ℕ → ℕ → Option α) : Prop where
  rows : A.rows = m
  cols : A.cols = n
  size : A.storage.length = m * n
  get : ∀ i j, i < m → j < n → ∃ v, f i j = some v ∧ A.get i j = some v

theorem pairs_empty {m n : ℕ} (h : ¬ (0 < m ∧ 0 < n)) : pairs m n = [] := by
  refine List.eq_nil_of_length_eq_zero ?_
  rw [pairs_length]
  rcases Nat.eq_zero_or_pos m with rfl | h1
  · exact Nat.zero_mul n
  · rcases Nat.eq_zero_or_pos n with rfl | h2
    · rfl
    · exact absurd ⟨h1, h2⟩ h

theorem ofFnM_holds {m n : ℕ} {f : ℕ → ℕ → Option α} (h : ∀ i j, i < m → j < n → (f i j).isSome) :
    ∃ A, Mat.ofFnM m n f = some A ∧ A.Holds m n f := by
  by_cases hmn : 0 < m ∧ 0 < n
  · obtain ⟨v, -⟩ := Option.isSome_iff_exists.1 (h 0 0 hmn.1 hmn.2)
    have hf : ∀ i j, i < m → j < n → f i j = some ((f i j).getD v) := fun i j hi hj => by
      obtain ⟨w, hw⟩ := Option.isSome_iff_exists.1 (h i j hi hj)
      rw [hw]; rfl
    obtain ⟨A, h1, h2, h3, h4, h5⟩ := ofFnM_spec hf
    exact ⟨A, h1, h3, h4, by rw [h2, h3, h4], fun i j hi hj => ⟨_, hf i j hi hj, h5 i j hi hj⟩⟩
  · have hp : pairs m n = [] := pairs_empty hmn
    refine ⟨⟨m, n, []⟩, ?_, rfl, rfl, ?_, ?_⟩
    · unfold Mat.ofFnM; rw [hp]; rfl
    · rw [← pairs_length, hp]; rfl
    · intro i j hi hj; omega

/-- C54: a nested list makes a matrix exactly if its rows have the same length, and the matrix has its elements. -/
theorem ofLists_correct (l : List (List α)) :
    ((∃ n, ∀ row ∈ l, row.length = n) → ∃ A n, Mat.ofLists l = some A ∧ (∀ row ∈ l, row.length = n) ∧
      A.Holds l.length n fun i j => (l[i]?).bind fun row => row[j]?) ∧
    ((¬ ∃ n, ∀ row ∈ l, row.length = n) → Mat.ofLists l = none) := by
  refine ⟨fun ⟨n, hn⟩ => ?_, fun h => if_neg fun h' => h ⟨_, h'⟩⟩
  have hc : ∀ row ∈ l, row.length = (l.head?.map List.length).getD 0 := by
    intro row hrow
    cases l with
    | nil => simp at hrow
    | cons r l => rw [hn row hrow, ← hn r (by simp)]; rfl
  refine ⟨_, _, if_pos hc, hc, rfl, rfl, ?_, fun i j hi hj => ?_⟩
  · show l.flatten.length = _
    rw [List.length_flatten, List.map_congr_left (g := fun _ => (l.head?.map List.length).getD 0) hc]
    simp
  · have hflat : ∀ (l : List (List α)) (c : ℕ), (∀ row ∈ l, row.length = c) → ∀ i, i < l.length → j < c →
        l.flatten[i * c + j]? = (l[i]?).bind fun row => row[j]? := by
      intro l c
      induction l with
      | nil => intro _ i hi; simp at hi
      | cons r l ih =>
        intro h i hi hj
        have hr : r.length = c := h r (by simp)
        cases i with
        | zero => simp [List.getElem?_append_left, hr, hj]
        | succ i =>
          rw [List.flatten_cons, List.getElem?_append_right (by rw [hr, Nat.succ_mul]; omega),
            show (i + 1) * c + j - r.length = i * c + j by rw [hr, Nat.succ_mul]; omega,
            ih (fun row hrow => h row (by simp [hrow])) i (by simpa using hi) hj]
          rfl
    rw [Mat.get_nat (A := ⟨l.length, (l.head?.map List.length).getD 0, l.flatten⟩) hi hj]
    simp only
    rw [hflat l _ hc i hi hj, List.getElem?_eq_getElem hi]
    refine ⟨l[i][j]'(by rw [hc _ (List.getElem_mem hi)]; exact hj), ?_, ?_⟩ <;>
      simp only [Option.bind_some] <;> exact List.getElem?_eq_getElem _

/-- C54: a matrix made from an Eigen matrix or a block has its elements. -/
theorem ofView_correct (V : View α) (h : ∀ i j : ℕ, i < V.rows → j < V.cols → (V.get i j).isSome) :
    ∃ A, Mat.ofView V = some A ∧ A.Holds V.rows V.cols fun i j => V.get i j :=
  ofFnM_holds h

/-- C54: a matrix made from a diagonal matrix. -/
theorem ofDiagonal_correct (zero : α) (d : List α) :
    ∃ A, Mat.ofDiagonal zero d = some A ∧
      A.Holds d.length d.length fun i j => if i = j then d[i]? else some zero := by
  refine ofFnM_holds fun i j hi hj => ?_
  split
  · rw [List.getElem?_eq_getElem hi]; rfl
  · rfl

/-- C54: a matrix made from an array, whose length must be the number of elements. -/
theorem ofArray_correct (values : List α) (m n : ℕ) :
    (values.length = m * n → ∃ A, Mat.ofArray values m n = some A ∧ A.Holds m n fun i j => values[i * n + j]?) ∧
    (values.length ≠ m * n → Mat.ofArray values m n = none) := by
  refine ⟨fun h => ?_, fun h => if_neg h⟩
  obtain ⟨A, h1, h2⟩ := ofFnM_holds (m := m) (n := n) (f := fun i j => values[i * n + j]?) fun i j hi hj => by
    rw [List.getElem?_eq_getElem (by rw [h]; exact index_lt hi hj)]; rfl
  exact ⟨A, by rw [Mat.ofArray, if_pos h, h1], h2⟩

/-- C54: a column vector made from an array. -/
theorem ofSpan_correct (values : List α) :
    ∃ A, Mat.ofSpan values = some A ∧ A.Holds values.length 1 fun i _ => values[i]? := by
  obtain ⟨A, h1, h2⟩ := ofFnM_holds (m := values.length) (n := 1) (f := fun i j => values[i * 1 + j]?)
    fun i j hi hj => by
      rw [List.getElem?_eq_getElem (by omega)]; rfl
  refine ⟨A, h1, h2.rows, h2.cols, h2.size, fun i j hi hj => ?_⟩
  have := h2.get i j hi hj
  rwa [show i * 1 + j = i by omega] at this

/-- C54: constant matrices. -/
theorem fill_correct (m n : ℕ) (c : α) : (Mat.fill m n c).Holds m n fun _ _ => some c := by
  refine ⟨rfl, rfl, by simp [Mat.fill], fun i j hi hj => ⟨c, rfl, ?_⟩⟩
  rw [Mat.get_nat (A := Mat.fill m n c) hi hj]
  have := index_lt hi hj
  simp only [Mat.fill, List.getElem?_map, List.getElem?_replicate]
  rw [if_pos this]; rfl

/-- C54: the identity matrix. -/
theorem identity_correct (zero one : α) (n : ℕ) :
    ∃ A, Mat.identity zero one n = some A ∧ A.Holds n n fun i j => some (if i = j then one else zero) :=
  ofFnM_holds fun _ _ _ _ => rfl

/-- C54: a Variable becomes a matrix with one element and back; other matrices do not convert. -/
theorem scalar_round_trip (v : α) : (Mat.ofVariable v).toVariable = some v ∧
    (Mat.ofVariable v).Holds 1 1 (fun _ _ => some v) ∧
    ∀ A : Mat α, (A.rows ≠ 1 ∨ A.cols ≠ 1) → A.toVariable = none ∧ ∀ w, A.assignScalar w = none := by
  refine ⟨rfl, ⟨rfl, rfl, rfl, fun i j hi hj => ⟨v, rfl, ?_⟩⟩, fun A hA => ?_⟩
  · rw [show i = 0 by omega, show j = 0 by omega]; rfl
  · have : ¬ (A.rows = 1 ∧ A.cols = 1) := by omega
    exact ⟨if_neg this, fun w => if_neg this⟩

/-! ### Compound assignment -/

/-- A loop nest over a matrix that computes each element from its previous value. -/
theorem update_spec {A : Mat α} (hA : A.Valid) {f : Mat α → ℕ → ℕ → Option α} {g : ℕ → ℕ → α}
    (hf : ∀ (A' : Mat α) (i j : ℕ), i < A.rows → j < A.cols → A'.get i j = A.get i j → f A' i j = some (g i j)) :
    ∃ B, A.update f = some B ∧ B.Holds A.rows A.cols fun i j => some (g i j) := by
  have key : ∀ (l : List (ℕ × ℕ)), l.Nodup → (∀ p ∈ l, p.1 < A.rows ∧ p.2 < A.cols) →
      ∀ A' : Mat α, A'.Valid → A'.rows = A.rows → A'.cols = A.cols → (∀ p ∈ l, A'.get p.1 p.2 = A.get p.1 p.2) →
      ∃ B, l.foldlM (fun (A : Mat α) p => (f A p.1 p.2).bind fun v => A.set p.1 p.2 v) A' = some B ∧ B.Valid ∧
        B.rows = A.rows ∧ B.cols = A.cols ∧ (∀ p ∈ l, B.get p.1 p.2 = some (g p.1 p.2)) ∧
        ∀ i j : ℕ, (i, j) ∉ l → B.get i j = A'.get i j := by
    intro l
    induction l with
    | nil => intro _ _ A' h1 h2 h3 _; exact ⟨A', rfl, h1, h2, h3, by simp, fun _ _ _ => rfl⟩
    | cons p l ih =>
      intro hnd hl A' h1 h2 h3 h4
      obtain ⟨hp, hnd⟩ := List.nodup_cons.1 hnd
      obtain ⟨hi, hj⟩ := hl p (by simp)
      obtain ⟨A2, e2, v2, r2, c2, g2, o2⟩ := Mat.set_spec h1 (i := p.1) (j := p.2) (by omega) (by omega) (g p.1 p.2)
      have ho : ∀ i j : ℕ, (i, j) ≠ p → A2.get i j = A'.get i j := fun i j hij => o2 i j fun ⟨ha, hb⟩ =>
        hij (Prod.ext (by exact_mod_cast ha) (by exact_mod_cast hb))
      obtain ⟨B, e, v, r, c, hg, hu⟩ := ih hnd (fun q hq => hl q (by simp [hq])) A2 v2 (by omega) (by omega)
        fun q hq => by rw [ho q.1 q.2 fun h => hp (h ▸ hq)]; exact h4 q (by simp [hq])
      refine ⟨B, ?_, v, r, c, ?_, ?_⟩
      · rw [List.foldlM_cons, hf A' p.1 p.2 hi hj (h4 p (by simp))]
        simp only [Option.bind_eq_bind, Option.bind_some]
        rw [e2]
        exact e
      · intro q hq
        rcases List.mem_cons.1 hq with rfl | hq
        · rw [hu q.1 q.2 hp]; exact g2
        · exact hg q hq
      · intro i j hij
        rw [List.mem_cons, not_or] at hij
        rw [hu i j hij.2, ho i j hij.1]
  obtain ⟨B, e, v, r, c, hg, -⟩ := key (pairs A.rows A.cols) (pairs_nodup _ _) (fun p hp => mem_pairs.1 hp) A hA rfl rfl
    fun _ _ => rfl
  exact ⟨B, e, r, c, by rw [v, r, c], fun i j hi hj => ⟨_, rfl, hg (i, j) (mem_pairs.2 ⟨hi, hj⟩)⟩⟩

/-- C54: `A op= B` for matrices of the same size computes every element from the previous one and that of `B`; other
sizes are rejected. -/
theorem compound_correct (op : α → α → α) {A : Mat α} (hA : A.Valid) (V : View α)
    (hV : ∀ i j : ℕ, i < V.rows → j < V.cols → (V.get i j).isSome) :
    (A.rows = V.rows ∧ A.cols = V.cols → ∃ B, A.compound op V = some B ∧ B.Holds A.rows A.cols fun i j => do
      some (op (← A.get i j) (← V.get i j))) ∧
    (¬ (A.rows = V.rows ∧ A.cols = V.cols) → A.compound op V = none) := by
  refine ⟨fun hs => ?_, fun hs => if_neg hs⟩
  by_cases hne : 0 < A.rows ∧ 0 < A.cols
  · obtain ⟨x0, -⟩ := Mat.get_isSome hA hne.1 hne.2
    have ex : ∀ i j : ℕ, i < A.rows → j < A.cols → ∃ x y, A.get i j = some x ∧ V.get i j = some y :=
      fun i j hi hj => by
        obtain ⟨x, hx⟩ := Mat.get_isSome hA hi hj
        obtain ⟨y, hy⟩ := Option.isSome_iff_exists.1 (hV i j (by omega) (by omega))
        exact ⟨x, y, hx, hy⟩
    obtain ⟨B, h1, h2⟩ := update_spec hA (f := fun A i j => (A.get i j).bind fun x => (V.get i j).bind fun y => some (op x y))
      (g := fun i j => ((A.get i j).bind fun x => (V.get i j).bind fun y => some (op x y)).getD x0) (by
        intro A' i j hi hj h
        obtain ⟨x, y, hx, hy⟩ := ex i j hi hj
        rw [h, hx, hy]; rfl)
    refine ⟨B, by rw [Mat.compound, if_pos hs]; exact h1, h2.rows, h2.cols, h2.size, fun i j hi hj => ?_⟩
    obtain ⟨x, y, hx, hy⟩ := ex i j hi hj
    obtain ⟨v, hv, hg⟩ := h2.get i j hi hj
    rw [hx, hy] at hv
    refine ⟨v, ?_, hg⟩
    rw [hx, hy]
    exact hv
  · have hp : pairs A.rows A.cols = [] := pairs_empty hne
    refine ⟨A, by rw [Mat.compound, if_pos hs, Mat.update, hp]; rfl, rfl, rfl, hA, fun i j hi hj => ?_⟩
    omega

/-- C54: `A op= c` computes every element from the previous one and the scalar. -/
theorem compoundScalar_correct (op : α → α → α) {A : Mat α} (hA : A.Valid) (c : α) :
    ∃ B, A.compoundScalar op c = some B ∧ B.Holds A.rows A.cols fun i j => (A.get i j).map fun x => op x c := by
  obtain ⟨B, h1, h2⟩ := update_spec hA (f := fun A i j => (A.get i j).bind fun x => some (op x c))
    (g := fun i j => ((A.get i j).map fun x => op x c).getD c) (by
      intro A' i j hi hj h
      obtain ⟨x, hx⟩ := Mat.get_isSome hA hi hj
      rw [h, hx]; rfl)
  refine ⟨B, h1, h2.rows, h2.cols, h2.size, fun i j hi hj => ?_⟩
  obtain ⟨x, hx⟩ := Mat.get_isSome hA hi hj
  obtain ⟨v, hv, hg⟩ := h2.get i j hi hj
  rw [hx] at hv
  exact ⟨v, by rw [hx]; exact hv, hg⟩

/-- C54: `A += c` and `A -= c` for a matrix with one element; other matrices are rejected. -/
theorem compoundOne_correct (op : α → α → α) (A : Mat α) (x c : α) :
    (Mat.ofVariable x).compoundOne op c = some (Mat.ofVariable (op x c)) ∧
    ((A.rows ≠ 1 ∨ A.cols ≠ 1) → A.compoundOne op c = none) :=
  ⟨rfl, fun h => if_neg (by omega)⟩

/-- C54: assignment of an Eigen matrix of the same size; other sizes are rejected. -/
theorem assign_correct {A : Mat α} (hA : A.Valid) (V : View α)
    (hV : ∀ i j : ℕ, i < V.rows → j < V.cols → (V.get i j).isSome) :
    (A.rows = V.rows ∧ A.cols = V.cols → ∃ B, A.assign V = some B ∧ B.Holds V.rows V.cols fun i j => V.get i j) ∧
    (¬ (A.rows = V.rows ∧ A.cols = V.cols) → A.assign V = none) := by
  refine ⟨fun hs => ?_, fun hs => if_neg hs⟩
  by_cases hne : 0 < A.rows ∧ 0 < A.cols
  · obtain ⟨x0, -⟩ := Mat.get_isSome hA hne.1 hne.2
    have ex : ∀ i j : ℕ, i < A.rows → j < A.cols → ∃ y, V.get i j = some y := fun i j hi hj =>
      Option.isSome_iff_exists.1 (hV i j (by omega) (by omega))
    obtain ⟨B, h1, h2⟩ := update_spec hA (f := fun _ i j => V.get i j) (g := fun i j => (V.get i j).getD x0) (by
      intro A' i j hi hj _
      obtain ⟨y, hy⟩ := ex i j hi hj
      rw [hy]; rfl)
    refine ⟨B, by rw [Mat.assign, if_pos hs]; exact h1, h2.rows.trans hs.1, h2.cols.trans hs.2,
      by rw [h2.size, hs.1, hs.2], fun i j hi hj => ?_⟩
    obtain ⟨y, hy⟩ := ex i j (by omega) (by omega)
    obtain ⟨v, hv, hg⟩ := h2.get i j (by omega) (by omega)
    rw [hy] at hv
    exact ⟨v, by rw [hy]; exact hv, hg⟩
  · have hp : pairs A.rows A.cols = [] := pairs_empty hne
    refine ⟨A, by rw [Mat.assign, if_pos hs, Mat.update, hp]; rfl, hs.1, hs.2, by rw [hA, hs.1, hs.2], fun i j hi hj => ?_⟩
    omega

/-! ### Iteration -/

/-- `l` lists the elements `f i j` row by row. -/
structure RowByRow (l : List α) (m n : ℕ) (f : ℕ → ℕ → Option α) : Prop where
  size : l.length = m * n
  get : ∀ i j, i < m → j < n → l[i * n + j]? = f i j

theorem Range.forward_eq {R : Range α} {l : List α} (hl : R.last = l.length)
    (hd : ∀ k, k < l.length → R.deref k = l[k]?) (fuel it : ℕ) (hit : it ≤ l.length) (hf : l.length ≤ fuel + it) :
    R.forward fuel it = some (l.drop it) := by
  induction fuel generalizing it with
  | zero =>
    rw [Range.forward, if_pos (by omega), List.drop_eq_nil_of_le (by omega)]
  | succ fuel ih =>
    rw [Range.forward]
    split
    · rw [List.drop_eq_nil_of_le (by omega)]
    · have hlt : it < l.length := by omega
      rw [hd it hlt, ih (it + 1) (by omega) (by omega), List.getElem?_eq_getElem hlt, List.drop_eq_getElem_cons hlt]
      rfl

theorem Range.backward_eq {R : Range α} {l : List α} (h0 : R.first = 0)
    (hd : ∀ k, k < l.length → R.deref k = l[k]?) (fuel it : ℕ) (hit : it ≤ l.length) (hf : it ≤ fuel) :
    R.backward fuel it = some (l.take it).reverse := by
  induction fuel generalizing it with
  | zero =>
    obtain rfl : it = 0 := by omega
    rw [Range.backward, if_pos h0.symm]; rfl
  | succ fuel ih =>
    rw [Range.backward]
    split
    · obtain rfl : it = 0 := by omega
      rfl
    · obtain ⟨k, rfl⟩ : ∃ k, it = k + 1 := ⟨it - 1, by omega⟩
      have hlt : k < l.length := by omega
      rw [Nat.add_sub_cancel, hd k hlt, ih k (by omega) (by omega), List.getElem?_eq_getElem hlt,
        List.take_succ_eq_append_getElem hlt, List.reverse_append]
      rfl

/-- C54: a loop over a matrix meets its elements row by row, and a reverse loop meets them in the opposite order. -/
theorem matrix_iteration {A : Mat α} (hA : A.Valid) {fuel : ℕ} (hf : A.rows * A.cols ≤ fuel) :
    ∃ l, RowByRow l A.rows A.cols (fun i j => A.get i j) ∧ A.range.forward fuel A.range.first = some l ∧
      A.range.backward fuel A.range.last = some l.reverse := by
  have hA' : A.storage.length = A.rows * A.cols := hA
  refine ⟨A.storage, ⟨hA, fun i j hi hj => (Mat.get_nat hi hj).symm⟩, ?_, ?_⟩
  · exact Range.forward_eq (R := A.range) rfl (fun _ _ => rfl) fuel 0 (by omega) (by omega)
  · have := Range.backward_eq (R := A.range) (l := A.storage) rfl (fun _ _ => rfl) fuel A.storage.length le_rfl (by omega)
    rwa [List.take_length] at this

/-- C54: the same for views: a loop meets the selected elements row by row. -/
theorem view_iteration {N M : ℕ} {first : Access} {rest : List Access} {R C : List ℤ} (h : ChainOk N M first rest R C)
    {b : Block} (hb : views N M first rest = some b) {A : Mat α} (hA : A.Valid) (hN : A.rows = N) (hM : A.cols = M)
    {fuel : ℕ} (hf : R.length * C.length ≤ fuel) :
    ∃ l, RowByRow l R.length C.length (fun i j => do A.get (← R[i]?) (← C[j]?)) ∧
      (b.range A).forward fuel (b.range A).first = some l ∧
      (b.range A).backward fuel (b.range A).last = some l.reverse := by
  obtain ⟨b', hb', hr, hc, -, -, hR, hC, -⟩ := view_reads (α := α) h
  obtain rfl : b = b' := Option.some_injective _ (hb.symm.trans hb')
  have hex : ∀ i j, i < R.length → j < C.length → ∃ x y v, R[i]? = some x ∧ C[j]? = some y ∧ A.get x y = some v := by
    intro i j hi hj
    obtain ⟨x1, x2⟩ := hR _ (List.getElem_mem hi)
    obtain ⟨y1, y2⟩ := hC _ (List.getElem_mem hj)
    obtain ⟨x, hx⟩ := Int.eq_ofNat_of_zero_le x1
    obtain ⟨y, hy⟩ := Int.eq_ofNat_of_zero_le y1
    obtain ⟨v, hv⟩ := Mat.get_isSome hA (i := x) (j := y) (by omega) (by omega)
    exact ⟨_, _, v, List.getElem?_eq_getElem hi, List.getElem?_eq_getElem hj, by rw [hx, hy]; exact hv⟩
  obtain ⟨B, -, hB⟩ := ofFnM_holds (m := R.length) (n := C.length)
    (f := fun i j => (R[i]?).bind fun x => (C[j]?).bind fun y => A.get x y) fun i j hi hj => by
      obtain ⟨x, y, v, hx, hy, hv⟩ := hex i j hi hj
      rw [hx, hy, Option.bind_some, Option.bind_some, hv]; rfl
  have hBv : B.Valid := by rw [Mat.Valid, hB.size, hB.rows, hB.cols]
  have hget : ∀ i j, i < R.length → j < C.length → B.storage[i * C.length + j]? =
      (R[i]?).bind fun x => (C[j]?).bind fun y => A.get x y := by
    intro i j hi hj
    obtain ⟨v, h1, h2⟩ := hB.get i j hi hj
    rw [Mat.get_nat (by rw [hB.rows]; exact hi) (by rw [hB.cols]; exact hj), hB.cols] at h2
    rw [h1, h2]
  have hlast : (b.range A).last = B.storage.length := by
    show (b.rows * b.cols).toNat = _
    rw [hr, hc, hB.size]
    exact Int.toNat_natCast _
  have hd : ∀ k, k < B.storage.length → (b.range A).deref k = B.storage[k]? := by
    intro k hk
    rw [hB.size] at hk
    have hc0 : 0 < C.length := Nat.pos_of_ne_zero fun h0 => by simp [h0] at hk
    have hi : k / C.length < R.length := Nat.div_lt_of_lt_mul (by rwa [Nat.mul_comm])
    have hj : k % C.length < C.length := Nat.mod_lt _ hc0
    have hk' : k = k / C.length * C.length + k % C.length := (Nat.div_add_mod' k C.length).symm
    obtain ⟨x, y, v, hx, hy, hv⟩ := hex _ _ hi hj
    have e := view_reads_index h hb A hx hy
    rw [← hk'] at e
    show b.getIndex A (k : ℕ) = _
    rw [e]
    conv_rhs => rw [hk']
    rw [hget _ _ hi hj, hx, hy]; rfl
  refine ⟨B.storage, ⟨hB.size, hget⟩, ?_, ?_⟩
  · exact Range.forward_eq (R := b.range A) hlast hd fuel 0 (by omega) (by rw [hB.size]; omega)
  · have := Range.backward_eq (R := b.range A) (l := B.storage) rfl hd fuel B.storage.length le_rfl (by rw [hB.size]; omega)
    rw [List.take_length] at this
    rwa [hlast]

/-! ### Examples -/

example : ∃ n, ∀ row ∈ [[1, 2, 3], [4, 5, 6]], List.length (row : List ℕ) = n := ⟨3, by simp⟩

example : ¬ ∃ n, ∀ row ∈ [[1, 2, 3], [4, 5]], List.length (row : List ℕ) = n := by
  rintro ⟨n, h⟩
  have := h [1, 2, 3] (by simp)
  have := h [4, 5] (by simp)
  simp_all only [List.length_cons, List.length_nil]
  omega

example : (⟨2, 2, [1, 2, 3, 4]⟩ : Mat ℕ).Valid := rfl

example : (⟨2, 2, [1, 2, 3, 4]⟩ : Mat ℕ).range.backward 4 4 = some [4, 3, 2, 1] := rfl

end Slp.VMat
