import Verif.Matrix.BlockProps

/-! C17: `block()` assembles a matrix from blocks. -/

namespace Slp.VMat

open Slp.Slicing

variable {α : Type}

/-- The height of a row of blocks. -/
def height (row : List (Mat α)) : ℕ := (row.head?.map Mat.rows).getD 0

/-- The width of a row of blocks. -/
def width (row : List (Mat α)) : ℕ := (row.map Mat.cols).sum

/-- The height of a list of rows of blocks. -/
def heights (list : List (List (Mat α))) : ℕ := (list.map height).sum

/-- A list of rows of blocks that fit together to a matrix with `W` columns. -/
structure Fits (list : List (List (Mat α))) (W : ℕ) : Prop where
  nonempty : list ≠ []
  valid : ∀ row ∈ list, ∀ e ∈ row, e.Valid
  rowHeights : ∀ row ∈ list, ∀ e ∈ row, e.rows = height row
  widths : ∀ row ∈ list, width row = W

/-- The element `v` of one of the blocks covers the position `(i, j)`. -/
def Covers (list : List (List (Mat α))) (i j : ℕ) (v : α) : Prop :=
  ∃ (above : List (List (Mat α))) (left right : List (Mat α)) (below : List (List (Mat α))) (e : Mat α)
    (a b : ℕ), list = above ++ (left ++ e :: right) :: below ∧ i = heights above + a ∧
    j = width left + b ∧ e.get a b = some v

theorem height_elim (row : List (Mat α)) :
    (row.head?.elim 0 fun m => (m.rows : ℤ)) = height row := by
  cases row <;> simp [height]

theorem foldlM_width (row l : List (Mat α)) (h : ∀ e ∈ l, row.head?.map Mat.rows = some e.rows) (acc : ℤ) :
    l.foldlM (fun acc (elem : Mat α) =>
      if row.head?.map Mat.rows = some elem.rows then some (acc + (elem.cols : ℤ)) else none) acc =
      some (acc + (width l : ℤ)) := by
  induction l generalizing acc with
  | nil => simp [width]
  | cons e l ih =>
      rw [List.foldlM_cons, if_pos (h e (by simp))]
      simp only [Option.bind_eq_bind, Option.bind_some]
      rw [ih (fun e he => h e (by simp [he]))]
      simp [width, add_assoc]

theorem blockSize_fits {list : List (List (Mat α))} {W : ℕ} (h : Fits list W) :
    blockSize list = some ((heights list : ℤ), (W : ℤ)) := by
  have hrow : ∀ row ∈ list, row.foldlM (fun acc (elem : Mat α) =>
      if row.head?.map Mat.rows = some elem.rows then some (acc + (elem.cols : ℤ)) else none) (0 : ℤ) =
      some (W : ℤ) := by
    intro row hr
    rw [foldlM_width row row, h.widths row hr, zero_add]
    intro e he
    have := h.rowHeights row hr e he
    cases row with
    | nil => simp at he
    | cons f row => simpa [height] using this.symm
  have key : ∀ l : List (List (Mat α)), (∀ row ∈ l, row ∈ list) → ∀ st : ℤ × ℤ, st.2 = W →
      l.foldlM (fun (st : ℤ × ℤ) row => do
        let rows := st.1 + (row.head?.elim 0 fun m => (m.rows : ℤ))
        let latest ← row.foldlM (fun acc elem =>
          if row.head?.map Mat.rows = some elem.rows then some (acc + (elem.cols : ℤ)) else none) (0 : ℤ)
        if st.2 = -1 then some (rows, latest)
        else if st.2 = latest then some (rows, st.2) else none) st = some (st.1 + heights l, (W : ℤ)) := by
    intro l
    induction l with
    | nil => intro _ st hst; simp [heights, ← hst]
    | cons row l ih =>
        intro hl st hst
        rw [List.foldlM_cons, hrow row (hl row (by simp))]
        simp only [Option.bind_eq_bind, Option.bind_some]
        rw [if_neg (by omega), if_pos hst]
        simp only [Option.bind_some]
        have := ih (fun r hr => hl r (by simp [hr])) (st.1 + (row.head?.elim 0 fun m => (m.rows : ℤ)), st.2) hst
        simp only [Option.bind_eq_bind] at this
        rw [this, height_elim]
        simp [heights, add_assoc]
  cases list with
  | nil => exact absurd rfl h.nonempty
  | cons row l =>
      unfold blockSize
      rw [List.foldlM_cons, hrow row (by simp)]
      simp only [Option.bind_eq_bind, Option.bind_some]
      rw [if_pos trivial]
      simp only [Option.bind_some]
      have := key l (fun r hr => by simp [hr]) (0 + (row.head?.elim 0 fun m => (m.rows : ℤ)), W) rfl
      simp only [Option.bind_eq_bind] at this
      rw [this, height_elim]
      simp [heights]

theorem allOf_getElem? {n k : ℕ} (h : k < n) : (allOf n)[k]? = some (k : ℤ) := by
  simp [allOf, h]

theorem window {n o l k : ℕ} (h : o + l ≤ n) (hk : k < l) :
    (((allOf n).drop o).take l)[k]? = some ((o + k : ℕ) : ℤ) := by
  rw [List.getElem?_take_of_lt hk, List.getElem?_drop, allOf_getElem? (by omega)]

theorem window_length {n o l : ℕ} (h : o + l ≤ n) : (((allOf n).drop o).take l).length = l := by
  simp [allOf]; omega

theorem mem_window {n o l : ℕ} (h : o + l ≤ n) {x : ℤ} (hx : x ∈ ((allOf n).drop o).take l) :
    (o : ℤ) ≤ x ∧ x < o + l := by
  obtain ⟨k, hk⟩ := List.getElem?_of_mem hx
  have hlt := (List.getElem?_eq_some_iff.1 hk).1
  rw [window_length h] at hlt
  rw [window h hlt] at hk
  have := Option.some_injective _ hk
  omega

/-- One assignment of a block into the result. -/
theorem place {A : Mat (Option α)} (hA : A.Valid) {e : Mat α} (he : e.Valid) {ro co : ℕ}
    (hr : ro + e.rows ≤ A.rows) (hc : co + e.cols ≤ A.cols) (hR : (A.rows : ℤ) ≤ intMax)
    (hC : (A.cols : ℤ) ≤ intMax) :
    ∃ A', ((Block.ofBlock A.rows A.cols ro co e.rows e.cols).bind fun b =>
        b.assign A ⟨e.rows, e.cols, fun i j => (e.get i j).map some⟩) = some A' ∧
      A'.Valid ∧ A'.rows = A.rows ∧ A'.cols = A.cols ∧
      (∀ (a b : ℕ) (v : α), e.get a b = some v → A'.get (ro + a : ℕ) (co + b : ℕ) = some (some v)) ∧
      ∀ x y : ℤ, ¬ ((ro : ℤ) ≤ x ∧ x < ro + e.rows ∧ (co : ℤ) ≤ y ∧ y < co + e.cols) →
        A'.get x y = A.get x y := by
  have hsel : Access.Selects (allOf A.rows) (allOf A.cols) (.block ro co e.rows e.cols)
      (((allOf A.rows).drop ro).take e.rows) (((allOf A.cols).drop co).take e.cols) :=
    .block (by simpa [allOf] using hr) (by simpa [allOf] using hc)
  have hok : ChainOk A.rows A.cols (.block ro co e.rows e.cols) []
      (((allOf A.rows).drop ro).take e.rows) (((allOf A.cols).drop co).take e.cols) :=
    ⟨.cons hsel .nil, hR, hC, by simp, by simp⟩
  obtain ⟨b, hb, -⟩ := view_reads (α := Option α) hok
  have hb' : Block.ofBlock A.rows A.cols ro co e.rows e.cols = some b := by
    simpa [views, Access.onMatrix] using hb
  have hval : ∀ i j : ℕ, i < e.rows → j < e.cols → ∃ v, e.get i j = some v :=
    fun i j hi hj => Mat.get_isSome he hi hj
  obtain ⟨A', h1, h2, h3, h4, h5, h6⟩ := view_writes hok hb hA rfl rfl
    ⟨e.rows, e.cols, fun i j => (e.get i j).map some⟩ (window_length hr).symm (window_length hc).symm
    (fun i j => e.get i j) (by
      rw [window_length hr, window_length hc]
      intro i j hi hj
      obtain ⟨v, hv⟩ := hval i j hi hj
      simp [hv])
  refine ⟨A', by rw [hb']; exact h1, h2, h3, h4, ?_, ?_⟩
  · intro a b' v hv
    have hin : a < e.rows ∧ b' < e.cols := by
      by_contra hcon
      rw [Mat.get_out (by omega)] at hv
      cases hv
    rw [h5 a b' _ _ (window hr hin.1) (window hc hin.2)]; simp only [hv]
  · intro x y hxy
    apply h6
    by_contra hcon
    rw [not_or, not_not, not_not] at hcon
    have := mem_window hr hcon.1
    have := mem_window hc hcon.2
    exact hxy (by omega)

/-- The assignments of one row of blocks. -/
theorem placeRow (row : List (Mat α)) (h : ℕ) (hv : ∀ e ∈ row, e.Valid) (hh : ∀ e ∈ row, e.rows = h)
    {A : Mat (Option α)} (hA : A.Valid) {ro co : ℕ} (hr : ro + h ≤ A.rows)
    (hc : co + width row ≤ A.cols) (hR : (A.rows : ℤ) ≤ intMax) (hC : (A.cols : ℤ) ≤ intMax) :
    ∃ A', row.foldlM (fun (st : Mat (Option α) × ℤ × ℤ) elem => do
        let b ← Block.ofBlock st.1.rows st.1.cols st.2.1 st.2.2 elem.rows elem.cols
        let m ← b.assign st.1 ⟨elem.rows, elem.cols, fun i j => (elem.get i j).map some⟩
        some (m, st.2.1, st.2.2 + (elem.cols : ℤ))) (A, (ro : ℤ), (co : ℤ)) =
          some (A', (ro : ℤ), ((co + width row : ℕ) : ℤ)) ∧
      A'.Valid ∧ A'.rows = A.rows ∧ A'.cols = A.cols ∧
      (∀ (left right : List (Mat α)) (e : Mat α) (a b : ℕ) (v : α), row = left ++ e :: right →
        e.get a b = some v → A'.get (ro + a : ℕ) (co + width left + b : ℕ) = some (some v)) ∧
      ∀ x y : ℤ, ¬ ((ro : ℤ) ≤ x ∧ x < ro + h ∧ (co : ℤ) ≤ y) → A'.get x y = A.get x y := by
  induction row generalizing A co with
  | nil => exact ⟨A, by simp [width], hA, rfl, rfl, by simp, fun _ _ _ => rfl⟩
  | cons e row ih =>
      have hw : width (e :: row) = e.cols + width row := by simp [width]
      have heh := hh e (by simp)
      obtain ⟨A1, p1, p2, p3, p4, p5, p6⟩ := place hA (hv e (by simp)) (ro := ro) (co := co)
        (by omega) (by omega) hR hC
      obtain ⟨A', q1, q2, q3, q4, q5, q6⟩ := ih (fun e he => hv e (by simp [he]))
        (fun e he => hh e (by simp [he])) p2 (co := co + e.cols) (by omega) (by omega) (by omega) (by omega)
      refine ⟨A', ?_, q2, by omega, by omega, ?_, ?_⟩
      · rw [List.foldlM_cons]
        obtain ⟨b, hb, hb2⟩ := Option.bind_eq_some_iff.1 p1
        simp only [hb, hb2, Option.bind_eq_bind, Option.bind_some] at q1 ⊢
        have hco : (co : ℤ) + (e.cols : ℤ) = ((co + e.cols : ℕ) : ℤ) := by push_cast; rfl
        rw [hco, q1, hw]
        simp [add_assoc]
      · intro left right f a b v hl hf
        cases left with
        | nil =>
            simp only [List.nil_append, List.cons.injEq] at hl
            obtain ⟨rfl, rfl⟩ := hl
            rw [q6 _ _ (by
              have hin : b < e.cols := by
                by_contra hcon
                rw [Mat.get_out (by omega)] at hf
                cases hf
              simp [width]; omega)]
            simpa [width] using p5 a b v hf
        | cons g left =>
            simp only [List.cons_append, List.cons.injEq] at hl
            obtain ⟨rfl, rfl⟩ := hl
            have := q5 left right f a b v rfl hf
            have hwl : width (e :: left) = e.cols + width left := by simp [width]
            rw [hwl, show co + (e.cols + width left) + b = co + e.cols + width left + b by ring]
            exact this
      · intro x y hxy
        rw [q6 x y (by push_cast; omega), p6 x y (by omega)]

/-- The rows of blocks below `ro`. -/
theorem placeRows (l : List (List (Mat α))) (hv : ∀ row ∈ l, ∀ e ∈ row, e.Valid)
    (hh : ∀ row ∈ l, ∀ e ∈ row, e.rows = height row) {A : Mat (Option α)} (hA : A.Valid)
    (hw : ∀ row ∈ l, width row = A.cols) {ro : ℕ} (hr : ro + heights l ≤ A.rows)
    (hR : (A.rows : ℤ) ≤ intMax) (hC : (A.cols : ℤ) ≤ intMax) :
    ∃ A', l.foldlM (fun (st : Mat (Option α) × ℤ) row => do
        let st' ← row.foldlM (fun (st : Mat (Option α) × ℤ × ℤ) elem => do
          let b ← Block.ofBlock st.1.rows st.1.cols st.2.1 st.2.2 elem.rows elem.cols
          let m ← b.assign st.1 ⟨elem.rows, elem.cols, fun i j => (elem.get i j).map some⟩
          some (m, st.2.1, st.2.2 + (elem.cols : ℤ))) (st.1, st.2, (0 : ℤ))
        some (st'.1, st.2 + (row.head?.elim 0 fun m => (m.rows : ℤ)))) (A, (ro : ℤ)) =
          some (A', ((ro + heights l : ℕ) : ℤ)) ∧
      A'.Valid ∧ A'.rows = A.rows ∧ A'.cols = A.cols ∧
      (∀ i j v, Covers l i j v → A'.get (ro + i : ℕ) j = some (some v)) ∧
      ∀ x y : ℤ, x < ro → A'.get x y = A.get x y := by
  induction l generalizing A ro with
  | nil =>
      refine ⟨A, by simp [heights], hA, rfl, rfl, ?_, fun _ _ _ => rfl⟩
      rintro i j v ⟨above, left, right, below, e, a, b, hl, -⟩
      simp at hl
  | cons row l ih =>
      have hhs : heights (row :: l) = height row + heights l := by simp [heights]
      have hwr := hw row (by simp)
      obtain ⟨A1, p1, p2, p3, p4, p5, p6⟩ := placeRow row (height row) (hv row (by simp)) (hh row (by simp))
        hA (ro := ro) (co := 0) (by omega) (by omega) hR hC
      obtain ⟨A', q1, q2, q3, q4, q5, q6⟩ := ih (fun r hr => hv r (by simp [hr]))
        (fun r hr => hh r (by simp [hr])) p2 (fun r hr => by rw [p4]; exact hw r (by simp [hr]))
        (ro := ro + height row) (by omega) (by omega) (by omega)
      refine ⟨A', ?_, q2, by omega, by omega, ?_, ?_⟩
      · rw [List.foldlM_cons]
        simp only [Nat.cast_zero] at p1
        rw [p1]
        simp only [Option.bind_eq_bind, Option.bind_some]
        rw [height_elim, ← Nat.cast_add]
        simp only [Option.bind_eq_bind] at q1
        rw [q1, hhs, add_assoc]
      · rintro i j v ⟨above, left, right, below, e, a, b, hl, rfl, rfl, hg⟩
        cases above with
        | nil =>
            simp only [List.nil_append, List.cons.injEq] at hl
            obtain ⟨hrow, rfl⟩ := hl
            have hin : a < height row := by
              rw [← hh row (by simp) e (by simp [hrow])]
              by_contra hcon
              rw [Mat.get_out (by omega)] at hg
              cases hg
            rw [q6 _ _ (by simp [heights]; omega)]
            simpa [heights] using p5 left right e a b v hrow hg
        | cons r above =>
            simp only [List.cons_append, List.cons.injEq] at hl
            obtain ⟨rfl, rfl⟩ := hl
            have hha : heights (row :: above) = height row + heights above := by simp [heights]
            have := q5 _ _ v ⟨above, left, right, below, e, a, b, rfl, rfl, rfl, hg⟩
            rw [hha, show ro + (height row + heights above + a) = ro + height row + (heights above + a) by ring]
            exact this
      · intro x y hxy
        rw [q6 x y (by omega), p6 x y (by omega)]

/-- C17. `block({{...}, ...})` of blocks that fit together is the matrix with the blocks' heights and
widths in which every position holds the element of the block that covers it. -/
theorem block_correct {list : List (List (Mat α))} {W : ℕ} (h : Fits list W)
    (hR : (heights list : ℤ) ≤ intMax) (hC : (W : ℤ) ≤ intMax) :
    ∃ A, block list = some A ∧ A.Valid ∧ A.rows = heights list ∧ A.cols = W ∧
      (∀ i j v, Covers list i j v → A.get i j = some (some v)) := by
  have hval : (⟨heights list, W, List.replicate (heights list * W) none⟩ : Mat (Option α)).Valid := by
    simp [Mat.Valid]
  obtain ⟨A, h1, h2, h3, h4, h5, -⟩ := placeRows list h.valid h.rowHeights hval h.widths (ro := 0)
    (by simp) hR hC
  refine ⟨A, ?_, h2, h3, h4, fun i j v hc => by simpa using h5 i j v hc⟩
  unfold block
  rw [blockSize_fits h]
  simp only [Option.bind_eq_bind, Option.bind_some]
  simp only [Option.bind_eq_bind, Nat.cast_zero] at h1
  have e3 : ((heights list : ℤ) * (W : ℤ)).toNat = heights list * W := by
    rw [← Nat.cast_mul]; exact Int.toNat_natCast _
  simp only [Int.toNat_natCast, e3]
  rw [h1]
  rfl

/-- Every position of the assembled matrix is covered, so `block_correct` says what all elements are. -/
theorem covered {list : List (List (Mat α))} {W : ℕ} (h : Fits list W) {i j : ℕ} (hi : i < heights list)
    (hj : j < W) : ∃ v, Covers list i j v := by
  have hrows : ∀ l : List (List (Mat α)), ∀ i < heights l, ∃ above row below a,
      l = above ++ row :: below ∧ i = heights above + a ∧ a < height row := by
    intro l
    induction l with
    | nil => intro i hi; simp [heights] at hi
    | cons r l ih =>
        intro i hi
        have hhs : heights (r :: l) = height r + heights l := by simp [heights]
        by_cases hc : i < height r
        · exact ⟨[], r, l, i, rfl, by simp [heights], hc⟩
        · obtain ⟨above, row, below, a, h1, h2, h3⟩ := ih (i - height r) (by omega)
          refine ⟨r :: above, row, below, a, by rw [h1]; rfl, ?_, h3⟩
          have : heights (r :: above) = height r + heights above := by simp [heights]
          omega
  have hcols : ∀ l : List (Mat α), ∀ j < width l, ∃ left e right b,
      l = left ++ e :: right ∧ j = width left + b ∧ b < e.cols := by
    intro l
    induction l with
    | nil => intro j hj; simp [width] at hj
    | cons e l ih =>
        intro j hj
        have hw : width (e :: l) = e.cols + width l := by simp [width]
        by_cases hc : j < e.cols
        · exact ⟨[], e, l, j, rfl, by simp [width], hc⟩
        · obtain ⟨left, f, right, b, h1, h2, h3⟩ := ih (j - e.cols) (by omega)
          refine ⟨e :: left, f, right, b, by rw [h1]; rfl, ?_, h3⟩
          have : width (e :: left) = e.cols + width left := by simp [width]
          omega
  obtain ⟨above, row, below, a, rfl, rfl, ha⟩ := hrows list i hi
  have hmem : row ∈ above ++ row :: below := by simp
  obtain ⟨left, e, right, b, rfl, rfl, hb⟩ := hcols row j (by rw [h.widths row hmem]; exact hj)
  have he : e ∈ left ++ e :: right := by simp
  obtain ⟨v, hv⟩ := Mat.get_isSome (h.valid _ hmem e he) (i := a) (j := b)
    (by rw [h.rowHeights _ hmem e he]; exact ha) hb
  exact ⟨v, above, left, right, below, e, a, b, rfl, rfl, rfl, hv⟩

/-- Rows of blocks with different heights or different widths are rejected. -/
theorem block_rejects : block [[(⟨1, 1, [0]⟩ : Mat ℕ), ⟨2, 1, [1, 2]⟩]] = none ∧
    block [[(⟨1, 1, [0]⟩ : Mat ℕ)], [⟨1, 2, [1, 2]⟩]] = none := by decide

/-- A list without rows is outside of `Fits`: the size computed is 0 by -1. -/
theorem block_empty : blockSize ([] : List (List (Mat ℕ))) = some (0, -1) := rfl

/-- Three blocks in two rows. -/
example : Fits [[(⟨1, 1, [0]⟩ : Mat ℕ), ⟨1, 2, [1, 2]⟩], [⟨2, 3, [3, 4, 5, 6, 7, 8]⟩]] 3 := by
  refine ⟨by simp, ?_, ?_, ?_⟩ <;> simp [Mat.Valid, height, width]

end Slp.VMat
