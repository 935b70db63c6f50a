import Verif.Python.PyIndexLemmas

/-! C52: subscripts in Python select what NumPy selects. -/

namespace Slp.Py

open Slp.Slicing Slp.VMat

variable {α : Type}

/-- A chain of subscripts that returns a block of an `N` by `M` matrix: NumPy accepts it and selects rows `R` and
columns `C`, each subscript has at least one slice, the sizes and steps fit an `int`, and for nested subscripts the
product of the steps leaves room for the size of the matrix. -/
structure Subscripts (N M : ℕ) (first : PyIndex × PyIndex) (rest : List (PyIndex × PyIndex)) (R C : List ℤ) : Prop where
  selects : NpChain (allOf N) (allOf M) (first :: rest) R C
  slices : ∀ e ∈ first :: rest, e.1.IsSlice ∨ e.2.IsSlice
  fits : ∀ e ∈ first :: rest, e.1.StepFits ∧ e.2.StepFits
  rows : (N : ℤ) ≤ intMax
  cols : (M : ℤ) ≤ intMax
  rowSteps : rest ≠ [] → N + |((first :: rest).map fun e => e.1.step).prod| ≤ intMax
  colSteps : rest ≠ [] → M + |((first :: rest).map fun e => e.2.step).prod| ≤ intMax

theorem subscripts_names {A : Mat α} {first : PyIndex × PyIndex} {rest : List (PyIndex × PyIndex)} {R C : List ℤ}
    (h : Subscripts A.rows A.cols first rest R C) (hneg : first.1.NotNegative) :
    ∃ b, subscripts A first rest = .ok (.block b) ∧ Names A.rows A.cols b R C := by
  obtain ⟨e, f⟩ := first
  obtain ⟨f1, f2⟩ := h.fits (e, f) (by simp)
  cases h.selects with
  | cons h1 h2 p1 p2 hrest =>
      rw [allOf_length] at h1 h2
      obtain ⟨r, c, e1, e2, hn, s1, s2⟩ := rawBlock_names h.rows h.cols f1 f2 h1 h2 p1 p2
      obtain ⟨z1, z2⟩ := hrest.prod_ne
      have hN := h.rowSteps
      have hM := h.colSteps
      simp only [List.map_cons, List.prod_cons] at hN hM
      obtain ⟨b, g1, g2⟩ := rest_names hrest A hn (fun x hx => h.slices x (by simp [hx]))
        (fun x hx => h.fits x (by simp [hx]))
        (fun hr => by rw [s1, codeStep_room (by omega) z1 (hN hr)]; exact hN hr)
        (fun hr => by rw [s2, codeStep_room (by omega) z2 (hM hr)]; exact hM hr)
      refine ⟨b, ?_, g2⟩
      unfold subscripts
      simp only [matGetItem, bothInts_none (h.slices (e, f) (by simp)), elemRow_eq hneg, e1, e2, Out.bind]
      exact g1

/-- C52, reading through blocks: a chain of subscripts returns a block that has one row per row NumPy selects and one
column per column it selects; its elements are the selected elements of the matrix, as it is when they are read.

Partial: the first subscript must not use a negative integer for the rows (`py_negative_row`). -/
theorem py_reads_partial {A : Mat α} {first : PyIndex × PyIndex} {rest : List (PyIndex × PyIndex)} {R C : List ℤ}
    (h : Subscripts A.rows A.cols first rest R C) (hneg : first.1.NotNegative) :
    ∃ b, subscripts A first rest = .ok (.block b) ∧ b.rows = R.length ∧ b.cols = C.length ∧
      (∀ x ∈ R, 0 ≤ x ∧ x < A.rows) ∧ (∀ y ∈ C, 0 ≤ y ∧ y < A.cols) ∧
      ∀ B : Mat α, ∀ (i j : ℕ) (x y : ℤ), R[i]? = some x → C[j]? = some y → b.get B i j = B.get x y := by
  obtain ⟨b, hb, hn⟩ := subscripts_names h hneg
  refine ⟨b, hb, hn.row.len, hn.col.len, ?_, ?_, fun B i j x y hx hy => hn.get h.rows h.cols B hx hy⟩
  · intro x hx
    obtain ⟨k, hk⟩ := List.getElem?_of_mem hx
    exact (hn.row.get k x hk).2
  · intro x hx
    obtain ⟨k, hk⟩ := List.getElem?_of_mem hx
    exact (hn.col.get k x hk).2

/-- An integer index in range, after counting from the end. -/
theorem wrap_selects {n : ℕ} {i x : ℤ} (h : NpSelects n (.int i) [x]) : wrap n i = x ∧ i < n ∧ 0 ≤ x ∧ x < n := by
  generalize hl : [x] = l at h
  cases h with
  | @front k hk =>
      simp only [List.cons.injEq, and_true] at hl
      subst hl
      exact ⟨wrap_front _ _, by omega, by omega, by omega⟩
  | @back k hk hkn =>
      simp only [List.cons.injEq, and_true] at hl
      subst hl
      exact ⟨wrap_back hk hkn, by omega, by omega, by omega⟩

theorem selects_isInt {n : ℕ} {i x : ℤ} (hn : (n : ℤ) ≤ intMax) (h : NpSelects n (.int i) [x]) : IsInt i := by
  generalize [x] = l at h
  cases h with
  | front hk => exact (isInt_of_lt hn hk.le).1
  | back _ hkn => exact (isInt_of_lt hn hkn).2

/-- C52, one element of a matrix: `A[i, j]` is the element NumPy selects. -/
theorem py_element {A : Mat α} (hA : A.Valid) (hr : (A.rows : ℤ) ≤ intMax) (hc : (A.cols : ℤ) ≤ intMax) {i j x y : ℤ}
    (hi : NpSelects A.rows (.int i) [x]) (hj : NpSelects A.cols (.int j) [y]) :
    ∃ v, A.get x y = some v ∧ matGetItem A [.int i, .int j] = .ok (.var v) := by
  obtain ⟨w1, l1, x0, xN⟩ := wrap_selects hi
  obtain ⟨w2, l2, y0, yM⟩ := wrap_selects hj
  obtain ⟨xn, rfl⟩ := Int.eq_ofNat_of_zero_le x0
  obtain ⟨yn, rfl⟩ := Int.eq_ofNat_of_zero_le y0
  obtain ⟨v, hv⟩ := Mat.get_isSome hA (i := xn) (j := yn) (by omega) (by omega)
  refine ⟨v, hv, ?_⟩
  have hb : bothInts (.int i) (.int j) = some (i, j) := if_pos ⟨selects_isInt hr hi, selects_isInt hc hj⟩
  simp only [matGetItem, hb, getElem2]
  rw [if_neg (by omega), w1, w2, hv]
  rfl

/-- C52, one element of a block. -/
theorem py_block_element_partial {A : Mat α} (hA : A.Valid) {first : PyIndex × PyIndex} {rest : List (PyIndex × PyIndex)}
    {R C : List ℤ} (h : Subscripts A.rows A.cols first rest R C) (hneg : first.1.NotNegative) {b : Block}
    (hb : subscripts A first rest = .ok (.block b)) {i j p q x y : ℤ} (hi : NpSelects R.length (.int i) [p])
    (hj : NpSelects C.length (.int j) [q]) (hx : R[p.toNat]? = some x) (hy : C[q.toNat]? = some y) :
    ∃ v, A.get x y = some v ∧ blockGetItem b A [.int i, .int j] = .ok (.var v) := by
  obtain ⟨b', hb', hn⟩ := subscripts_names h hneg
  have hbb : b = b' := by
    have := hb.symm.trans hb'
    simpa using this
  subst hbb
  obtain ⟨w1, l1, p0, pN⟩ := wrap_selects hi
  obtain ⟨w2, l2, q0, qM⟩ := wrap_selects hj
  obtain ⟨p, rfl⟩ := Int.eq_ofNat_of_zero_le p0
  obtain ⟨q, rfl⟩ := Int.eq_ofNat_of_zero_le q0
  have hg := hn.get h.rows h.cols A hx hy
  obtain ⟨-, x0, xN⟩ := hn.row.get _ _ hx
  obtain ⟨-, y0, yM⟩ := hn.col.get _ _ hy
  obtain ⟨xn, rfl⟩ := Int.eq_ofNat_of_zero_le x0
  obtain ⟨yn, rfl⟩ := Int.eq_ofNat_of_zero_le y0
  obtain ⟨v, hv⟩ := Mat.get_isSome hA (i := xn) (j := yn) (by omega) (by omega)
  refine ⟨v, hv, ?_⟩
  have lr := hn.row.length_le
  have lc := hn.col.length_le
  have hN := h.rows
  have hM := h.cols
  have hbi : bothInts (.int i) (.int j) = some (i, j) :=
    if_pos ⟨selects_isInt (by omega) hi, selects_isInt (by omega) hj⟩
  simp only [blockGetItem, hbi, getElem2, hn.row.len, hn.col.len]
  rw [if_neg (by omega), w1, w2]
  simp only [Int.toNat_natCast] at hg
  rw [hg, hv]
  rfl

/-- C52, one index: `A[k]` is element `k` in row-major order, counting from the end if `k` is negative. -/
theorem py_index {A : Mat α} (hA : A.Valid) (hs : ((A.rows * A.cols : ℕ) : ℤ) ≤ intMax) {k x : ℤ}
    (hk : NpSelects (A.rows * A.cols) (.int k) [x]) :
    ∃ v, A.storage[x.toNat]? = some v ∧ matGetIndex A k = .ok v := by
  obtain ⟨w1, l1, x0, xN⟩ := wrap_selects hk
  obtain ⟨xn, rfl⟩ := Int.eq_ofNat_of_zero_le x0
  have hlt : xn < A.storage.length := by rw [hA]; omega
  refine ⟨_, List.getElem?_eq_getElem hlt, ?_⟩
  have h1 : castInt k = .ok k := if_pos (selects_isInt hs hk)
  simp only [matGetIndex, h1, Out.bind, w1, Mat.getIndex]
  rw [if_pos ⟨x0, by exact_mod_cast xN⟩]
  simp only [Int.toNat_natCast, List.getElem?_eq_getElem hlt, Out.ofCpp]

/-- C52, assigning to a subscript of a matrix: `A[e, f] = values` writes exactly the elements NumPy selects. Negative
integers are allowed in both places. -/
theorem py_setitem {A : Mat α} (hA : A.Valid) {e f : PyIndex} {R C : List ℤ} (hr : (A.rows : ℤ) ≤ intMax)
    (hc : (A.cols : ℤ) ≤ intMax) (he : e.StepFits) (hf : f.StepFits) (hR : NpSelects A.rows e R)
    (hC : NpSelects A.cols f C) (values : View α) (hvr : values.rows = R.length) (hvc : values.cols = C.length)
    (v : ℕ → ℕ → α) (hv : ∀ i j : ℕ, i < R.length → j < C.length → values.get i j = some (v i j)) :
    ∃ A', matSetItem A [e, f] (.matrix values) = .ok A' ∧ Written R C v A A' := by
  obtain ⟨r0, e0, a0, -⟩ := elem_adjusted hr he hR
  obtain ⟨c0, g0, b0, -⟩ := elem_adjusted hc hf hC
  obtain ⟨r, c, e1, e2, hn, -, -⟩ := rawBlock_names hr hc he hf hR hC (picks_allOf (adjusted_mem a0))
    (picks_allOf (adjusted_mem b0))
  obtain ⟨A', h1, h2⟩ := update_written hn hr hc (fun _ i j => values.get i j) v A hA rfl rfl
    (fun i j hi hj _ _ _ _ _ => hv i j hi hj)
  refine ⟨A', ?_, h2⟩
  simp only [matSetItem, e1, e2, Out.bind, assignValue, Block.assign]
  rw [if_pos (by rw [hn.row.len, hn.col.len, hvr, hvc]; simp), h1]
  rfl

/-- C52, assigning a number or a variable to a subscript that selects one element. -/
theorem py_setitem_scalar {A : Mat α} (hA : A.Valid) {e f : PyIndex} {x y : ℤ} (hr : (A.rows : ℤ) ≤ intMax)
    (hc : (A.cols : ℤ) ≤ intMax) (he : e.StepFits) (hf : f.StepFits) (hR : NpSelects A.rows e [x])
    (hC : NpSelects A.cols f [y]) (v : α) :
    ∃ A', matSetItem A [e, f] (.scalar v) = .ok A' ∧ A'.Valid ∧ A'.rows = A.rows ∧ A'.cols = A.cols ∧
      A'.get x y = some v ∧ ∀ x' y' : ℤ, ¬ (x' = x ∧ y' = y) → A'.get x' y' = A.get x' y' := by
  obtain ⟨r0, e0, a0, -⟩ := elem_adjusted hr he hR
  obtain ⟨c0, g0, b0, -⟩ := elem_adjusted hc hf hC
  obtain ⟨r, c, e1, e2, hn, -, -⟩ := rawBlock_names hr hc he hf hR hC (picks_allOf (adjusted_mem a0))
    (picks_allOf (adjusted_mem b0))
  obtain ⟨x0, xN⟩ := adjusted_mem a0 x (by simp)
  obtain ⟨y0, yM⟩ := adjusted_mem b0 y (by simp)
  obtain ⟨xn, rfl⟩ := Int.eq_ofNat_of_zero_le x0
  obtain ⟨yn, rfl⟩ := Int.eq_ofNat_of_zero_le y0
  obtain ⟨A2, h2, v2, r2, c2, g2, o2⟩ := Mat.set_spec hA (i := xn) (j := yn) (by omega) (by omega) v
  refine ⟨A2, ?_, v2, r2, c2, g2, o2⟩
  have hidx := hn.index hr hc (i := 0) (j := 0) rfl rfl
  simp only [matSetItem, e1, e2, Out.bind, assignValue, Block.set]
  rw [if_pos (by rw [hn.row.len, hn.col.len]; simp)]
  simp only [Nat.cast_zero] at hidx
  rw [hidx]
  simp only [Option.bind_eq_bind, Option.bind_some, h2]
  rfl

/-- C52, assigning to a subscript of a block. -/
theorem py_block_setitem_partial {A : Mat α} (hA : A.Valid) {first : PyIndex × PyIndex}
    {rest : List (PyIndex × PyIndex)} {R C R' C' lr lc : List ℤ} (h : Subscripts A.rows A.cols first rest R C)
    (hneg : first.1.NotNegative) {b : Block} (hb : subscripts A first rest = .ok (.block b)) {e f : PyIndex}
    (he : e.StepFits) (hf : f.StepFits) (hR : NpSelects R.length e lr) (hC : NpSelects C.length f lc)
    (pr : Picks R lr R') (pc : Picks C lc C')
    (hN : A.rows + |e.step * b.rowSlice.step| ≤ intMax) (hM : A.cols + |f.step * b.colSlice.step| ≤ intMax)
    (values : View α) (hvr : values.rows = R'.length) (hvc : values.cols = C'.length) (v : ℕ → ℕ → α)
    (hv : ∀ i j : ℕ, i < R'.length → j < C'.length → values.get i j = some (v i j)) :
    ∃ A', blockSetItem b A [e, f] (.matrix values) = .ok A' ∧ Written R' C' v A A' := by
  obtain ⟨b', hb', hn⟩ := subscripts_names h hneg
  have hbb : b = b' := by
    have := hb.symm.trans hb'
    simpa using this
  subst hbb
  obtain ⟨r, c, b1, e1, e2, e3, hn1, -, -⟩ := rawSub_names hn hN hM he hf hR hC pr pc
  obtain ⟨A', h1, h2⟩ := update_written hn1 h.rows h.cols (fun _ i j => values.get i j) v A hA rfl rfl
    (fun i j hi hj _ _ _ _ _ => hv i j hi hj)
  refine ⟨A', ?_, h2⟩
  simp only [blockSetItem, e1, e2, e3, Out.bind, Out.ofCpp, assignValue, Block.assign]
  rw [if_pos (by rw [hn1.row.len, hn1.col.len, hvr, hvc]; simp), h1]

/-- C52, `A[k] = v` writes element `k` in row-major order and nothing else. -/
theorem py_setitem_index {A : Mat α} (hA : A.Valid) (hs : ((A.rows * A.cols : ℕ) : ℤ) ≤ intMax) {k x : ℤ}
    (hk : NpSelects (A.rows * A.cols) (.int k) [x]) (v : α) :
    ∃ A', matSetIndex A k v = .ok A' ∧ A'.Valid ∧ A'.rows = A.rows ∧ A'.cols = A.cols ∧
      A'.storage[x.toNat]? = some v ∧ ∀ n : ℕ, n ≠ x.toNat → A'.storage[n]? = A.storage[n]? := by
  obtain ⟨w1, l1, x0, xN⟩ := wrap_selects hk
  obtain ⟨xn, rfl⟩ := Int.eq_ofNat_of_zero_le x0
  have hlt : xn < A.storage.length := by rw [hA]; omega
  have h1 : castInt k = .ok k := if_pos (selects_isInt hs hk)
  refine ⟨{ A with storage := A.storage.set xn v }, ?_, ?_, rfl, rfl, ?_, ?_⟩
  · simp only [matSetIndex, h1, Out.bind, w1, setIndex]
    rw [if_pos ⟨x0, by exact_mod_cast xN⟩]
    rfl
  · simpa [Mat.Valid] using hA
  · simp only [Int.toNat_natCast, List.getElem?_set_self hlt]
  · intro n hn
    simp only [Int.toNat_natCast] at hn
    exact List.getElem?_set_ne (Ne.symm hn)

/-- C52, assigning a number or a variable to a subscript of a block that selects one element. -/
theorem py_block_setitem_scalar_partial {A : Mat α} (hA : A.Valid) {first : PyIndex × PyIndex}
    {rest : List (PyIndex × PyIndex)} {R C : List ℤ} (h : Subscripts A.rows A.cols first rest R C)
    (hneg : first.1.NotNegative) {b : Block} (hb : subscripts A first rest = .ok (.block b)) {e f : PyIndex}
    {p q x y : ℤ} (he : e.StepFits) (hf : f.StepFits) (hR : NpSelects R.length e [p]) (hC : NpSelects C.length f [q])
    (pr : Picks R [p] [x]) (pc : Picks C [q] [y])
    (hN : A.rows + |e.step * b.rowSlice.step| ≤ intMax) (hM : A.cols + |f.step * b.colSlice.step| ≤ intMax) (v : α) :
    ∃ A', blockSetItem b A [e, f] (.scalar v) = .ok A' ∧ A'.Valid ∧ A'.rows = A.rows ∧ A'.cols = A.cols ∧
      A'.get x y = some v ∧ ∀ x' y' : ℤ, ¬ (x' = x ∧ y' = y) → A'.get x' y' = A.get x' y' := by
  obtain ⟨b', hb', hn⟩ := subscripts_names h hneg
  have hbb : b = b' := by
    have := hb.symm.trans hb'
    simpa using this
  subst hbb
  obtain ⟨r, c, b1, e1, e2, e3, hn1, -, -⟩ := rawSub_names hn hN hM he hf hR hC pr pc
  obtain ⟨-, x0, xN⟩ := hn1.row.get 0 x rfl
  obtain ⟨-, y0, yM⟩ := hn1.col.get 0 y rfl
  obtain ⟨xn, rfl⟩ := Int.eq_ofNat_of_zero_le x0
  obtain ⟨yn, rfl⟩ := Int.eq_ofNat_of_zero_le y0
  obtain ⟨A2, h2, v2, r2, c2, g2, o2⟩ := Mat.set_spec hA (i := xn) (j := yn) (by omega) (by omega) v
  refine ⟨A2, ?_, v2, r2, c2, g2, o2⟩
  have hidx := hn1.index h.rows h.cols (i := 0) (j := 0) rfl rfl
  simp only [blockSetItem, e1, e2, e3, Out.bind, Out.ofCpp, assignValue, Block.set]
  rw [if_pos (by rw [hn1.row.len, hn1.col.len]; simp)]
  simp only [Nat.cast_zero] at hidx
  rw [hidx]
  simp only [Option.bind_eq_bind, Option.bind_some, h2]

/-- C52: a subscript of a matrix is assigned only a value of the size NumPy selects: other matrices, and numbers
unless one element is selected, fail an assertion, and objects of other types raise an exception. -/
theorem py_setitem_size {A : Mat α} {e f : PyIndex} {R C : List ℤ} (hr : (A.rows : ℤ) ≤ intMax)
    (hc : (A.cols : ℤ) ≤ intMax) (he : e.StepFits) (hf : f.StepFits) (hR : NpSelects A.rows e R)
    (hC : NpSelects A.cols f C) :
    (∀ values : View α, ¬ (values.rows = R.length ∧ values.cols = C.length) →
      matSetItem A [e, f] (.matrix values) = .bad) ∧
    (∀ v, ¬ (R.length = 1 ∧ C.length = 1) → matSetItem A [e, f] (.scalar v) = .bad) ∧
    matSetItem A [e, f] .other = .raised := by
  obtain ⟨r0, e0, a0, -⟩ := elem_adjusted hr he hR
  obtain ⟨c0, g0, b0, -⟩ := elem_adjusted hc hf hC
  obtain ⟨r, c, e1, e2, hn, -, -⟩ := rawBlock_names hr hc he hf hR hC (picks_allOf (adjusted_mem a0))
    (picks_allOf (adjusted_mem b0))
  refine ⟨fun values h => ?_, fun v h => ?_, ?_⟩
  · simp only [matSetItem, e1, e2, Out.bind, assignValue, Block.assign]
    rw [if_neg (by rw [hn.row.len, hn.col.len]; simp only [Int.toNat_natCast]; exact fun h' => h ⟨h'.1.symm, h'.2.symm⟩)]
    rfl
  · simp only [matSetItem, e1, e2, Out.bind, assignValue]
    rw [if_neg (by rw [hn.row.len, hn.col.len]; exact_mod_cast h)]
  · simp only [matSetItem, e1, e2, Out.bind, assignValue]

/-- C52: the same for a subscript of a block. -/
theorem py_block_setitem_size_partial {A : Mat α} {first : PyIndex × PyIndex}
    {rest : List (PyIndex × PyIndex)} {R C R' C' lr lc : List ℤ} (h : Subscripts A.rows A.cols first rest R C)
    (hneg : first.1.NotNegative) {b : Block} (hb : subscripts A first rest = .ok (.block b)) {e f : PyIndex}
    (he : e.StepFits) (hf : f.StepFits) (hR : NpSelects R.length e lr) (hC : NpSelects C.length f lc)
    (pr : Picks R lr R') (pc : Picks C lc C')
    (hN : A.rows + |e.step * b.rowSlice.step| ≤ intMax) (hM : A.cols + |f.step * b.colSlice.step| ≤ intMax) :
    (∀ values : View α, ¬ (values.rows = R'.length ∧ values.cols = C'.length) →
      blockSetItem b A [e, f] (.matrix values) = .bad) ∧
    (∀ v, ¬ (R'.length = 1 ∧ C'.length = 1) → blockSetItem b A [e, f] (.scalar v) = .bad) ∧
    blockSetItem b A [e, f] .other = .raised := by
  obtain ⟨b', hb', hn⟩ := subscripts_names h hneg
  have hbb : b = b' := by
    have := hb.symm.trans hb'
    simpa using this
  subst hbb
  obtain ⟨r, c, b1, e1, e2, e3, hn1, -, -⟩ := rawSub_names hn hN hM he hf hR hC pr pc
  refine ⟨fun values h => ?_, fun v h => ?_, ?_⟩
  · simp only [blockSetItem, e1, e2, e3, Out.bind, Out.ofCpp, assignValue, Block.assign]
    rw [if_neg (by rw [hn1.row.len, hn1.col.len]; simp only [Int.toNat_natCast]; exact fun h' => h ⟨h'.1.symm, h'.2.symm⟩)]
  · simp only [blockSetItem, e1, e2, e3, Out.bind, Out.ofCpp, assignValue]
    rw [if_neg (by rw [hn1.row.len, hn1.col.len]; exact_mod_cast h)]
  · simp only [blockSetItem, e1, e2, e3, Out.bind, Out.ofCpp, assignValue]

/-- Row and column of a linear index. -/
theorem linear_index {n m p : ℕ} (h : p < n * m) : p / m < n ∧ p % m < m ∧
    Int.tdiv (p : ℤ) m = (p / m : ℕ) ∧ Int.tmod (p : ℤ) m = (p % m : ℕ) := by
  have hm : 0 < m := Nat.pos_of_ne_zero fun h0 => by simp [h0] at h
  refine ⟨(Nat.div_lt_iff_lt_mul hm).2 h, Nat.mod_lt _ hm, ?_, ?_⟩
  · rw [Int.tdiv_eq_ediv_of_nonneg (by omega), Int.natCast_div]
  · rw [Int.tmod_eq_emod_of_nonneg (by omega), Int.natCast_mod]

/-- C52, one index of a block: `B[k]` is element `k` of the block in row-major order. -/
theorem py_block_index_partial {A : Mat α} (hA : A.Valid) {first : PyIndex × PyIndex} {rest : List (PyIndex × PyIndex)}
    {R C : List ℤ} (h : Subscripts A.rows A.cols first rest R C) (hneg : first.1.NotNegative) {b : Block}
    (hb : subscripts A first rest = .ok (.block b)) (hs : ((R.length * C.length : ℕ) : ℤ) ≤ intMax) {k x y : ℤ} {p : ℕ}
    (hk : NpSelects (R.length * C.length) (.int k) [(p : ℤ)]) (hx : R[p / C.length]? = some x)
    (hy : C[p % C.length]? = some y) :
    ∃ v, A.get x y = some v ∧ blockGetIndex b A k = .ok v := by
  obtain ⟨b', hb', hn⟩ := subscripts_names h hneg
  have hbb : b = b' := by
    have := hb.symm.trans hb'
    simpa using this
  subst hbb
  obtain ⟨w1, l1, p0, pN⟩ := wrap_selects hk
  obtain ⟨-, -, d1, d2⟩ := linear_index (n := R.length) (m := C.length) (p := p) (by exact_mod_cast pN)
  obtain ⟨-, x0, xN⟩ := hn.row.get _ _ hx
  obtain ⟨-, y0, yM⟩ := hn.col.get _ _ hy
  have hg := hn.get h.rows h.cols A hx hy
  obtain ⟨xn, rfl⟩ := Int.eq_ofNat_of_zero_le x0
  obtain ⟨yn, rfl⟩ := Int.eq_ofNat_of_zero_le y0
  obtain ⟨v, hv⟩ := Mat.get_isSome hA (i := xn) (j := yn) (by omega) (by omega)
  refine ⟨v, hv, ?_⟩
  have h1 : castInt k = .ok k := if_pos (selects_isInt hs hk)
  have h2 : b.rows * b.cols = ((R.length * C.length : ℕ) : ℤ) := by rw [hn.row.len, hn.col.len]; push_cast; rfl
  simp only [blockGetIndex, h1, Out.bind, h2, w1, Block.getIndex]
  rw [if_pos ⟨p0, pN⟩, hn.col.len, d1, d2, hg, hv]
  rfl

/-- C52, `B[k] = v` writes element `k` of the block in row-major order and nothing else. -/
theorem py_block_setitem_index_partial {A : Mat α} (hA : A.Valid) {first : PyIndex × PyIndex}
    {rest : List (PyIndex × PyIndex)} {R C : List ℤ} (h : Subscripts A.rows A.cols first rest R C)
    (hneg : first.1.NotNegative) {b : Block} (hb : subscripts A first rest = .ok (.block b))
    (hs : ((R.length * C.length : ℕ) : ℤ) ≤ intMax) {k x y : ℤ} {p : ℕ}
    (hk : NpSelects (R.length * C.length) (.int k) [(p : ℤ)]) (hx : R[p / C.length]? = some x)
    (hy : C[p % C.length]? = some y) (v : α) :
    ∃ A', blockSetIndex b A k v = .ok A' ∧ A'.Valid ∧ A'.rows = A.rows ∧ A'.cols = A.cols ∧
      A'.get x y = some v ∧ ∀ x' y' : ℤ, ¬ (x' = x ∧ y' = y) → A'.get x' y' = A.get x' y' := by
  obtain ⟨b', hb', hn⟩ := subscripts_names h hneg
  have hbb : b = b' := by
    have := hb.symm.trans hb'
    simpa using this
  subst hbb
  obtain ⟨w1, l1, p0, pN⟩ := wrap_selects hk
  obtain ⟨-, -, d1, d2⟩ := linear_index (n := R.length) (m := C.length) (p := p) (by exact_mod_cast pN)
  obtain ⟨-, x0, xN⟩ := hn.row.get _ _ hx
  obtain ⟨-, y0, yM⟩ := hn.col.get _ _ hy
  have hidx := hn.index h.rows h.cols hx hy
  obtain ⟨xn, rfl⟩ := Int.eq_ofNat_of_zero_le x0
  obtain ⟨yn, rfl⟩ := Int.eq_ofNat_of_zero_le y0
  obtain ⟨A2, g, v2, r2, c2, g2, o2⟩ := Mat.set_spec hA (i := xn) (j := yn) (by omega) (by omega) v
  refine ⟨A2, ?_, v2, r2, c2, g2, o2⟩
  have h1 : castInt k = .ok k := if_pos (selects_isInt hs hk)
  have h2 : b.rows * b.cols = ((R.length * C.length : ℕ) : ℤ) := by rw [hn.row.len, hn.col.len]; push_cast; rfl
  simp only [blockSetIndex, h1, Out.bind, h2, w1]
  rw [if_pos ⟨p0, pN⟩, hn.col.len, d1, d2]
  simp only [Block.set, hidx, Option.bind_eq_bind, Option.bind_some, g]
  rfl

/-! ### What the code does not do -/

/-- C52 fails for negative row integers in `VariableMatrix.__getitem__`: `A[-k, c]` with a slice `c` is accepted, NumPy
selects row `rows - k`, but every element of the returned block lies outside the matrix. -/
theorem py_negative_row {A : Mat α} (hr : (A.rows : ℤ) ≤ intMax) (hc : (A.cols : ℤ) ≤ intMax) {k : ℕ} (hk : 0 < k)
    (hkn : k ≤ A.rows) {f : PyIndex} {C : List ℤ} (hf : f.StepFits) (hs : f.IsSlice) (hC : NpSelects A.cols f C) :
    NpSelects A.rows (.int (-(k : ℤ))) [((A.rows - k : ℕ) : ℤ)] ∧
      ∃ b, matGetItem A [.int (-(k : ℤ)), f] = .ok (.block b) ∧ b.rows = 1 ∧ b.cols = C.length ∧
        ∀ i j : ℤ, b.get A i j = none := by
  refine ⟨.back hk hkn, ?_⟩
  obtain ⟨c, e2, a2, -⟩ := elem_adjusted hc hf hC
  have hI := (isInt_of_lt hr hkn).2
  have h1 : castInt (-(k : ℤ)) = .ok (-(k : ℤ)) := if_pos hI
  have h2 : ck (-(k : ℤ) + 1) = some (-(k : ℤ) + 1) := by
    apply ck_isInt
    simp only [IsInt, intMin, intMax] at *; omega
  have h3 : single (-(k : ℤ)) = .ok (⟨-(k : ℤ), -(k : ℤ) + 1, 1⟩, 1) := by
    simp only [single, h2, Option.bind_some, Slice.mk2, Slice.mk3]
    rw [stepArg_eq (by simp)]
    rfl
  refine ⟨rawBlock (⟨-(k : ℤ), -(k : ℤ) + 1, 1⟩, 1) c, ?_, rfl, a2.len, ?_⟩
  · simp only [matGetItem, bothInts_none (Or.inr hs), elemSliceRowGet, h1, Out.bind, h3, e2]
  · intro i j
    unfold Block.get Block.index
    by_cases hij : 0 ≤ i ∧ i < (rawBlock (⟨-(k : ℤ), -(k : ℤ) + 1, 1⟩, 1) c).rows ∧ 0 ≤ j ∧
        j < (rawBlock (⟨-(k : ℤ), -(k : ℤ) + 1, 1⟩, 1) c).cols
    · rw [if_pos hij]
      simp only [rawBlock] at hij ⊢
      have hi : i = 0 := by omega
      subst hi
      have h4 : ck (0 * 1) = some 0 := by decide
      have h5 : ck (-(k : ℤ) + 0) = some (-(k : ℤ)) := by rw [add_zero]; exact ck_isInt hI
      simp only [h4, h5, Option.bind_eq_bind, Option.bind_some]
      cases ck (j * c.1.step) with
      | none => rfl
      | some z =>
          simp only [Option.bind_some]
          cases ck (c.1.start + z) with
          | none => rfl
          | some w =>
              simp only [Option.bind_some]
              exact Mat.get_out (by omega)
    · rw [if_neg hij]
      rfl

/-- Integers that are too large raise an exception in `A[i, j]`, as in NumPy. -/
theorem py_too_large_raises {A : Mat α} {i j : ℤ} (hi : IsInt i) (hj : IsInt j)
    (h : (A.rows : ℤ) ≤ i ∨ (A.cols : ℤ) ≤ j) : matGetItem A [.int i, .int j] = .raised := by
  have hb : bothInts (.int i) (.int j) = some (i, j) := if_pos ⟨hi, hj⟩
  simp only [matGetItem, hb, getElem2]
  rw [if_pos h]

/-- Integers that are too small do not: the access is outside the matrix. -/
theorem py_too_small_not_raised {A : Mat α} {i j : ℤ} (hi : IsInt i) (hj : IsInt j) (hi' : i < -(A.rows : ℤ))
    (hj' : j < A.cols) : matGetItem A [.int i, .int j] = .bad := by
  have hb : bothInts (.int i) (.int j) = some (i, j) := if_pos ⟨hi, hj⟩
  simp only [matGetItem, hb, getElem2]
  rw [if_neg (by omega), Mat.get_out]
  · rfl
  · simp only [wrap]
    rw [if_pos (by omega)]
    omega

/-- Neither does `A[k]`. -/
theorem py_index_not_raised {A : Mat α} {k : ℤ} (hk : IsInt k)
    (h : k < -((A.rows * A.cols : ℕ) : ℤ) ∨ ((A.rows * A.cols : ℕ) : ℤ) ≤ k) : matGetIndex A k = .bad := by
  have h1 : castInt k = .ok k := if_pos hk
  simp only [matGetIndex, h1, Out.bind, Mat.getIndex]
  rw [if_neg]
  · rfl
  · rw [← Nat.cast_mul]
    simp only [wrap]
    split <;> omega

/-- A zero step and a tuple that does not consist of two indices raise an exception. -/
theorem py_invalid_raises (A : Mat α) (a b : Option ℤ) (f : PyIndex) (ix : List PyIndex) (h : ix.length ≠ 2) :
    matGetItem A [.slice a b (some 0), f] = .raised ∧ matGetItem A ix = .raised := by
  constructor
  · have hc : clip 0 = 0 := by decide
    have hu : unpack a b (some 0) = none := by simp [unpack, hc]
    have hb : bothInts (.slice a b (some 0)) f = none := bothInts_none (Or.inl trivial)
    simp only [matGetItem, hb, elemSliceRowGet, elemSlice, compute, hu, Option.map_none, Out.bind]
  · match ix with
    | [] => rfl
    | [_] => rfl
    | [_, _] => exact absurd rfl h
    | _ :: _ :: _ :: _ => rfl

/-! ### Cases -/

/-- The matrix of a 3 by 2 example. -/
def sample : Mat ℕ := ⟨3, 2, [10, 11, 20, 21, 30, 31]⟩

/-- `A[::-1, 1:]` selects the rows backwards and the last column. -/
example : Subscripts sample.rows sample.cols (.slice none none (some (-1)), .slice (some 1) none none) []
    [2, 1, 0] [1] := by
  refine ⟨?_, by simp [PyIndex.IsSlice], by simp [PyIndex.StepFits, intMin, intMax], by decide, by decide,
    by simp, by simp⟩
  refine .cons (lr := [2, 1, 0]) (lc := [1]) (.slice (by simp) ?_) (.slice (by simp) ?_) ?_ ?_ .nil
  · rw [allOf_length]
    simp only [PySelects, pyIndices, sample, IsRange]
    refine ⟨?_, by simp, by simp⟩
    intro k x hx
    match k, hx with
    | 0, hx => simp at hx; subst hx; simp
    | 1, hx => simp at hx; subst hx; simp
    | 2, hx => simp at hx; subst hx; simp
    | k + 3, hx => simp at hx
  · rw [allOf_length]
    simp only [PySelects, pyIndices, sample, IsRange]
    refine ⟨?_, by simp, by simp⟩
    intro k x hx
    match k, hx with
    | 0, hx => simp at hx; subst hx; simp
    | k + 1, hx => simp at hx
  · exact picks_allOf (by decide)
  · exact picks_allOf (by decide)

example : ∃ b, matGetItem sample [.slice none none (some (-1)), .slice (some 1) none none] = .ok (.block b) ∧
    b.get sample 0 0 = some 31 ∧ b.get sample 2 0 = some 11 :=
  ⟨⟨⟨2, -1, -1⟩, 3, ⟨1, 2, 1⟩, 1⟩, by decide, by decide, by decide⟩

example : NpSelects sample.rows (.int (-1)) [2] ∧ matGetItem sample [.int (-1), .int 0] = .ok (.var 30) ∧
    matGetIndex sample (-1) = .ok 31 :=
  ⟨NpSelects.back (k := 1) (by decide) (by decide), by decide, by decide⟩

/-- The last element of the block `A[::-1, 1:]` read and written with one index, and an element written with two. -/
example : NpSelects (3 * 1) (.int (-1)) [((2 : ℕ) : ℤ)] ∧
    blockGetIndex ⟨⟨2, -1, -1⟩, 3, ⟨1, 2, 1⟩, 1⟩ sample (-1) = .ok 11 ∧
    blockSetIndex ⟨⟨2, -1, -1⟩, 3, ⟨1, 2, 1⟩, 1⟩ sample (-1) 7 = .ok ⟨3, 2, [10, 7, 20, 21, 30, 31]⟩ ∧
    blockSetItem ⟨⟨2, -1, -1⟩, 3, ⟨1, 2, 1⟩, 1⟩ sample [.int 0, .int (-1)] (.scalar 7) =
      .ok ⟨3, 2, [10, 11, 20, 21, 30, 7]⟩ :=
  ⟨NpSelects.back (k := 1) (by decide) (by decide), by decide, by decide, by decide⟩

/-- A number assigned to a row of two elements is rejected. -/
example : matSetItem sample [.int (-1), .slice none none none] (.scalar 7) = .bad ∧
    matSetItem sample [.int (-1), .int 0] (.scalar 7) = .ok ⟨3, 2, [10, 11, 20, 21, 7, 31]⟩ := ⟨by decide, by decide⟩

/-- The defect on the example: `A[-1, :]` names row -1. -/
example : ∃ b, matGetItem sample [.int (-1), .slice none none none] = .ok (.block b) ∧ b.get sample 0 0 = none :=
  ⟨⟨⟨-1, 0, 1⟩, 1, ⟨0, 2, 1⟩, 2⟩, by decide, by decide⟩

end Slp.Py
