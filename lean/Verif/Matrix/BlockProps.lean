import Verif.Matrix.BlockChain

/-! C13: block and slice views name the parent elements that the selections say. -/

namespace Slp.VMat

open Slp.Slicing

variable {α : Type}

/-- The storage has the size the dimensions say. -/
def Mat.Valid (A : Mat α) : Prop := A.storage.length = A.rows * A.cols

theorem index_lt {n m i j : ℕ} (hi : i < n) (hj : j < m) : i * m + j < n * m := by
  calc i * m + j < i * m + m := by omega
    _ = (i + 1) * m := by ring
    _ ≤ n * m := Nat.mul_le_mul_right m hi

theorem index_inj {m i j i' j' : ℕ} (hj : j < m) (hj' : j' < m) (h : i * m + j = i' * m + j') :
    i = i' ∧ j = j' := by
  have h1 : (i * m + j) / m = (i' * m + j') / m := by rw [h]
  have h2 : (i * m + j) % m = (i' * m + j') % m := by rw [h]
  have hm : 0 < m := by omega
  rw [Nat.mul_comm i, Nat.mul_comm i', Nat.mul_add_div hm, Nat.mul_add_div hm, Nat.div_eq_of_lt hj,
    Nat.div_eq_of_lt hj'] at h1
  rw [Nat.mul_comm i, Nat.mul_comm i', Nat.mul_add_mod, Nat.mul_add_mod, Nat.mod_eq_of_lt hj,
    Nat.mod_eq_of_lt hj'] at h2
  exact ⟨by omega, h2⟩

theorem Mat.get_nat {A : Mat α} {i j : ℕ} (hi : i < A.rows) (hj : j < A.cols) :
    A.get i j = A.storage[i * A.cols + j]? := by
  unfold Mat.get
  rw [if_pos (by omega)]
  congr 1

theorem Mat.get_isSome {A : Mat α} (h : A.Valid) {i j : ℕ} (hi : i < A.rows) (hj : j < A.cols) :
    ∃ v, A.get i j = some v := by
  rw [Mat.get_nat hi hj]
  exact ⟨_, List.getElem?_eq_getElem (by rw [h]; exact index_lt hi hj)⟩

theorem Mat.get_out {A : Mat α} {x y : ℤ} (h : ¬ (0 ≤ x ∧ x < A.rows ∧ 0 ≤ y ∧ y < A.cols)) :
    A.get x y = none := if_neg h

theorem Mat.set_spec {A : Mat α} (h : A.Valid) {i j : ℕ} (hi : i < A.rows) (hj : j < A.cols) (v : α) :
    ∃ A', A.set i j v = some A' ∧ A'.Valid ∧ A'.rows = A.rows ∧ A'.cols = A.cols ∧ A'.get i j = some v ∧
      ∀ x y : ℤ, ¬ (x = i ∧ y = j) → A'.get x y = A.get x y := by
  refine ⟨{ A with storage := A.storage.set (i * A.cols + j) v }, ?_, ?_, rfl, rfl, ?_, ?_⟩
  · unfold Mat.set
    rw [if_pos (by omega)]
    congr 2
  · simpa [Mat.Valid] using h
  · rw [Mat.get_nat (A := { A with storage := A.storage.set (i * A.cols + j) v }) hi hj]
    simp only
    rw [List.getElem?_set_self (by rw [h]; exact index_lt hi hj)]
  · intro x y hxy
    by_cases hr : 0 ≤ x ∧ x < A.rows ∧ 0 ≤ y ∧ y < A.cols
    · obtain ⟨h1, h2, h3, h4⟩ := hr
      obtain ⟨x, rfl⟩ := Int.eq_ofNat_of_zero_le h1
      obtain ⟨y, rfl⟩ := Int.eq_ofNat_of_zero_le h3
      have hx : x < A.rows := by omega
      have hy : y < A.cols := by omega
      rw [Mat.get_nat hx hy, Mat.get_nat (A := { A with storage := A.storage.set (i * A.cols + j) v }) hx hy]
      simp only
      rw [List.getElem?_set_ne]
      intro he
      obtain ⟨e1, e2⟩ := index_inj hj hy he
      omega
    · rw [Mat.get_out hr, Mat.get_out (A := { A with storage := A.storage.set (i * A.cols + j) v }) hr]

theorem Names.index {N M : ℕ} {b : Block} {R C : List ℤ} (h : Names N M b R C) (hN : (N : ℤ) ≤ intMax)
    (hM : (M : ℤ) ≤ intMax) {i j : ℕ} {x y : ℤ} (hx : R[i]? = some x) (hy : C[j]? = some y) :
    b.index i j = some (x, y) := by
  have hi := (List.getElem?_eq_some_iff.1 hx).1
  have hj := (List.getElem?_eq_some_iff.1 hy).1
  have h1 := h.row.index hN hx
  have h2 := h.col.index hM hy
  obtain ⟨r1, e1, e2⟩ := Option.bind_eq_some_iff.1 h1
  obtain ⟨c1, e3, e4⟩ := Option.bind_eq_some_iff.1 h2
  unfold Block.index
  rw [if_pos (by rw [h.row.len, h.col.len]; omega), e1]
  simp only [Option.bind_eq_bind, Option.bind_some]
  rw [e2, e3]
  simp only [Option.bind_some]
  rw [e4]
  rfl

theorem Names.get {N M : ℕ} {b : Block} {R C : List ℤ} (h : Names N M b R C) (hN : (N : ℤ) ≤ intMax)
    (hM : (M : ℤ) ≤ intMax) (A : Mat α) {i j : ℕ} {x y : ℤ} (hx : R[i]? = some x) (hy : C[j]? = some y) :
    b.get A i j = A.get x y := by
  unfold Block.get
  rw [h.index hN hM hx hy]
  rfl

theorem Names.get_out {N M : ℕ} {b : Block} {R C : List ℤ} (h : Names N M b R C) (A : Mat α) {i j : ℤ}
    (hij : ¬ (0 ≤ i ∧ i < R.length ∧ 0 ≤ j ∧ j < C.length)) : b.get A i j = none := by
  unfold Block.get Block.index
  rw [if_neg (by rw [h.row.len, h.col.len]; exact hij)]
  rfl

/-- Two matrices agree except at the places of the listed view elements. -/
def AgreeExcept (R C : List ℤ) (l : List (ℕ × ℕ)) (A B : Mat α) : Prop :=
  ∀ x y : ℤ, (∀ p ∈ l, ¬ (R[p.1]? = some x ∧ C[p.2]? = some y)) → A.get x y = B.get x y

/-- The part of a call that names rows and columns lies in a matrix or view of the given size. Slices are cut to the
size instead, as in Python. -/
def Access.InRange (rows cols : ℤ) : Access → Prop
  | .slices _ _ => True
  | .block ro co br bc => 0 ≤ ro ∧ 0 ≤ br ∧ ro + br ≤ rows ∧ 0 ≤ co ∧ 0 ≤ bc ∧ co + bc ≤ cols
  | .row i => 0 ≤ i ∧ i < rows
  | .col j => 0 ≤ j ∧ j < cols
  | .segment o l => cols = 1 ∧ 0 ≤ o ∧ o < rows ∧ 0 ≤ l ∧ o + l ≤ rows

/-- C13: on a matrix, a call that reaches outside of it is rejected. -/
theorem access_rejected {rows cols : ℕ} {a : Access} (h : ¬ a.InRange rows cols) : a.onMatrix rows cols = none := by
  cases a with
  | slices r c => exact absurd trivial h
  | block ro co br bc => exact if_neg fun h' => h (by simp only [Access.InRange]; omega)
  | row i => exact if_neg h
  | col j => exact if_neg h
  | segment o l => exact if_neg fun h' => h (by simp only [Access.InRange]; omega)

/-- C13: so it is on a view. -/
theorem access_rejected_view {b : Block} {a : Access} (h : ¬ a.InRange b.rows b.cols) : a.onBlock b = none := by
  cases a with
  | slices r c => exact absurd trivial h
  | block ro co br bc => exact if_neg fun h' => h (by simp only [Access.InRange]; omega)
  | row i => exact if_neg h
  | col j => exact if_neg h
  | segment o l => exact if_neg fun h' => h (by simp only [Access.InRange]; omega)

/-- The last three of four rows exist, the last three from the third do not. -/
example : (Access.block 1 0 3 1).InRange 4 1 ∧ ¬ (Access.block 2 0 3 1).InRange 4 1 := by
  simp [Access.InRange]

/-- A loop that assigns through a view. Each step may read its own element and everything that the
other steps do not write. -/
theorem update_list {N M : ℕ} {b : Block} {R C : List ℤ} (h : Names N M b R C) (hN : (N : ℤ) ≤ intMax)
    (hM : (M : ℤ) ≤ intMax) (f : Mat α → ℕ → ℕ → Option α) (g : ℕ → ℕ → α) (A : Mat α) (hA : A.Valid)
    (hrow : A.rows = N) (hcol : A.cols = M) (l : List (ℕ × ℕ)) (hl : l.Nodup)
    (hin : ∀ p ∈ l, p.1 < R.length ∧ p.2 < C.length)
    (hf : ∀ p ∈ l, ∀ A' : Mat α, A'.Valid → A'.rows = N → A'.cols = M →
      AgreeExcept R C (l.filter (· ≠ p)) A' A → f A' p.1 p.2 = some (g p.1 p.2)) :
    ∃ A', l.foldlM (fun A p => (f A p.1 p.2).bind fun v => b.set A p.1 p.2 v) A = some A' ∧
      A'.Valid ∧ A'.rows = N ∧ A'.cols = M ∧ AgreeExcept R C l A' A ∧
      ∀ p ∈ l, ∀ x y, R[p.1]? = some x → C[p.2]? = some y → A'.get x y = some (g p.1 p.2) := by
  -- process a prefix `pre`, the rest is `l`
  suffices hs : ∀ (rest pre : List (ℕ × ℕ)), pre ++ rest = l → ∀ A1 : Mat α, A1.Valid → A1.rows = N →
      A1.cols = M → AgreeExcept R C pre A1 A →
      (∀ p ∈ pre, ∀ x y, R[p.1]? = some x → C[p.2]? = some y → A1.get x y = some (g p.1 p.2)) →
      ∃ A', rest.foldlM (fun A p => (f A p.1 p.2).bind fun v => b.set A p.1 p.2 v) A1 = some A' ∧
        A'.Valid ∧ A'.rows = N ∧ A'.cols = M ∧ AgreeExcept R C l A' A ∧
        ∀ p ∈ l, ∀ x y, R[p.1]? = some x → C[p.2]? = some y → A'.get x y = some (g p.1 p.2) by
    exact hs l [] rfl A hA hrow hcol (fun _ _ _ => rfl) (by simp)
  intro rest
  induction rest with
  | nil =>
      intro pre hpre A1 v1 r1 c1 ag gt
      simp only [List.append_nil] at hpre
      subst hpre
      exact ⟨A1, rfl, v1, r1, c1, ag, gt⟩
  | cons p rest ih =>
      intro pre hpre A1 v1 r1 c1 ag gt
      have hp : p ∈ l := by rw [← hpre]; simp
      have hnp : p ∉ pre := by
        rw [← hpre, List.nodup_append] at hl
        intro hmem
        exact hl.2.2 p hmem p (by simp) rfl
      obtain ⟨hp1, hp2⟩ := hin p hp
      have hfv := hf p hp A1 v1 r1 c1 (by
        intro x y hxy
        apply ag
        intro q hq
        apply hxy
        rw [List.mem_filter]
        refine ⟨by rw [← hpre]; simp [hq], ?_⟩
        simp only [ne_eq, decide_not, Bool.not_eq_eq_eq_not, Bool.not_true, decide_eq_false_iff_not]
        rintro rfl; exact hnp hq)
      obtain ⟨x, hx⟩ : ∃ x, R[p.1]? = some x := ⟨_, List.getElem?_eq_getElem hp1⟩
      obtain ⟨y, hy⟩ : ∃ y, C[p.2]? = some y := ⟨_, List.getElem?_eq_getElem hp2⟩
      obtain ⟨-, x0, xN⟩ := h.row.get _ _ hx
      obtain ⟨-, y0, yM⟩ := h.col.get _ _ hy
      obtain ⟨xn, rfl⟩ := Int.eq_ofNat_of_zero_le x0
      obtain ⟨yn, rfl⟩ := Int.eq_ofNat_of_zero_le y0
      obtain ⟨A2, e2, v2, r2, c2, g2, o2⟩ := Mat.set_spec v1 (i := xn) (j := yn) (by omega) (by omega)
        (g p.1 p.2)
      have hset : b.set A1 p.1 p.2 (g p.1 p.2) = some A2 := by
        unfold Block.set
        rw [h.index hN hM hx hy]
        exact e2
      have hinj : ∀ q : ℕ × ℕ, R[q.1]? = some (xn : ℤ) → C[q.2]? = some (yn : ℤ) → q = p := by
        intro q hq1 hq2
        have n1 := h.row.nodup
        have n2 := h.col.nodup
        have d1 : q.1 = p.1 := (List.getElem?_inj (List.getElem?_eq_some_iff.1 hq1).1 n1).1 (hq1.trans hx.symm)
        have d2 : q.2 = p.2 := (List.getElem?_inj (List.getElem?_eq_some_iff.1 hq2).1 n2).1 (hq2.trans hy.symm)
        exact Prod.ext d1 d2
      obtain ⟨A', hA', rest'⟩ := ih (pre ++ [p]) (by rw [← hpre]; simp) A2 v2 (by omega) (by omega)
        (by
          intro x y hxy
          rw [o2 x y (by
            rintro ⟨rfl, rfl⟩
            exact hxy p (by simp) ⟨hx, hy⟩)]
          apply ag
          intro q hq
          exact hxy q (by simp [hq]))
        (by
          intro q hq x y hqx hqy
          by_cases hqp : x = xn ∧ y = yn
          · obtain ⟨rfl, rfl⟩ := hqp
            rw [hinj q hqx hqy]; exact g2
          · rw [o2 x y hqp]
            rcases List.mem_append.1 hq with hq | hq
            · exact gt q hq x y hqx hqy
            · simp only [List.mem_singleton] at hq
              subst hq
              rw [hx] at hqx; rw [hy] at hqy
              exact absurd ⟨(Option.some_injective _ hqx).symm, (Option.some_injective _ hqy).symm⟩ hqp)
      refine ⟨A', ?_, rest'⟩
      rw [List.foldlM_cons, hfv]
      simp only [Option.bind_some]
      rw [hset]
      exact hA'

theorem mem_pairs {n m : ℕ} {p : ℕ × ℕ} : p ∈ pairs n m ↔ p.1 < n ∧ p.2 < m := by
  obtain ⟨a, b⟩ := p
  simp only [pairs, List.mem_flatMap, List.mem_range, List.mem_map, Prod.mk.injEq]
  constructor
  · rintro ⟨i, hi, j, hj, rfl, rfl⟩; exact ⟨hi, hj⟩
  · rintro ⟨hi, hj⟩; exact ⟨a, hi, b, hj, rfl, rfl⟩

theorem pairs_nodup (n m : ℕ) : (pairs n m).Nodup := by
  unfold pairs
  rw [List.nodup_flatMap]
  refine ⟨fun i _ => ?_, ?_⟩
  · exact List.nodup_range.map (fun a b h => (Prod.mk.injEq _ _ _ _ ▸ h).2)
  · apply List.nodup_range.pairwise_of_forall_ne
    intro i _ j _ hij p hp hq
    simp only [List.mem_map, List.mem_range] at hp hq
    obtain ⟨_, _, rfl⟩ := hp
    obtain ⟨_, _, h⟩ := hq
    simp only [Prod.mk.injEq] at h
    exact hij h.1.symm

/-- The matrix `B` is `A` with `v i j` written at row `R[i]` and column `C[j]`, for all `i` and `j`,
and nothing else changed. -/
def Written (R C : List ℤ) (v : ℕ → ℕ → α) (A B : Mat α) : Prop :=
  B.Valid ∧ B.rows = A.rows ∧ B.cols = A.cols ∧
    (∀ (i j : ℕ) (x y : ℤ), R[i]? = some x → C[j]? = some y → B.get x y = some (v i j)) ∧
    ∀ x y : ℤ, x ∉ R ∨ y ∉ C → B.get x y = A.get x y

theorem update_written {N M : ℕ} {b : Block} {R C : List ℤ} (h : Names N M b R C) (hN : (N : ℤ) ≤ intMax)
    (hM : (M : ℤ) ≤ intMax) (f : Mat α → ℕ → ℕ → Option α) (g : ℕ → ℕ → α) (A : Mat α) (hA : A.Valid)
    (hrow : A.rows = N) (hcol : A.cols = M)
    (hf : ∀ i j, i < R.length → j < C.length → ∀ A' : Mat α, A'.Valid → A'.rows = N → A'.cols = M →
      AgreeExcept R C ((pairs R.length C.length).filter (· ≠ (i, j))) A' A → f A' i j = some (g i j)) :
    ∃ A', b.update f A = some A' ∧ Written R C g A A' := by
  obtain ⟨A', e, v, r, c, ag, gt⟩ := update_list h hN hM f g A hA hrow hcol (pairs R.length C.length)
    (pairs_nodup _ _) (fun p hp => mem_pairs.1 hp) (fun p hp A' => hf p.1 p.2 (mem_pairs.1 hp).1
      (mem_pairs.1 hp).2 A')
  refine ⟨A', ?_, v, by omega, by omega, ?_, ?_⟩
  · unfold Block.update
    rw [h.row.len, h.col.len]
    exact e
  · intro i j x y hx hy
    exact gt (i, j) (mem_pairs.2 ⟨(List.getElem?_eq_some_iff.1 hx).1, (List.getElem?_eq_some_iff.1 hy).1⟩)
      x y hx hy
  · intro x y hxy
    apply ag
    rintro p - ⟨hx, hy⟩
    rcases hxy with hxy | hxy
    · exact hxy (List.mem_of_getElem? hx)
    · exact hxy (List.mem_of_getElem? hy)

/-! ### The property -/

/-- A chain of calls whose slice arithmetic stays within `int`: for nested slices, the product of the
steps must leave room for the size of the matrix. -/
structure ChainOk (N M : ℕ) (first : Access) (rest : List Access) (R C : List ℤ) : Prop where
  selects : ChainSelects (allOf N) (allOf M) (first :: rest) R C
  rows : (N : ℤ) ≤ intMax
  cols : (M : ℤ) ≤ intMax
  rowSteps : rest ≠ [] → N + |((first :: rest).map Access.rowStep).prod| ≤ intMax
  colSteps : rest ≠ [] → M + |((first :: rest).map Access.colStep).prod| ≤ intMax

/-- C13, reading: the view has one row per selected row and one column per selected column, its element
`(i, j)` is the parent's element `(R[i], C[j])`, positions outside the view are rejected, and different
view positions are different parent positions. -/
theorem view_reads {N M : ℕ} {first : Access} {rest : List Access} {R C : List ℤ}
    (h : ChainOk N M first rest R C) :
    ∃ b, views N M first rest = some b ∧ b.rows = R.length ∧ b.cols = C.length ∧ R.Nodup ∧ C.Nodup ∧
      (∀ x ∈ R, 0 ≤ x ∧ x < N) ∧ (∀ y ∈ C, 0 ≤ y ∧ y < M) ∧
      ∀ A : Mat α,
        (∀ (i j : ℕ) (x y : ℤ), R[i]? = some x → C[j]? = some y → b.get A i j = A.get x y) ∧
        ∀ i j : ℤ, ¬ (0 ≤ i ∧ i < R.length ∧ 0 ≤ j ∧ j < C.length) → b.get A i j = none := by
  obtain ⟨b, hb, hn⟩ := views_names h.selects h.rows h.cols h.rowSteps h.colSteps
  refine ⟨b, hb, hn.row.len, hn.col.len, hn.row.nodup, hn.col.nodup, ?_, ?_, fun A => ⟨?_, ?_⟩⟩
  · intro x hx
    obtain ⟨k, hk⟩ := List.getElem?_of_mem hx
    exact (hn.row.get k x hk).2
  · intro x hx
    obtain ⟨k, hk⟩ := List.getElem?_of_mem hx
    exact (hn.col.get k x hk).2
  · intro i j x y hx hy
    exact hn.get h.rows h.cols A hx hy
  · intro i j hij
    exact hn.get_out A hij

/-- C13, linear indexing: element `k` of a view is its element `(k / cols, k % cols)`. -/
theorem view_reads_index {N M : ℕ} {first : Access} {rest : List Access} {R C : List ℤ}
    (h : ChainOk N M first rest R C) {b : Block} (hb : views N M first rest = some b) (A : Mat α) {i j : ℕ}
    {x y : ℤ} (hx : R[i]? = some x) (hy : C[j]? = some y) :
    b.getIndex A (i * C.length + j : ℕ) = A.get x y := by
  obtain ⟨b', hb', hn⟩ := views_names h.selects h.rows h.cols h.rowSteps h.colSteps
  have hbb : b = b' := Option.some_injective _ (hb.symm.trans hb')
  subst hbb
  have hi := (List.getElem?_eq_some_iff.1 hx).1
  have hj := (List.getElem?_eq_some_iff.1 hy).1
  unfold Block.getIndex
  have hlt := index_lt hi hj
  rw [hn.row.len, hn.col.len, if_pos ⟨by omega, by exact_mod_cast hlt⟩]
  have e1 : Int.tdiv ((i * C.length + j : ℕ) : ℤ) C.length = i := by
    rw [Int.tdiv_eq_ediv_of_nonneg (by omega), ← Int.natCast_div, Nat.mul_comm, Nat.mul_add_div (by omega), Nat.div_eq_of_lt hj, Nat.add_zero]
  have e2 : Int.tmod ((i * C.length + j : ℕ) : ℤ) C.length = j := by
    rw [Int.tmod_eq_emod_of_nonneg (by omega), ← Int.natCast_mod, Nat.mul_comm, Nat.mul_add_mod, Nat.mod_eq_of_lt hj]
  rw [e1, e2]
  exact hn.get h.rows h.cols A hx hy

/-- C13, assigning one element through a view changes the named parent element and nothing else. -/
theorem view_writes_one {N M : ℕ} {first : Access} {rest : List Access} {R C : List ℤ}
    (h : ChainOk N M first rest R C) {b : Block} (hb : views N M first rest = some b) {A : Mat α}
    (hA : A.Valid) (hr : A.rows = N) (hc : A.cols = M) {i j : ℕ} {x y : ℤ} (hx : R[i]? = some x)
    (hy : C[j]? = some y) (v : α) :
    ∃ A', b.set A i j v = some A' ∧ A'.Valid ∧ A'.rows = N ∧ A'.cols = M ∧ A'.get x y = some v ∧
      ∀ x' y' : ℤ, ¬ (x' = x ∧ y' = y) → A'.get x' y' = A.get x' y' := by
  obtain ⟨b', hb', hn⟩ := views_names h.selects h.rows h.cols h.rowSteps h.colSteps
  have hbb : b = b' := Option.some_injective _ (hb.symm.trans hb')
  subst hbb
  obtain ⟨-, x0, xN⟩ := hn.row.get _ _ hx
  obtain ⟨-, y0, yM⟩ := hn.col.get _ _ hy
  obtain ⟨xn, rfl⟩ := Int.eq_ofNat_of_zero_le x0
  obtain ⟨yn, rfl⟩ := Int.eq_ofNat_of_zero_le y0
  obtain ⟨A2, e2, v2, r2, c2, g2, o2⟩ := Mat.set_spec hA (i := xn) (j := yn) (by omega) (by omega) v
  refine ⟨A2, ?_, v2, by omega, by omega, g2, o2⟩
  unfold Block.set
  rw [hn.index h.rows h.cols hx hy]
  exact e2

/-- C13, assigning a matrix to a view writes exactly the selected elements. -/
theorem view_writes {N M : ℕ} {first : Access} {rest : List Access} {R C : List ℤ}
    (h : ChainOk N M first rest R C) {b : Block} (hb : views N M first rest = some b) {A : Mat α}
    (hA : A.Valid) (hr : A.rows = N) (hc : A.cols = M) (values : View α) (hvr : values.rows = R.length)
    (hvc : values.cols = C.length) (v : ℕ → ℕ → α)
    (hv : ∀ i j : ℕ, i < R.length → j < C.length → values.get i j = some (v i j)) :
    ∃ A', b.assign A values = some A' ∧ Written R C v A A' := by
  obtain ⟨b', hb', hn⟩ := views_names h.selects h.rows h.cols h.rowSteps h.colSteps
  have hbb : b = b' := Option.some_injective _ (hb.symm.trans hb')
  subst hbb
  unfold Block.assign
  rw [if_pos (by rw [hn.row.len, hn.col.len, hvr, hvc]; simp)]
  exact update_written hn h.rows h.cols _ v A hA hr hc (fun i j hi hj _ _ _ _ _ => hv i j hi hj)

/-- C13, compound assignment of a matrix (`+=`, `-=`) through a view. -/
theorem view_compound {N M : ℕ} {first : Access} {rest : List Access} {R C : List ℤ}
    (h : ChainOk N M first rest R C) {b : Block} (hb : views N M first rest = some b) {A : Mat α}
    (hA : A.Valid) (hr : A.rows = N) (hc : A.cols = M) (op : α → α → α) (values : View α)
    (hvr : values.rows = R.length) (hvc : values.cols = C.length) (v old : ℕ → ℕ → α)
    (hv : ∀ i j : ℕ, i < R.length → j < C.length → values.get i j = some (v i j))
    (hold : ∀ (i j : ℕ) (x y : ℤ), R[i]? = some x → C[j]? = some y → A.get x y = some (old i j)) :
    ∃ A', b.compound op A values = some A' ∧ Written R C (fun i j => op (old i j) (v i j)) A A' := by
  obtain ⟨b', hb', hn⟩ := views_names h.selects h.rows h.cols h.rowSteps h.colSteps
  have hbb : b = b' := Option.some_injective _ (hb.symm.trans hb')
  subst hbb
  unfold Block.compound
  rw [if_pos (by rw [hn.row.len, hn.col.len, hvr, hvc]; simp)]
  refine update_written hn h.rows h.cols _ _ A hA hr hc (fun i j hi hj A' _ _ _ hag => ?_)
  obtain ⟨x, hx⟩ : ∃ x, R[i]? = some x := ⟨_, List.getElem?_eq_getElem hi⟩
  obtain ⟨y, hy⟩ : ∃ y, C[j]? = some y := ⟨_, List.getElem?_eq_getElem hj⟩
  rw [hn.get h.rows h.cols A' hx hy, hag x y (by
    rintro q hq ⟨hq1, hq2⟩
    rw [List.mem_filter] at hq
    have d1 : q.1 = i := (List.getElem?_inj (List.getElem?_eq_some_iff.1 hq1).1 hn.row.nodup).1
      (hq1.trans hx.symm)
    have d2 : q.2 = j := (List.getElem?_inj (List.getElem?_eq_some_iff.1 hq2).1 hn.col.nodup).1
      (hq2.trans hy.symm)
    have : q = (i, j) := Prod.ext d1 d2
    simp [this] at hq), hold i j x y hx hy, hv i j hi hj]
  rfl

/-- C13, compound assignment of a scalar (`*=`, `/=`) through a view. -/
theorem view_compound_scalar {N M : ℕ} {first : Access} {rest : List Access} {R C : List ℤ}
    (h : ChainOk N M first rest R C) {b : Block} (hb : views N M first rest = some b) {A : Mat α}
    (hA : A.Valid) (hr : A.rows = N) (hc : A.cols = M) (op : α → α → α) (c : α) (old : ℕ → ℕ → α)
    (hold : ∀ (i j : ℕ) (x y : ℤ), R[i]? = some x → C[j]? = some y → A.get x y = some (old i j)) :
    ∃ A', b.compoundScalar op A c = some A' ∧ Written R C (fun i j => op (old i j) c) A A' := by
  obtain ⟨b', hb', hn⟩ := views_names h.selects h.rows h.cols h.rowSteps h.colSteps
  have hbb : b = b' := Option.some_injective _ (hb.symm.trans hb')
  subst hbb
  unfold Block.compoundScalar
  refine update_written hn h.rows h.cols _ _ A hA hr hc (fun i j hi hj A' _ _ _ hag => ?_)
  obtain ⟨x, hx⟩ : ∃ x, R[i]? = some x := ⟨_, List.getElem?_eq_getElem hi⟩
  obtain ⟨y, hy⟩ : ∃ y, C[j]? = some y := ⟨_, List.getElem?_eq_getElem hj⟩
  rw [hn.get h.rows h.cols A' hx hy, hag x y (by
    rintro q hq ⟨hq1, hq2⟩
    rw [List.mem_filter] at hq
    have d1 : q.1 = i := (List.getElem?_inj (List.getElem?_eq_some_iff.1 hq1).1 hn.row.nodup).1
      (hq1.trans hx.symm)
    have d2 : q.2 = j := (List.getElem?_inj (List.getElem?_eq_some_iff.1 hq2).1 hn.col.nodup).1
      (hq2.trans hy.symm)
    have : q = (i, j) := Prod.ext d1 d2
    simp [this] at hq), hold i j x y hx hy]
  rfl

/-- C13, assigning one view of a matrix to another view of the same matrix, when the two have no element
in common. -/
theorem view_copies {N M : ℕ} {first first' : Access} {rest rest' : List Access} {R C R' C' : List ℤ}
    (h : ChainOk N M first rest R C) (h' : ChainOk N M first' rest' R' C') {b b' : Block}
    (hb : views N M first rest = some b) (hb' : views N M first' rest' = some b') {A : Mat α}
    (hA : A.Valid) (hr : A.rows = N) (hc : A.cols = M) (hlr : R.length = R'.length)
    (hlc : C.length = C'.length) (hdis : ∀ x y : ℤ, x ∈ R → y ∈ C → ¬ (x ∈ R' ∧ y ∈ C'))
    (v : ℕ → ℕ → α)
    (hv : ∀ (i j : ℕ) (x y : ℤ), R'[i]? = some x → C'[j]? = some y → A.get x y = some (v i j)) :
    ∃ A', b.assignSame b' A = some A' ∧ Written R C v A A' := by
  obtain ⟨b1, hb1, hn⟩ := views_names h.selects h.rows h.cols h.rowSteps h.colSteps
  have hbb : b = b1 := Option.some_injective _ (hb.symm.trans hb1)
  subst hbb
  obtain ⟨b2, hb2, hn'⟩ := views_names h'.selects h'.rows h'.cols h'.rowSteps h'.colSteps
  have hbb : b' = b2 := Option.some_injective _ (hb'.symm.trans hb2)
  subst hbb
  unfold Block.assignSame
  rw [if_pos (by rw [hn.row.len, hn.col.len, hn'.row.len, hn'.col.len, hlr, hlc]; simp)]
  refine update_written hn h.rows h.cols _ _ A hA hr hc (fun i j hi hj A' _ _ _ hag => ?_)
  obtain ⟨x, hx⟩ : ∃ x, R'[i]? = some x := ⟨_, List.getElem?_eq_getElem (by omega)⟩
  obtain ⟨y, hy⟩ : ∃ y, C'[j]? = some y := ⟨_, List.getElem?_eq_getElem (by omega)⟩
  rw [hn'.get h.rows h.cols A' hx hy, hag x y (by
    rintro q - ⟨hq1, hq2⟩
    exact hdis x y (List.mem_of_getElem? hq1) (List.mem_of_getElem? hq2)
      ⟨List.mem_of_getElem? hx, List.mem_of_getElem? hy⟩)]
  exact hv i j x y hx hy

/-! ### Cases -/

/-- `A[{_, _, -1}, _][{0, 4, 2}, {1, 3}]` of a 5 by 4 matrix: rows 4 and 2, columns 1 and 2. -/
example : ChainOk 5 4 (.slices (.range none none (some (-1))) .all)
    [.slices (.range (some 0) (some 4) (some 2)) (.range (some 1) (some 3) none)] [4, 2] [1, 2] := by
  refine ⟨?_, by decide, by decide, fun _ => by decide, fun _ => by decide⟩
  refine .cons (R' := [4, 3, 2, 1, 0]) (C' := [0, 1, 2, 3]) (.slices (lr := [4, 3, 2, 1, 0])
    (lc := [0, 1, 2, 3]) ?_ trivial ?_ ?_ ?_ ?_) (.cons (.slices (lr := [0, 2]) (lc := [1, 2]) ?_ ?_ ?_ ?_ ?_ ?_)
    .nil)
  · exact ⟨by simp, by simp, by rintro _ ⟨⟩; decide⟩
  · refine ⟨?_, by decide, by decide⟩
    intro k x hx
    match k, hx with
    | 0, hx | 1, hx | 2, hx | 3, hx | 4, hx => cases hx; decide
  · rfl
  · refine ⟨rfl, ?_⟩
    intro k x hx
    match k, hx with
    | 0, hx | 1, hx | 2, hx | 3, hx | 4, hx => cases hx; decide
  · refine ⟨rfl, ?_⟩
    intro k x hx
    match k, hx with
    | 0, hx | 1, hx | 2, hx | 3, hx => cases hx; decide
  · exact ⟨by rintro _ ⟨⟩; decide, by rintro _ ⟨⟩; decide, by rintro _ ⟨⟩; decide⟩
  · exact ⟨by rintro _ ⟨⟩; decide, by rintro _ ⟨⟩; decide, by rintro _ ⟨⟩⟩
  · refine ⟨?_, by decide, by decide⟩
    intro k x hx
    match k, hx with
    | 0, hx | 1, hx => cases hx; decide
  · refine ⟨?_, by decide, by decide⟩
    intro k x hx
    match k, hx with
    | 0, hx | 1, hx => cases hx; decide
  · refine ⟨rfl, ?_⟩
    intro k x hx
    match k, hx with
    | 0, hx | 1, hx => cases hx; decide
  · refine ⟨rfl, ?_⟩
    intro k x hx
    match k, hx with
    | 0, hx | 1, hx => cases hx; decide

/-- A 2 by 2 block, a row and a segment of a matrix. -/
example : ChainOk 4 3 (.block 1 0 3 2) [.col 1, .segment 1 2] [2, 3] [1] :=
  ⟨.cons (.block (by decide) (by decide)) (.cons (.col rfl) (.cons (.segment rfl (by decide) (by decide))
    .nil)), by decide, by decide, fun _ => by decide, fun _ => by decide⟩

/-- The condition on nested steps is needed: `A[{_, _, 65536}, _][{_, _, 65536}, _]` of a one-row matrix
is a legal selection of row 0, but computing the product of the steps overflows. -/
theorem nested_steps_overflow :
    (views 1 1 (.slices (.range none none (some 65536)) .all)
      [.slices (.range none none (some 65536)) .all]) = none := by decide

/-- When the views overlap, assignment is not a copy of the old values: shifting three elements down by
one repeats the first. -/
theorem overlapping_assignment :
    ((views 3 1 (.segment 1 2) []).bind fun b => (views 3 1 (.segment 0 2) []).bind fun b' =>
      b.assignSame b' (⟨3, 1, [10, 20, 30]⟩ : Mat ℕ)) = some ⟨3, 1, [10, 10, 10]⟩ := by decide

/-- `segment()` rejects the empty segment at the end that `block()` accepts. -/
theorem segment_boundary :
    views 3 1 (.segment 3 0) [] = none ∧ views 3 1 (.block 3 0 0 1) [] ≠ none := by decide

end Slp.VMat
