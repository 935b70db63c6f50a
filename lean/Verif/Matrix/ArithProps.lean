import Verif.Matrix.ArithSpec
import Verif.Matrix.BlockProps
import Verif.Autodiff.TermSpec
import Mathlib.Data.Matrix.Mul
import Mathlib.Algebra.BigOperators.Fin

/-! C14: matrix arithmetic. -/

namespace Slp.VMat

variable {α : Type}

theorem pairs_getElem? {n m i j : ℕ} (hi : i < n) (hj : j < m) : (pairs n m)[i * m + j]? = some (i, j) := by
  induction n generalizing i with
  | zero => omega
  | succ n ih =>
      have hsplit : pairs (n + 1) m = pairs n m ++ (List.range m).map fun j => (n, j) := by
        simp [pairs, List.range_succ, List.flatMap_append]
      have hlen : (pairs n m).length = n * m := by
        simp [pairs, List.length_flatMap]
      rw [hsplit]
      rcases Nat.lt_succ_iff_lt_or_eq.1 hi with h | rfl
      · rw [List.getElem?_append_left (by rw [hlen]; exact index_lt h hj)]
        exact ih h
      · rw [List.getElem?_append_right (by omega), hlen, List.getElem?_map,
          show i * m + j - i * m = j by omega, List.getElem?_range hj]
        rfl

theorem pairs_length (n m : ℕ) : (pairs n m).length = n * m := by
  simp [pairs, List.length_flatMap]

theorem mapM_some {β : Type} {f : β → Option α} {g : β → α} :
    ∀ {l : List β}, (∀ x ∈ l, f x = some (g x)) → l.mapM f = some (l.map g)
  | [], _ => rfl
  | x :: l, h => by
      rw [List.mapM_cons, h x (by simp), mapM_some (fun y hy => h y (by simp [hy]))]
      rfl

/-- A loop nest that fills a new matrix. -/
theorem ofFnM_spec {n m : ℕ} {f : ℕ → ℕ → Option α} {g : ℕ → ℕ → α}
    (h : ∀ i j, i < n → j < m → f i j = some (g i j)) :
    ∃ A, Mat.ofFnM n m f = some A ∧ A.Valid ∧ A.rows = n ∧ A.cols = m ∧
      ∀ i j : ℕ, i < n → j < m → A.get i j = some (g i j) := by
  refine ⟨⟨n, m, (pairs n m).map fun p => g p.1 p.2⟩, ?_, ?_, rfl, rfl, ?_⟩
  · unfold Mat.ofFnM
    rw [mapM_some (g := fun p => g p.1 p.2) (fun p hp => h p.1 p.2 (mem_pairs.1 hp).1 (mem_pairs.1 hp).2)]
    rfl
  · simp [Mat.Valid, pairs_length]
  · intro i j hi hj
    rw [Mat.get_nat (A := ⟨n, m, _⟩) hi hj, List.getElem?_map, pairs_getElem? hi hj]
    rfl

theorem ofFnM_is {ev : α → ℝ} {m n : ℕ} {f : ℕ → ℕ → Option α} {M : Matrix (Fin m) (Fin n) ℝ}
    (h : ∀ (i : Fin m) (j : Fin n), ∃ a, f i j = some a ∧ ev a = M i j) :
    ∃ A, Mat.ofFnM m n f = some A ∧ A.Is ev M := by
  by_cases hne : ∃ p : Fin m × Fin n, True
  · obtain ⟨⟨i0, j0⟩, -⟩ := hne
    obtain ⟨a0, -, -⟩ := h i0 j0
    have hf : ∀ i j, i < m → j < n → f i j = some ((f i j).getD a0) := by
      intro i j hi hj
      obtain ⟨a, ha, -⟩ := h ⟨i, hi⟩ ⟨j, hj⟩
      simp only at ha
      rw [ha]; rfl
    obtain ⟨A, hA, v, r, c, g⟩ := ofFnM_spec hf
    refine ⟨A, hA, v, r, c, fun i j => ?_⟩
    obtain ⟨a, ha, he⟩ := h i j
    refine ⟨a, ?_, he⟩
    show A.get _ _ = _
    rw [g i j i.2 j.2, ha]; rfl
  · have h0 : ∀ (i : Fin m) (j : Fin n), False := fun i j => hne ⟨(i, j), trivial⟩
    have hp : pairs m n = [] := by
      rw [List.eq_nil_iff_forall_not_mem]
      intro p hp
      have := mem_pairs.1 hp
      exact h0 ⟨p.1, this.1⟩ ⟨p.2, this.2⟩
    refine ⟨⟨m, n, []⟩, ?_, ?_, rfl, rfl, fun i j => (h0 i j).elim⟩
    · simp [Mat.ofFnM, hp]
    · have := pairs_length m n
      rw [hp] at this
      simpa using this

section

variable [Zero α] [Add α] [Sub α] [Mul α] [Div α] [Neg α] {ev : α → ℝ}

theorem dotRow_eval (hev : Reals ev) {l r : ℕ → Option α} {a b : ℕ → ℝ} :
    ∀ n : ℕ, (∀ k, k < n → ∃ x, l k = some x ∧ ev x = a k) → (∀ k, k < n → ∃ y, r k = some y ∧ ev y = b k) →
      ∃ s, dotRow n l r = some s ∧ ev s = ∑ k ∈ Finset.range n, a k * b k
  | 0, _, _ => ⟨0, rfl, by simpa using hev.zero⟩
  | n + 1, h1, h2 => by
      obtain ⟨s, hs, es⟩ := dotRow_eval hev n (fun k hk => h1 k (by omega)) (fun k hk => h2 k (by omega))
      obtain ⟨x, hx, ex⟩ := h1 n (by omega)
      obtain ⟨y, hy, ey⟩ := h2 n (by omega)
      refine ⟨s + x * y, ?_, ?_⟩
      · unfold dotRow at hs ⊢
        rw [List.range_succ, List.foldlM_append, hs]
        simp [hx, hy]
      · rw [hev.add, hev.mul, es, ex, ey, Finset.sum_range_succ]

/-- C14: the product. -/
theorem mul_correct (hev : Reals ev) {m n p : ℕ} {A B : View α} {M : Matrix (Fin m) (Fin n) ℝ}
    {N : Matrix (Fin n) (Fin p) ℝ} (hA : A.Is ev M) (hB : B.Is ev N) :
    ∃ C, mul A B = some C ∧ C.Is ev (M * N) := by
  obtain ⟨a1, a2, a3⟩ := hA
  obtain ⟨b1, b2, b3⟩ := hB
  unfold mul
  rw [if_pos (by omega), a1, b2, a2]
  apply ofFnM_is
  intro i j
  obtain ⟨s, hs, es⟩ := dotRow_eval hev (l := fun k => A.get i k) (r := fun k => B.get k j)
    (a := fun k => if h : k < n then M i ⟨k, h⟩ else 0) (b := fun k => if h : k < n then N ⟨k, h⟩ j else 0) n
    (fun k hk => by simpa [hk] using a3 i ⟨k, hk⟩) (fun k hk => by simpa [hk] using b3 ⟨k, hk⟩ j)
  refine ⟨s, hs, ?_⟩
  rw [es, Matrix.mul_apply, Finset.sum_range]
  apply Finset.sum_congr rfl
  intro k _
  simp

omit [Zero α] [Add α] [Sub α] [Mul α] [Div α] [Neg α] in
/-- C14: an operation applied to each element. -/
theorem map_correct {m n : ℕ} {A : View α} {M : Matrix (Fin m) (Fin n) ℝ} (hA : A.Is ev M) (op : α → α)
    (f : ℝ → ℝ) (hop : ∀ a i j, ev a = M i j → ev (op a) = f (M i j)) :
    ∃ C, map op A = some C ∧ C.Is ev (M.map f) := by
  obtain ⟨a1, a2, a3⟩ := hA
  unfold map
  rw [a1, a2]
  apply ofFnM_is
  intro i j
  obtain ⟨a, ha, ea⟩ := a3 i j
  exact ⟨op a, by rw [ha]; rfl, by rw [hop a i j ea]; rfl⟩

omit [Zero α] [Add α] [Sub α] [Mul α] [Div α] [Neg α] in
/-- C14: an operation applied to the elements of two matrices. -/
theorem zip_correct {m n : ℕ} {A B : View α} {M N : Matrix (Fin m) (Fin n) ℝ} (hA : A.Is ev M)
    (hB : B.Is ev N) (op : α → α → α) (f : ℝ → ℝ → ℝ)
    (hop : ∀ a b i j, ev a = M i j → ev b = N i j → ev (op a b) = f (M i j) (N i j)) :
    ∃ C, zip op A B = some C ∧ C.Is ev (Matrix.of fun i j => f (M i j) (N i j)) := by
  obtain ⟨a1, a2, a3⟩ := hA
  obtain ⟨b1, b2, b3⟩ := hB
  unfold zip
  rw [if_pos (by omega), a1, a2]
  apply ofFnM_is
  intro i j
  obtain ⟨a, ha, ea⟩ := a3 i j
  obtain ⟨b, hb, eb⟩ := b3 i j
  exact ⟨op a b, by rw [ha, hb]; rfl, by rw [hop a b i j ea eb]; rfl⟩

/-- C14: `A + B`. -/
theorem add_correct (hev : Reals ev) {m n : ℕ} {A B : View α} {M N : Matrix (Fin m) (Fin n) ℝ}
    (hA : A.Is ev M) (hB : B.Is ev N) : ∃ C, zip (· + ·) A B = some C ∧ C.Is ev (M + N) :=
  zip_correct hA hB (· + ·) (· + ·) (fun a b i j ha hb => by rw [hev.add, ha, hb])

/-- C14: `A - B`. -/
theorem sub_correct (hev : Reals ev) {m n : ℕ} {A B : View α} {M N : Matrix (Fin m) (Fin n) ℝ}
    (hA : A.Is ev M) (hB : B.Is ev N) : ∃ C, zip (· - ·) A B = some C ∧ C.Is ev (M - N) :=
  zip_correct hA hB (· - ·) (· - ·) (fun a b i j ha hb => by rw [hev.sub, ha, hb])

/-- C14: `-A`. -/
theorem neg_correct (hev : Reals ev) {m n : ℕ} {A : View α} {M : Matrix (Fin m) (Fin n) ℝ}
    (hA : A.Is ev M) : ∃ C, map (- ·) A = some C ∧ C.Is ev (-M) :=
  map_correct hA (- ·) (- ·) (fun a i j ha => by rw [hev.neg, ha])

/-- C14: `A * c` and `c * A` (which multiplies the element by the scalar from the right as well). -/
theorem smul_correct (hev : Reals ev) {m n : ℕ} {A : View α} {M : Matrix (Fin m) (Fin n) ℝ}
    (hA : A.Is ev M) (c : α) : ∃ C, map (· * c) A = some C ∧ C.Is ev (ev c • M) := by
  obtain ⟨C, h1, h2⟩ := map_correct hA (· * c) (· * ev c) (fun a i j ha => by rw [hev.mul, ha])
  refine ⟨C, h1, ?_⟩
  have : M.map (· * ev c) = ev c • M := by ext i j; simp [mul_comm]
  rwa [this] at h2

/-- C14: `A / c` for a nonzero scalar. -/
theorem sdiv_correct (hev : Reals ev) {m n : ℕ} {A : View α} {M : Matrix (Fin m) (Fin n) ℝ}
    (hA : A.Is ev M) (c : α) (hc : ev c ≠ 0) : ∃ C, map (· / c) A = some C ∧ C.Is ev ((ev c)⁻¹ • M) := by
  obtain ⟨C, h1, h2⟩ := map_correct hA (· / c) (· / ev c) (fun a i j ha => by rw [hev.div a c hc, ha])
  refine ⟨C, h1, ?_⟩
  have : M.map (· / ev c) = (ev c)⁻¹ • M := by
    ext i j; simp [div_eq_mul_inv, mul_comm]
  rwa [this] at h2

omit [Zero α] [Add α] [Sub α] [Mul α] [Div α] [Neg α] in
/-- C14: `A.T()`. -/
theorem transpose_correct {m n : ℕ} {A : View α} {M : Matrix (Fin m) (Fin n) ℝ} (hA : A.Is ev M) :
    ∃ C, transpose A = some C ∧ C.Is ev M.transpose := by
  obtain ⟨a1, a2, a3⟩ := hA
  unfold transpose
  rw [a1, a2]
  apply ofFnM_is
  intro i j
  exact a3 j i

omit [Zero α] [Add α] [Sub α] [Mul α] [Div α] [Neg α] in
theorem foldlM_congr' {β σ : Type} {f g : σ → β → Option σ} :
    ∀ {l : List β} {s : σ}, (∀ s, ∀ x ∈ l, f s x = g s x) → l.foldlM f s = l.foldlM g s
  | [], _, _ => rfl
  | x :: l, s, h => by
      rw [List.foldlM_cons, List.foldlM_cons, h s x (by simp)]
      congr 1
      funext s'
      exact foldlM_congr' (fun s y hy => h s y (by simp [hy]))

omit [Sub α] [Div α] [Neg α] in
/-- The inner loop of `*=`. -/
theorem setRow {rhs : ℤ → ℤ → Option α} {m n : ℕ} {new : ℕ → ℕ → α} {i : ℕ} (hi : i < m) {old : List α}
    {A : Mat α} (hA : A.Valid) (hr : A.rows = m) (hc : A.cols = n)
    (hnew : ∀ j, j < n → dotRow n (fun k => old[k]?) (fun k => rhs k j) = some (new i j)) :
    ∀ l, l ≤ n → ∃ A', (List.range l).foldlM (fun (A : Mat α) (j : ℕ) =>
        (dotRow A.cols (fun k => old[k]?) (fun k => rhs k j)).bind fun sum => A.set i j sum) A = some A' ∧
      A'.Valid ∧ A'.rows = m ∧ A'.cols = n ∧
      (∀ j : ℕ, j < l → A'.get i j = some (new i j)) ∧
      ∀ x y : ℕ, ¬ (x = i ∧ y < l) → A'.get x y = A.get x y := by
  intro l
  induction l with
  | zero => intro _; exact ⟨A, rfl, hA, hr, hc, by simp, fun _ _ _ => rfl⟩
  | succ l ih =>
      intro hl
      obtain ⟨A', e, v, r, c, g, o⟩ := ih (by omega)
      obtain ⟨A2, e2, v2, r2, c2, g2, o2⟩ := Mat.set_spec v (i := i) (j := l) (by omega) (by omega) (new i l)
      refine ⟨A2, ?_, v2, by omega, by omega, ?_, ?_⟩
      · rw [List.range_succ, List.foldlM_append, e]
        simp only [Option.bind_eq_bind, Option.bind_some, List.foldlM_cons, List.foldlM_nil]
        rw [c, hnew l (by omega)]
        simp only [Option.bind_some]
        rw [e2]; rfl
      · intro j hj
        by_cases hjl : j = l
        · subst hjl; exact g2
        · rw [o2 i j (by omega)]; exact g j (by omega)
      · intro x y hxy
        rw [o2 x y (by omega)]
        exact o x y (by omega)

/-- C14: `A *= B` when `B` does not share elements with `A`. -/
theorem mulAssign_correct (hev : Reals ev) {m n : ℕ} {A : Mat α} {B : View α}
    {M : Matrix (Fin m) (Fin n) ℝ} {N : Matrix (Fin n) (Fin n) ℝ} (hA : A.Is ev M) (hB : B.Is ev N) :
    ∃ C, mulAssign A B.rows B.cols (fun _ => B.get) = some C ∧ C.Is ev (M * N) := by
  obtain ⟨hv, a1, a2, a3⟩ := hA
  obtain ⟨b1, b2, b3⟩ := hB
  have a1 : A.rows = m := a1
  have a2 : A.cols = n := a2
  -- the values that will be written
  have hex : ∀ i j, i < m → j < n → ∃ s, dotRow n (fun k => A.get i k) (fun k => B.get k j) = some s ∧
      ∀ (hi : i < m) (hj : j < n), ev s = (M * N) ⟨i, hi⟩ ⟨j, hj⟩ := by
    intro i j hi hj
    obtain ⟨s, hs, es⟩ := dotRow_eval hev (l := fun k => A.get i k) (r := fun k => B.get k j)
      (a := fun k => if h : k < n then M ⟨i, hi⟩ ⟨k, h⟩ else 0)
      (b := fun k => if h : k < n then N ⟨k, h⟩ ⟨j, hj⟩ else 0) n
      (fun k hk => by simpa [hk, Mat.view] using a3 ⟨i, hi⟩ ⟨k, hk⟩) (fun k hk => by simpa [hk] using b3 ⟨k, hk⟩ ⟨j, hj⟩)
    refine ⟨s, hs, fun _ _ => ?_⟩
    rw [es, Matrix.mul_apply, Finset.sum_range]
    apply Finset.sum_congr rfl
    intro k _
    simp
  let new : ℕ → ℕ → α := fun i j => (dotRow n (fun k => A.get i k) (fun k => B.get k j)).getD 0
  have hnew : ∀ i j, i < m → j < n →
      dotRow n (fun k => A.get i k) (fun k => B.get k j) = some (new i j) := by
    intro i j hi hj
    obtain ⟨s, hs, -⟩ := hex i j hi hj
    simp only [new, hs, Option.getD_some]
  suffices hs : ∀ l, l ≤ m → ∃ A', (List.range l).foldlM (fun (A : Mat α) (i : ℕ) =>
      ((List.range A.cols).mapM fun (k : ℕ) => A.get i k).bind fun old =>
        (List.range B.cols).foldlM (fun (A : Mat α) (j : ℕ) =>
          (dotRow A.cols (fun k => old[k]?) (fun k => B.get k j)).bind fun sum => A.set i j sum) A) A = some A' ∧
      A'.Valid ∧ A'.rows = m ∧ A'.cols = n ∧
      (∀ i j : ℕ, i < l → j < n → A'.get i j = some (new i j)) ∧
      ∀ x y : ℕ, l ≤ x → A'.get x y = A.get x y by
    obtain ⟨A', e, v, r, c, g, -⟩ := hs m (le_refl _)
    refine ⟨A', ?_, v, r, c, fun i j => ?_⟩
    · unfold mulAssign
      rw [if_pos (by omega), a1]
      exact e
    · obtain ⟨s, hs, es⟩ := hex i j i.2 j.2
      refine ⟨s, ?_, es i.2 j.2⟩
      show A'.get _ _ = _
      rw [g i j i.2 j.2, ← hnew i j i.2 j.2, hs]
  intro l
  induction l with
  | zero => intro _; exact ⟨A, rfl, hv, a1, a2, by simp, fun _ _ _ => rfl⟩
  | succ l ih =>
      intro hl
      obtain ⟨A', e, v, r, c, g, o⟩ := ih (by omega)
      let get0 : ℕ → α := fun k => (A.get l k).getD 0
      have hget0 : ∀ k, k < n → A'.get l k = some (get0 k) := by
        intro k hk
        rw [o l k (le_refl _)]
        obtain ⟨a, ha, -⟩ := a3 ⟨l, by omega⟩ ⟨k, hk⟩
        have ha : A.get l k = some a := ha
        simp only [get0, ha, Option.getD_some]
      have hold : (List.range n).mapM (fun (k : ℕ) => A'.get l k) = some ((List.range n).map get0) :=
        mapM_some (fun k hk => hget0 k (List.mem_range.1 hk))
      obtain ⟨A2, e2, v2, r2, c2, g2, o2⟩ := setRow (rhs := B.get) (m := m) (n := n) (new := new) (i := l)
        (by omega) (old := (List.range n).map get0) v r c (by
          intro j hj
          rw [← hnew l j (by omega) hj]
          unfold dotRow
          apply foldlM_congr'
          intro s k hk
          have hk := List.mem_range.1 hk
          have h1 := hget0 k hk
          rw [o l k (le_refl _)] at h1
          have h2 : ((List.range n).map get0)[k]? = A.get l k := by
            rw [List.getElem?_map, List.getElem?_range hk, h1]; rfl
          simp only [h2]) n (le_refl _)
      refine ⟨A2, ?_, v2, r2, c2, ?_, ?_⟩
      · rw [List.range_succ, List.foldlM_append, e]
        simp only [Option.bind_eq_bind, Option.bind_some, List.foldlM_cons, List.foldlM_nil]
        rw [c, hold]
        simp only [Option.bind_some]
        rw [b2, e2]; rfl
      · intro i j hi hj
        by_cases hil : i = l
        · subst hil; exact g2 j hj
        · rw [o2 i j (by omega)]; exact g i j (by omega) hj
      · intro x y hx
        rw [o2 x y (by omega)]
        exact o x y (by omega)

end

/-! ### Expressions are such elements -/

instance : Zero Term := ⟨.lit 0⟩
instance : Add Term := ⟨.bin .add⟩
instance : Sub Term := ⟨.bin .sub⟩
instance : Mul Term := ⟨.bin .mul⟩
instance : Div Term := ⟨.bin .div⟩
instance : Neg Term := ⟨.un .neg⟩

/-- The expressions of the autodiff specification, evaluated at any point. -/
theorem term_reals (env : ℕ → ℝ) : Reals fun t : Term => t.eval env where
  zero := rfl
  add _ _ := rfl
  sub _ _ := rfl
  mul _ _ := rfl
  neg _ := rfl
  div _ _ _ := rfl

/-- A 2 by 2 matrix of expressions. -/
example : (⟨2, 2, [.var 0, .lit 3, .bin .mul (.var 0) (.var 1), .var 1]⟩ : Mat Term).Is
    (fun t => t.eval fun k => (k : ℝ) + 1) (!![1, 3; 2, 2]) := by
  refine ⟨rfl, rfl, rfl, fun i j => ?_⟩
  fin_cases i <;> fin_cases j
  · exact ⟨_, rfl, by simp [Term.eval]⟩
  · exact ⟨_, rfl, by simp [Term.eval]⟩
  · exact ⟨_, rfl, by simp [Term.eval, BinOp.eval]; norm_num⟩
  · exact ⟨_, rfl, by simp [Term.eval]; norm_num⟩

/-! ### Operands that share elements with the destination -/

/-- `A *= A` is not `A * A`: the second row is multiplied by the already changed first row. -/
theorem mulAssign_self :
    mulAssign (⟨2, 2, [1, 1, 1, 1]⟩ : Mat ℤ) 2 2 (fun A => A.get) = some ⟨2, 2, [2, 2, 3, 3]⟩ ∧
      mul (⟨2, 2, [1, 1, 1, 1]⟩ : Mat ℤ).view (⟨2, 2, [1, 1, 1, 1]⟩ : Mat ℤ).view =
        some ⟨2, 2, [2, 2, 2, 2]⟩ := by decide

/-- `A *= A[0, 0]` multiplies the remaining elements by the changed element. -/
theorem scale_by_own_element :
    ((Block.whole 1 2).bind fun b => b.update (fun A i j =>
      (b.get A i j).bind fun x => (A.get 0 0).map fun c => x * c) (⟨1, 2, [2, 3]⟩ : Mat ℤ)) =
      some ⟨1, 2, [4, 12]⟩ := by decide

end Slp.VMat
