import Verif.Python.PyOpsLemmas

/-! C70: operators in Python mean what they mean in mathematics, whatever the operands are. -/

namespace Slp.Py

open Slp.VMat

variable {α : Type}

theorem map_get (num : ℝ → α) {a : NdArray} {m n : ℕ} (h : a.Usable m n) (i : Fin m) (j : Fin n) :
    (a.map num).get (i : ℕ) (j : ℕ) = some (num (a.entry [i, j])) := by
  obtain ⟨d, sh, st, data⟩ := a
  obtain ⟨h1, h2, -, -⟩ := h
  simp only at h1 h2
  subst h1
  obtain ⟨s0, s1, rfl⟩ := List.length_eq_two.1 h2
  simp [NdArray.map, NdArray.entry]

/-- C70: an array is read at its elements only. -/
theorem py_array_reads (num : ℝ → α) {a : NdArray} {m n : ℕ} (h : a.Usable m n) {row col : ℤ} {x : α}
    (hx : (a.map num).get row col = some x) :
    ∃ (i : Fin m) (j : Fin n), row = (i : ℕ) ∧ col = (j : ℕ) ∧ x = num (a.entry [i, j]) := by
  have hs : a.shape.getD 0 0 = m ∧ a.shape.getD 1 0 = n := by simp [h.shape]
  have hr : 0 ≤ row ∧ row < m ∧ 0 ≤ col ∧ col < n := by
    by_contra hn
    simp only [NdArray.map, hs.1, hs.2, if_neg hn] at hx
    cases hx
  obtain ⟨r0, r1, c0, c1⟩ := hr
  lift row to ℕ using r0
  lift col to ℕ using c0
  have e := map_get num h ⟨row, by omega⟩ ⟨col, by omega⟩
  refine ⟨⟨row, by omega⟩, ⟨col, by omega⟩, rfl, rfl, ?_⟩
  rw [hx] at e
  simpa using e

theorem Obj.Is.fine {ev : α → ℝ} {o : Obj α} {v : RealValue} (h : o.Is ev v) : o.Fine := by
  cases o <;> cases v <;> simp only [Obj.Is] at h <;> try trivial
  exact ⟨h.1.dtype, by rw [h.1.shape]; rfl⟩

theorem operand_scalar {ev : α → ℝ} {num : ℝ → α} (hnum : ∀ x, ev (num x) = x) {o : Obj α} {x : ℝ}
    (h : o.Is ev (.scalar x)) : ∃ a, o.operand num = .scalar a ∧ ev a = x := by
  cases o <;> simp only [Obj.Is] at h
  · exact ⟨_, rfl, by rw [hnum, h]⟩
  · exact ⟨_, rfl, by rw [hnum, h]⟩
  · exact ⟨_, rfl, h.symm⟩

theorem operand_matrix {ev : α → ℝ} {num : ℝ → α} (hnum : ∀ x, ev (num x) = x) {o : Obj α} {m n : ℕ}
    {M : Matrix (Fin m) (Fin n) ℝ} (h : o.Is ev (.matrix m n M)) : ∃ A, o.operand num = .matrix A ∧ A.Is ev M := by
  cases o <;> simp only [Obj.Is] at h
  · exact ⟨_, rfl, h.2⟩
  · exact ⟨_, rfl, h⟩
  · refine ⟨_, rfl, ?_, ?_, fun i j => ⟨_, map_get num h.1 i j, ?_⟩⟩
    · simp [NdArray.map, h.1.shape]
    · simp [NdArray.map, h.1.shape]
    · rw [hnum, h.2]

variable [Zero α] [Add α] [Sub α] [Mul α] [Div α] [Neg α]

omit [Zero α] [Add α] [Sub α] [Mul α] [Div α] [Neg α] in
theorem sumOp_right {ev : α → ℝ} {A : View α} {M : Matrix (Fin 1) (Fin 1) ℝ} (h : A.Is ev M) (op : α → α → α) (b : α) :
    ∃ a, ev a = M 0 0 ∧ sumOp op (.matrix A) (.scalar b) = some (.var (op a b)) := by
  obtain ⟨h1, h2, h3⟩ := h
  obtain ⟨a, ha, e⟩ := h3 0 0
  refine ⟨a, e, ?_⟩
  have : A.get 0 0 = some a := by simpa using ha
  simp [sumOp, h1, h2, this]

omit [Zero α] [Add α] [Sub α] [Mul α] [Div α] [Neg α] in
theorem sumOp_left {ev : α → ℝ} {A : View α} {M : Matrix (Fin 1) (Fin 1) ℝ} (h : A.Is ev M) (op : α → α → α) (b : α) :
    ∃ a, ev a = M 0 0 ∧ sumOp op (.scalar b) (.matrix A) = some (.var (op b a)) := by
  obtain ⟨h1, h2, h3⟩ := h
  obtain ⟨a, ha, e⟩ := h3 0 0
  refine ⟨a, e, ?_⟩
  have : A.get 0 0 = some a := by simpa using ha
  simp [sumOp, h1, h2, this]

theorem cpp_gives {ev : α → ℝ} (hev : Reals ev) {num : ℝ → α} (hnum : ∀ x, ev (num x) = x) {op : PyOp} {l r : Obj α}
    {v w z : RealValue} (hl : l.Is ev v) (hr : r.Is ev w) (h : Gives op v w z) :
    ∃ x, Py.cpp op.cpp (l.operand num) (r.operand num) = some x ∧ x.Is ev z := by
  cases h with
  | add x y =>
      obtain ⟨a, ha, ea⟩ := operand_scalar hnum hl
      obtain ⟨b, hb, eb⟩ := operand_scalar hnum hr
      exact ⟨_, by rw [ha, hb]; rfl, by rw [← ea, ← eb]; exact hev.add a b⟩
  | sub x y =>
      obtain ⟨a, ha, ea⟩ := operand_scalar hnum hl
      obtain ⟨b, hb, eb⟩ := operand_scalar hnum hr
      exact ⟨_, by rw [ha, hb]; rfl, by rw [← ea, ← eb]; exact hev.sub a b⟩
  | mul x y =>
      obtain ⟨a, ha, ea⟩ := operand_scalar hnum hl
      obtain ⟨b, hb, eb⟩ := operand_scalar hnum hr
      exact ⟨_, by rw [ha, hb]; rfl, by rw [← ea, ← eb]; exact hev.mul a b⟩
  | div x y hy =>
      obtain ⟨a, ha, ea⟩ := operand_scalar hnum hl
      obtain ⟨b, hb, eb⟩ := operand_scalar hnum hr
      exact ⟨_, by rw [ha, hb]; rfl, by rw [← ea, ← eb]; exact hev.div a b (by rwa [eb])⟩
  | addMat M N =>
      obtain ⟨A, ha, ea⟩ := operand_matrix hnum hl
      obtain ⟨B, hb, eb⟩ := operand_matrix hnum hr
      obtain ⟨C, h1, h2⟩ := add_correct hev ea eb
      exact ⟨.mat C, by rw [ha, hb]; simp [PyOp.cpp, Py.cpp, sumOp, h1], h2⟩
  | subMat M N =>
      obtain ⟨A, ha, ea⟩ := operand_matrix hnum hl
      obtain ⟨B, hb, eb⟩ := operand_matrix hnum hr
      obtain ⟨C, h1, h2⟩ := sub_correct hev ea eb
      exact ⟨.mat C, by rw [ha, hb]; simp [PyOp.cpp, Py.cpp, sumOp, h1], h2⟩
  | mulMat M N =>
      obtain ⟨A, ha, ea⟩ := operand_matrix hnum hl
      obtain ⟨B, hb, eb⟩ := operand_matrix hnum hr
      obtain ⟨C, h1, h2⟩ := mul_correct hev ea eb
      exact ⟨.mat C, by rw [ha, hb]; simp [PyOp.cpp, Py.cpp, h1], h2⟩
  | matmul M N =>
      obtain ⟨A, ha, ea⟩ := operand_matrix hnum hl
      obtain ⟨B, hb, eb⟩ := operand_matrix hnum hr
      obtain ⟨C, h1, h2⟩ := mul_correct hev ea eb
      exact ⟨.mat C, by rw [ha, hb]; simp [PyOp.cpp, Py.cpp, h1], h2⟩
  | addRight M y =>
      obtain ⟨A, ha, ea⟩ := operand_matrix hnum hl
      obtain ⟨b, hb, eb⟩ := operand_scalar hnum hr
      obtain ⟨a, h1, h2⟩ := sumOp_right ea (· + ·) b
      exact ⟨_, by rw [ha, hb]; exact h2, by rw [← h1, ← eb]; exact hev.add a b⟩
  | subRight M y =>
      obtain ⟨A, ha, ea⟩ := operand_matrix hnum hl
      obtain ⟨b, hb, eb⟩ := operand_scalar hnum hr
      obtain ⟨a, h1, h2⟩ := sumOp_right ea (· - ·) b
      exact ⟨_, by rw [ha, hb]; exact h2, by rw [← h1, ← eb]; exact hev.sub a b⟩
  | addLeft x N =>
      obtain ⟨a, ha, ea⟩ := operand_scalar hnum hl
      obtain ⟨B, hb, eb⟩ := operand_matrix hnum hr
      obtain ⟨b, h1, h2⟩ := sumOp_left eb (· + ·) a
      exact ⟨_, by rw [ha, hb]; exact h2, by rw [← h1, ← ea]; exact hev.add a b⟩
  | subLeft x N =>
      obtain ⟨a, ha, ea⟩ := operand_scalar hnum hl
      obtain ⟨B, hb, eb⟩ := operand_matrix hnum hr
      obtain ⟨b, h1, h2⟩ := sumOp_left eb (· - ·) a
      exact ⟨_, by rw [ha, hb]; exact h2, by rw [← h1, ← ea]; exact hev.sub a b⟩
  | mulRight M y =>
      obtain ⟨A, ha, ea⟩ := operand_matrix hnum hl
      obtain ⟨b, hb, eb⟩ := operand_scalar hnum hr
      obtain ⟨C, h1, h2⟩ := smul_correct hev ea b
      exact ⟨.mat C, by rw [ha, hb]; simp [PyOp.cpp, Py.cpp, h1], by rw [← eb]; exact h2⟩
  | mulLeft x N =>
      obtain ⟨a, ha, ea⟩ := operand_scalar hnum hl
      obtain ⟨B, hb, eb⟩ := operand_matrix hnum hr
      obtain ⟨C, h1, h2⟩ := smul_correct hev eb a
      exact ⟨.mat C, by rw [ha, hb]; simp [PyOp.cpp, Py.cpp, h1], by rw [← ea]; exact h2⟩
  | divRight M y hy =>
      obtain ⟨A, ha, ea⟩ := operand_matrix hnum hl
      obtain ⟨b, hb, eb⟩ := operand_scalar hnum hr
      obtain ⟨C, h1, h2⟩ := sdiv_correct hev ea b (by rwa [eb])
      exact ⟨.mat C, by rw [ha, hb]; simp [PyOp.cpp, Py.cpp, h1], by rw [← eb]; exact h2⟩

/-- C70: `l op r` has the value that the operator gives, whether the operands are numbers, `Variable`s, matrices, blocks
or NumPy arrays. -/
theorem py_arith_correct {ev : α → ℝ} (hev : Reals ev) {num : ℝ → α} (hnum : ∀ x, ev (num x) = x) {op : PyOp}
    {l r : Obj α} {v w z : RealValue} (hl : l.Is ev v) (hr : r.Is ev w) (own : Own l.kind r.kind)
    (hs : Supported op l.kind r.kind) (h : Gives op v w z) : ∃ x, binary num op l r = .ok x ∧ x.Is ev z := by
  obtain ⟨x, hx, hz⟩ := cpp_gives hev hnum hl hr h
  refine ⟨x, ?_, hz⟩
  rcases binary_supported (num := num) hl.fine hr.fine own hs with e | ⟨rfl, -⟩
  · rw [e, hx]; rfl
  · cases h

omit [Neg α] in
/-- C70: combinations of operands that an operator does not take raise `TypeError`. -/
theorem py_unsupported {ev : α → ℝ} {num : ℝ → α} {op : PyOp} {l r : Obj α} {v w : RealValue} (hl : l.Is ev v)
    (hr : r.Is ev w) (own : Own l.kind r.kind) (hs : ¬ Supported op l.kind r.kind) : binary num op l r = .typeError :=
  binary_unsupported hl.fine hr.fine own hs

omit [Neg α] in
theorem cpp_mismatch {ev : α → ℝ} {num : ℝ → α} (hnum : ∀ x, ev (num x) = x) {op : PyOp} {l r : Obj α}
    {v w : RealValue} (hl : l.Is ev v) (hr : r.Is ev w) (hs : Supported op l.kind r.kind)
    (hop : op = .add ∨ op = .sub ∨ op = .mul ∨ op = .matmul) (h : ∀ z, ¬ Gives op v w z) :
    Py.cpp op.cpp (l.operand num) (r.operand num) = none := by
  cases v with
  | scalar x =>
      obtain ⟨a, ha, ea⟩ := operand_scalar hnum hl
      cases w with
      | scalar y =>
          rcases hop with rfl | rfl | rfl | rfl
          · exact absurd (.add x y) (h _)
          · exact absurd (.sub x y) (h _)
          · exact absurd (.mul x y) (h _)
          · cases l <;> simp [Obj.Is] at hl <;> cases r <;> simp [Obj.Is] at hr <;> simp [Supported, Obj.kind] at hs
      | matrix p q N =>
          obtain ⟨B, hb, b1, b2, eb⟩ := operand_matrix hnum hr
          have key : op = .add ∨ op = .sub → ¬ (B.rows = 1 ∧ B.cols = 1) := by
            rintro ho ⟨c1, c2⟩
            obtain rfl : p = 1 := by omega
            obtain rfl : q = 1 := by omega
            rcases ho with rfl | rfl
            · exact h _ (.addLeft x N)
            · exact h _ (.subLeft x N)
          rcases hop with rfl | rfl | rfl | rfl
          · rw [ha, hb]; simp [PyOp.cpp, Py.cpp, sumOp, key (.inl rfl)]
          · rw [ha, hb]; simp [PyOp.cpp, Py.cpp, sumOp, key (.inr rfl)]
          · exact absurd (.mulLeft x N) (h _)
          · cases l <;> simp [Obj.Is] at hl <;> cases r <;> simp [Obj.Is] at hr <;> simp [Supported, Obj.kind] at hs
  | matrix m n M =>
      obtain ⟨A, ha, a1, a2, ea⟩ := operand_matrix hnum hl
      cases w with
      | scalar y =>
          obtain ⟨b, hb, eb⟩ := operand_scalar hnum hr
          have key : op = .add ∨ op = .sub → ¬ (A.rows = 1 ∧ A.cols = 1) := by
            rintro ho ⟨c1, c2⟩
            obtain rfl : m = 1 := by omega
            obtain rfl : n = 1 := by omega
            rcases ho with rfl | rfl
            · exact h _ (.addRight M y)
            · exact h _ (.subRight M y)
          rcases hop with rfl | rfl | rfl | rfl
          · rw [ha, hb]; simp [PyOp.cpp, Py.cpp, sumOp, key (.inl rfl)]
          · rw [ha, hb]; simp [PyOp.cpp, Py.cpp, sumOp, key (.inr rfl)]
          · exact absurd (.mulRight M y) (h _)
          · cases l <;> simp [Obj.Is] at hl <;> cases r <;> simp [Obj.Is] at hr <;> simp [Supported, Obj.kind] at hs
      | matrix p q N =>
          obtain ⟨B, hb, b1, b2, eb⟩ := operand_matrix hnum hr
          have key : op = .add ∨ op = .sub → ¬ (A.rows = B.rows ∧ A.cols = B.cols) := by
            rintro ho ⟨c1, c2⟩
            obtain rfl : m = p := by omega
            obtain rfl : n = q := by omega
            rcases ho with rfl | rfl
            · exact h _ (.addMat M N)
            · exact h _ (.subMat M N)
          have key' : op = .mul ∨ op = .matmul → ¬ A.cols = B.rows := by
            intro ho c
            obtain rfl : n = p := by omega
            rcases ho with rfl | rfl
            · exact h _ (.mulMat M N)
            · exact h _ (.matmul M N)
          rcases hop with rfl | rfl | rfl | rfl
          · rw [ha, hb]; simp [PyOp.cpp, Py.cpp, sumOp, zip, key (.inl rfl)]
          · rw [ha, hb]; simp [PyOp.cpp, Py.cpp, sumOp, zip, key (.inr rfl)]
          · rw [ha, hb]; simp [PyOp.cpp, Py.cpp, VMat.mul, key' (.inl rfl)]
          · rw [ha, hb]; simp [PyOp.cpp, Py.cpp, VMat.mul, key' (.inr rfl)]

omit [Neg α] in
/-- C70: operands whose sizes do not fit raise `ValueError`. -/
theorem py_size_mismatch {ev : α → ℝ} {num : ℝ → α} (hnum : ∀ x, ev (num x) = x) {op : PyOp} {l r : Obj α}
    {v w : RealValue} (hl : l.Is ev v) (hr : r.Is ev w) (own : Own l.kind r.kind) (hs : Supported op l.kind r.kind)
    (hop : op = .add ∨ op = .sub ∨ op = .mul ∨ op = .matmul) (h : ∀ z, ¬ Gives op v w z) :
    binary num op l r = .valueError := by
  rcases binary_supported (num := num) hl.fine hr.fine own hs with e | ⟨rfl, -⟩
  · rw [e, cpp_mismatch hnum hl hr hs hop h]; rfl
  · simp at hop

omit [Zero α] [Add α] [Sub α] [Mul α] [Div α] [Neg α] in
theorem operand_is {ev : α → ℝ} {m n : ℕ} {A : View α} {M : Matrix (Fin m) (Fin n) ℝ} (h : A.Is ev M) :
    (Operand.matrix A).Is ev m n fun i j => if h : i < m ∧ j < n then M ⟨i, h.1⟩ ⟨j, h.2⟩ else 0 := by
  refine ⟨h.1, h.2.1, fun i j hi hj => ?_⟩
  obtain ⟨a, h1, h2⟩ := h.2.2 ⟨i, hi⟩ ⟨j, hj⟩
  exact ⟨a, h1, h2.trans (by simp [hi, hj])⟩

omit [Zero α] [Add α] [Sub α] [Mul α] [Div α] [Neg α] in
/-- Comparable operands seen as the elements that are compared. -/
theorem comparable_operands {ev : α → ℝ} {num : ℝ → α} (hnum : ∀ x, ev (num x) = x) {l r : Obj α} {v w : RealValue}
    (hl : l.Is ev v) (hr : r.Is ev w) (hc : v.Comparable w) :
    ∃ m n f g, (l.operand num).Is ev m n f ∧ (r.operand num).Is ev m n g ∧
      ShapeOk m n (l.operand num) (r.operand num) ∧
      ∀ R : ℝ → ℝ → Prop, (∀ i j, i < m → j < n → R (f i j) (g i j)) ↔ v.Holds R w := by
  cases v with
  | scalar x =>
      obtain ⟨a, ha, ea⟩ := operand_scalar hnum hl
      cases w with
      | scalar y =>
          obtain ⟨b, hb, eb⟩ := operand_scalar hnum hr
          rw [ha, hb]
          exact ⟨1, 1, fun _ _ => x, fun _ _ => y, fun _ _ _ _ => ea, fun _ _ _ _ => eb, ⟨rfl, rfl⟩,
            fun R => ⟨fun h => h 0 0 one_pos one_pos, fun h _ _ _ _ => h⟩⟩
      | matrix p q N =>
          obtain ⟨B, hb, eb⟩ := operand_matrix hnum hr
          rw [ha, hb]
          refine ⟨p, q, fun _ _ => x, _, fun _ _ _ _ => ea, operand_is eb, trivial, fun R => ⟨fun h i j => ?_, fun h i j hi hj => ?_⟩⟩
          · have := h i j i.2 j.2
            rwa [dif_pos ⟨i.2, j.2⟩] at this
          · rw [dif_pos ⟨hi, hj⟩]
            exact h _ _
  | matrix m n M =>
      obtain ⟨A, ha, ea⟩ := operand_matrix hnum hl
      cases w with
      | scalar y =>
          obtain ⟨b, hb, eb⟩ := operand_scalar hnum hr
          rw [ha, hb]
          refine ⟨m, n, _, fun _ _ => y, operand_is ea, fun _ _ _ _ => eb, trivial, fun R => ⟨fun h i j => ?_, fun h i j hi hj => ?_⟩⟩
          · have := h i j i.2 j.2
            rwa [dif_pos ⟨i.2, j.2⟩] at this
          · rw [dif_pos ⟨hi, hj⟩]
            exact h _ _
      | matrix p q N =>
          obtain ⟨B, hb, eb⟩ := operand_matrix hnum hr
          obtain ⟨rfl, rfl⟩ := hc
          rw [ha, hb]
          refine ⟨m, n, _, _, operand_is ea, operand_is eb, trivial, fun R => ⟨fun h i j hi hj _ _ => ?_, fun h i j hi hj => ?_⟩⟩
          · have := h i j hi hj
            rwa [dif_pos ⟨hi, hj⟩, dif_pos ⟨hi, hj⟩] at this
          · rw [dif_pos ⟨hi, hj⟩, dif_pos ⟨hi, hj⟩]
            exact h i j hi hj hi hj

/-- The kind of constraint a comparison gives: `==` gives equality constraints, the others inequality constraints. -/
def Res.Constraint (op : PyOp) : Res α → Prop
  | .eq _ => op = .eq
  | .ineq _ => op ≠ .eq
  | _ => False

omit [Neg α] in
/-- C70: a comparison gives constraints, which are true exactly if the relation holds for all elements. `==` gives
equality constraints and the other comparisons inequality constraints. -/
theorem py_compare_correct {ev : α → ℝ} (hsub : ∀ a b, ev (a - b) = ev a - ev b) {num : ℝ → α}
    (hnum : ∀ x, ev (num x) = x) {op : PyOp} {R : ℝ → ℝ → Prop} (hR : op.Rel = some R) {l r : Obj α} {v w : RealValue}
    (hl : l.Is ev v) (hr : r.Is ev w) (own : Own l.kind r.kind) (hc : v.Comparable w) :
    ∃ x b, binary num op l r = .ok x ∧ x.Constraint op ∧ x.truth ev = some b ∧ (b = true ↔ v.Holds R w) := by
  obtain ⟨m, n, f, g, h1, h2, h3, h4⟩ := comparable_operands hnum hl hr hc
  have hs : Supported op l.kind r.kind := by cases op <;> trivial
  have e := binary_supported (num := num) hl.fine hr.fine own hs
  cases op <;> simp only [PyOp.Rel, Option.some.injEq, reduceCtorEq] at hR <;> subst hR
  · rcases e with e | ⟨-, e⟩
    · obtain ⟨c, k1, -, k3⟩ := eq_correct hsub h1 h2 h3
      exact ⟨.eq c, _, by rw [e]; simp [PyOp.cpp, Py.cpp, k1, ended], rfl, rfl, k3.trans (h4 _)⟩
    · obtain ⟨c, k1, -, k3⟩ := eq_correct hsub h2 h1 h3.symm
      refine ⟨.eq c, _, by rw [e]; simp [Py.cpp, k1, ended], rfl, rfl, k3.trans (Iff.trans ?_ (h4 _))⟩
      exact ⟨fun h i j hi hj => (h i j hi hj).symm, fun h i j hi hj => (h i j hi hj).symm⟩
  · obtain ⟨c, k1, -, k3⟩ := le_correct hsub h1 h2 h3
    replace e := e.resolve_right (by simp)
    exact ⟨.ineq c, _, by rw [e]; simp [PyOp.cpp, Py.cpp, (strict_is_weak _ _).1, k1, ended], by simp [Res.Constraint],
      rfl, k3.trans (h4 _)⟩
  · obtain ⟨c, k1, -, k3⟩ := le_correct hsub h1 h2 h3
    replace e := e.resolve_right (by simp)
    exact ⟨.ineq c, _, by rw [e]; simp [PyOp.cpp, Py.cpp, k1, ended], by simp [Res.Constraint], rfl, k3.trans (h4 _)⟩
  · obtain ⟨c, k1, -, k3⟩ := ge_correct hsub h1 h2 h3
    replace e := e.resolve_right (by simp)
    exact ⟨.ineq c, _, by rw [e]; simp [PyOp.cpp, Py.cpp, (strict_is_weak _ _).2, k1, ended], by simp [Res.Constraint],
      rfl, k3.trans (h4 _)⟩
  · obtain ⟨c, k1, -, k3⟩ := ge_correct hsub h1 h2 h3
    replace e := e.resolve_right (by simp)
    exact ⟨.ineq c, _, by rw [e]; simp [PyOp.cpp, Py.cpp, k1, ended], by simp [Res.Constraint], rfl, k3.trans (h4 _)⟩

omit [Neg α] in
/-- C70: comparing matrices of different sizes raises `ValueError`. -/
theorem py_compare_mismatch {ev : α → ℝ} {num : ℝ → α} (hnum : ∀ x, ev (num x) = x) {op : PyOp} (hR : op.Rel ≠ none)
    {l r : Obj α} {v w : RealValue} (hl : l.Is ev v) (hr : r.Is ev w) (own : Own l.kind r.kind) (hc : ¬ v.Comparable w) :
    binary num op l r = .valueError := by
  have hs : Supported op l.kind r.kind := by cases op <;> trivial
  have e := binary_supported (num := num) hl.fine hr.fine own hs
  cases v with
  | scalar x => cases w <;> exact absurd trivial hc
  | matrix m n M =>
      cases w with
      | scalar y => exact absurd trivial hc
      | matrix p q N =>
          obtain ⟨A, ha, a1, a2, -⟩ := operand_matrix hnum hl
          obtain ⟨B, hb, b1, b2, -⟩ := operand_matrix hnum hr
          have k1 : ¬ (A.rows = B.rows ∧ A.cols = B.cols) := by
            rintro ⟨c1, c2⟩; exact hc ⟨by omega, by omega⟩
          have k2 : ¬ (B.rows = A.rows ∧ B.cols = A.cols) := fun c => k1 ⟨c.1.symm, c.2.symm⟩
          rw [ha, hb] at e
          rcases e with e | ⟨-, e⟩ <;> rw [e] <;> cases op <;>
            simp [PyOp.Rel, PyOp.cpp, Py.cpp, eqOp, leOp, geOp, ltOp, gtOp, makeConstraints, k1, k2, ended] at hR ⊢

omit [Zero α] [Add α] [Sub α] [Mul α] [Div α] [Neg α] in
theorem accepts_dimension {num : ℝ → α} {a : NdArray} (ha : a.shape.length ≠ 2) (c : Bool) (t : Ty) :
    accepts num c t (.array a) = none := by
  cases t <;> simp [accepts, ha]

omit [Neg α] in
theorem callMethod_dimension {num : ℝ → α} {a : NdArray} (ha : a.shape.length ≠ 2) (self : Operand α) (l : List Overload) :
    callMethod num self l (.array a) = .notImplemented := by
  have h : ∀ c, (l.findSome? fun o => (accepts num c o.ty (.array a)).map fun a => (o, a)) = none := by
    intro c
    rw [List.findSome?_eq_none_iff]
    intro o _
    rw [accepts_dimension ha]
    rfl
  unfold callMethod
  simp only [h]
  rfl

omit [Neg α] in
theorem arrayUfunc_dimension {num : ℝ → α} {a : NdArray} (ha : a.shape.length ≠ 2) (self : Operand α) (f : Ufunc)
    {o : Obj α} (ho : eigenArg num o = none) (x : Res α) :
    (arrayUfunc num self f (.array a) o).ofUfunc ≠ .ok x ∧ (arrayUfunc num self f o (.array a)).ofUfunc ≠ .ok x := by
  have h : eigenArg num (.array a) = none ∨ eigenArg num (.array a) = some none := by
    unfold eigenArg
    by_cases h : a.dtype = .other <;> simp [h, ha]
  unfold arrayUfunc
  rcases h with h | h <;> cases f.cpp <;> simp [h, ho, Ret.ofUfunc, Ret.ofCpp]

omit [Neg α] in
/-- C70: operators of matrices and blocks with arrays that do not have two dimensions have no result. -/
theorem py_array_dimension {num : ℝ → α} {op : PyOp} {o : Obj α} {a : NdArray} (ho : o.kind = .mat ∨ o.kind = .block)
    (ha : a.shape.length ≠ 2) (x : Res α) : binary num op o (.array a) ≠ .ok x ∧ binary num op (.array a) o ≠ .ok x := by
  have key : ∀ (c : Class) (b : Operand α), o.self? = some (c, b) → c ≠ .var → eigenArg num o = none →
      binary num op o (.array a) ≠ .ok x ∧ binary num op (.array a) o ≠ .ok x := by
    intro c b h1 h2 h3
    have h4 := arrayUfunc_dimension ha b (o := o) (num := num) (x := x) (ho := h3)
    unfold binary
    simp only [h1, show (Obj.array a : Obj α).self? = none from rfl, callMethod_dimension ha, if_neg h2]
    refine ⟨?_, (h4 _).1⟩
    split
    · exact (h4 _).1
    · exact (h4 _).2
  cases o <;> simp [Obj.kind] at ho
  · exact key _ _ rfl (by decide) rfl
  · exact key _ _ rfl (by decide) rfl

end Slp.Py
